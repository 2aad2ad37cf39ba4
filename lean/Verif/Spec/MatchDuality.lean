import Verif.Spec.FlowMatching
import Mathlib.Data.Finset.Card
/-! Specification vocabulary for neighbourhoods, independent sets and edge covers of bipartite graphs. -/
namespace Verif.Spec
open Finset

/-- The right ends of the edges whose left end is in `A`. -/
def nbrs (E : List (Nat × Nat)) (A : Finset Nat) : Finset Nat :=
  ((E.filter fun e => e.1 ∈ A).map Prod.snd).toFinset

/-- No edge joins the left vertices `I` with the right vertices `J`. -/
def IsIndep (E : List (Nat × Nat)) (I J : Finset Nat) : Prop := ∀ e ∈ E, ¬(e.1 ∈ I ∧ e.2 ∈ J)

/-- `k` is the largest number of vertices, of `n` on the left and `m` on the right, with no edge between them. -/
def IsMaxIndep (n m : Nat) (E : List (Nat × Nat)) (k : Nat) : Prop :=
  (∃ I J, I ⊆ range n ∧ J ⊆ range m ∧ IsIndep E I J ∧ I.card + J.card = k) ∧
    ∀ I J, I ⊆ range n → J ⊆ range m → IsIndep E I J → I.card + J.card ≤ k

/-- The edges `F` of `E` touch every vertex, of `n` on the left and `m` on the right. -/
structure IsEdgeCover (n m : Nat) (E F : List (Nat × Nat)) : Prop where
  sub : ∀ e ∈ F, e ∈ E
  left : ∀ x < n, ∃ e ∈ F, e.1 = x
  right : ∀ y < m, ∃ e ∈ F, e.2 = y

/-- `k` is the least number of edges that touch every vertex. -/
def IsMinEdgeCover (n m : Nat) (E : List (Nat × Nat)) (k : Nat) : Prop :=
  (∃ F, IsEdgeCover n m E F ∧ F.length = k) ∧ ∀ F, IsEdgeCover n m E F → k ≤ F.length

end Verif.Spec
