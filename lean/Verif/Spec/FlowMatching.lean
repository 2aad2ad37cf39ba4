import Verif.Spec.Flow
import Verif.Spec.Bipartite
/-! The flow network of a bipartite graph, and vertex covers. -/
namespace Verif.Spec

/-- The unit network of the bipartite graph `E` with `n` left and `m` right vertices: vertex `u` on the left is
`u`, `v` on the right is `n + v`, the source is `n + m`, the sink `n + m + 1`. -/
def unitNet (n m : Nat) (E : List (Nat × Nat)) : List (Nat × Nat × Int) :=
  (List.range n).map (fun u => (n + m, u, 1)) ++ E.map (fun e => (e.1, n + e.2, 1)) ++
    (List.range m).map (fun v => (n + v, n + m + 1, 1))

/-- The left vertices `C` and the right vertices `D` touch every edge. -/
def IsCover (E : List (Nat × Nat)) (C D : Finset Nat) : Prop := ∀ e ∈ E, e.1 ∈ C ∨ e.2 ∈ D

/-- `k` is the least number of vertices that touch every edge. -/
def IsMinCover (E : List (Nat × Nat)) (k : Nat) : Prop :=
  (∃ C D, IsCover E C D ∧ C.card + D.card = k) ∧ ∀ C D, IsCover E C D → k ≤ C.card + D.card

end Verif.Spec
