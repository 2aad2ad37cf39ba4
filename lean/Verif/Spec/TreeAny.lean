import Verif.Spec.Tree
/-! Vocabulary for undirected graphs that need not be trees. -/
namespace Verif.Spec

/-- `g` is the adjacency list of an undirected graph without self-loops and parallel edges. -/
structure IsSimpleGraph (g : List (List Nat)) : Prop where
  inRange : ∀ u v, v ∈ g.getD u [] → v < g.length
  symm : ∀ u v, v ∈ g.getD u [] → u ∈ g.getD v []
  irrefl : ∀ u, u ∉ g.getD u []
  nodup : ∀ u, (g.getD u []).Nodup

/-- There is a walk from `u` to `v`. -/
def Connected (g : List (List Nat)) (u v : Nat) : Prop := ∃ w, IsWalk g u v w

/-- `c` lists the vertices of a cycle: at least three, all different, consecutive ones adjacent, and the
last adjacent to the first. -/
structure IsCycle (g : List (List Nat)) (c : List Nat) : Prop where
  len : 3 ≤ c.length
  nodup : c.Nodup
  chain : c.IsChain (fun a b => b ∈ g.getD a [])
  closed : ∀ a b, c.head? = some a → c.getLast? = some b → a ∈ g.getD b []

/-- Some cycle passes through a vertex connected to `u`. -/
def HasCycleAt (g : List (List Nat)) (u : Nat) : Prop :=
  ∃ c x, IsCycle g c ∧ x ∈ c ∧ Connected g u x

/-- A walk of `k` edges that starts at `u`, whose first step does not go to `p` and that never goes straight
back along the edge it came by. -/
def NoReturnWalk (g : List (List Nat)) : Nat → Nat → Nat → Prop
  | 0, _, _ => True
  | k + 1, p, u => ∃ v ∈ g.getD u [], v ≠ p ∧ NoReturnWalk g k u v

/-- One vertex in the component of the root, the other not. -/
def Apart (g : List (List Nat)) (root u v : Nat) : Prop :=
  (Connected g root u ∧ v < g.length ∧ ¬ Connected g root v) ∨ (Connected g root v ∧ u < g.length ∧ ¬ Connected g root u)

/-- `z` is the greatest vertex that is the root or not connected to it. -/
def LastZero (g : List (List Nat)) (root z : Nat) : Prop :=
  z < g.length ∧ (z = root ∨ ¬ Connected g root z) ∧
    ∀ y, y < g.length → (y = root ∨ ¬ Connected g root y) → y ≤ z

end Verif.Spec
