/-! Specification vocabulary for shortest paths: walks of a weighted digraph. -/
namespace Verif.Spec

/-- `Walk g s v w`: some walk from `s` to `v` along edges of the adjacency list `g` has total
weight `w`. -/
inductive Walk (g : List (List (Nat × Nat))) (s : Nat) : Nat → Nat → Prop where
  | nil : Walk g s s 0
  | snoc {u v w c : Nat} : Walk g s u w → (v, c) ∈ g.getD u [] → Walk g s v (w + c)

/-- `d` is the least total weight of a walk from `s` to `v`. -/
def IsDist (g : List (List (Nat × Nat))) (s v d : Nat) : Prop :=
  Walk g s v d ∧ ∀ w, Walk g s v w → d ≤ w

/-- Every edge ends at a vertex of the graph. -/
def EdgesInRange (g : List (List (Nat × Nat))) : Prop :=
  ∀ u v c, (v, c) ∈ g.getD u [] → v < g.length

/-- Some vertex reachable from `s` has an edge that ends outside the graph. -/
def LeavesGraph (g : List (List (Nat × Nat))) (s : Nat) : Prop :=
  ∃ u d v c, Walk g s u d ∧ (v, c) ∈ g.getD u [] ∧ g.length ≤ v

/-- Some distance plus the weight of an edge leaving that vertex exceeds `usize::MAX`. -/
def DistOverflow (g : List (List (Nat × Nat))) (s : Nat) : Prop :=
  ∃ u d v c, IsDist g s u d ∧ (v, c) ∈ g.getD u [] ∧ 2 ^ 64 ≤ d + c

end Verif.Spec
