import Verif.Spec.Dijkstra
/-! Specification vocabulary for relations between shortest distances in related graphs. -/
namespace Verif.Spec

/-- `h` has the edges of `g` in the opposite direction (how often and in which order does not matter). -/
structure IsReverse (g h : List (List (Nat × Nat))) : Prop where
  length : h.length = g.length
  edge : ∀ u v c, (v, c) ∈ g.getD u [] ↔ (u, c) ∈ h.getD v []

/-- `h` is `g` with one more edge, from `a` to `b` of weight `c`. -/
structure IsAddEdge (g h : List (List (Nat × Nat))) (a b c : Nat) : Prop where
  length : h.length = g.length
  edge : ∀ u e, e ∈ h.getD u [] ↔ e ∈ g.getD u [] ∨ (u = a ∧ e = (b, c))

/-- No edge raises `p` by more than its weight. -/
def Feasible (g : List (List (Nat × Nat))) (p : Nat → Nat) : Prop :=
  ∀ u v c, (v, c) ∈ g.getD u [] → p v ≤ p u + c

/-- The weights reduced by a feasible `p`: an edge from `u` to `v` of weight `c` gets the weight `c + p u - p v`. -/
def reduced (g : List (List (Nat × Nat))) (p : Nat → Nat) : List (List (Nat × Nat)) :=
  g.mapIdx fun u l => l.map fun e => (e.1, p u + e.2 - p e.1)

/-- All weights multiplied by `k`. -/
def scaled (g : List (List (Nat × Nat))) (k : Nat) : List (List (Nat × Nat)) :=
  g.map fun l => l.map fun e => (e.1, k * e.2)

/-- One more vertex, with edges of weight 0 to all of `S`. -/
def withSource (g : List (List (Nat × Nat))) (S : List Nat) : List (List (Nat × Nat)) :=
  g ++ [S.map fun s => (s, 0)]

/-- `x` is the least number with the property. -/
def Least (P : Nat → Prop) (x : Nat) : Prop := P x ∧ ∀ y, P y → x ≤ y

end Verif.Spec
