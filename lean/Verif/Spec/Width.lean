import Verif.Spec.Dijkstra
/-! Specification vocabulary for targets where `usize` has `N` bits. -/
namespace Verif.Spec

/-- Some distance plus the weight of an edge leaving that vertex exceeds `usize::MAX` on such a target. -/
def DistOverflowAt (N : Nat) (g : List (List (Nat × Nat))) (s : Nat) : Prop :=
  ∃ u d v c, IsDist g s u d ∧ (v, c) ∈ g.getD u [] ∧ 2 ^ N ≤ d + c

end Verif.Spec
