import Verif.Spec.Tarjan
import Mathlib.Data.Finset.Card
/-! Specification vocabulary for related digraphs. -/
namespace Verif.Spec

/-- `g'` is `g` with all edges turned round. -/
structure IsTurned (g g' : List (List Nat)) : Prop where
  len : g'.length = g.length
  edge : ∀ x y, DEdge g' x y ↔ DEdge g y x

/-- `g'` is `g` with the edge `u → v` added (wherever in the list of `u`). -/
structure IsAdded (g g' : List (List Nat)) (u v : Nat) : Prop where
  len : g'.length = g.length
  edge : ∀ x y, DEdge g' x y ↔ DEdge g x y ∨ (x = u ∧ y = v)

/-- `g'` has one vertex for each colour and an edge between different colours whenever `g` has an edge between
vertices of these colours. -/
structure IsCondensed (g g' : List (List Nat)) (cnt : Nat) (color : List Nat) : Prop where
  len : g'.length = cnt
  edge : ∀ a b, DEdge g' a b ↔ a ≠ b ∧ ∃ x y, DEdge g x y ∧ color[x]? = some a ∧ color[y]? = some b

/-- Two colourings of the vertices below `n` have the same classes. -/
def SameClasses (n : Nat) (color color' : List Nat) : Prop :=
  ∀ x y, x < n → y < n → (color[x]? = color[y]? ↔ color'[x]? = color'[y]?)

end Verif.Spec
