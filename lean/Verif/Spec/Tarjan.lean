import Mathlib.Data.List.Basic
import Mathlib.Logic.Relation
/-! Specification vocabulary for strongly connected components. -/
namespace Verif.Spec

/-- `x → y` is an edge of the adjacency list `g`. -/
def DEdge (g : List (List Nat)) (x y : Nat) : Prop := ∃ a, g[x]? = some a ∧ y ∈ a

/-- There is a directed path from `x` to `y`. -/
def DReach (g : List (List Nat)) : Nat → Nat → Prop := Relation.ReflTransGen (DEdge g)

/-- Some edge ends outside the graph. -/
def DLeaves (g : List (List Nat)) : Prop := ∃ x y, DEdge g x y ∧ g.length ≤ y

end Verif.Spec
