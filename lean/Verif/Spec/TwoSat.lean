import Verif.Spec.Tarjan
/-! Specification vocabulary for 2-satisfiability and acyclic graphs. -/
namespace Verif.Spec

/-- Literals are numbers: `2 * i` is the variable `i`, `2 * i + 1` its negation. The other literal of the variable. -/
def litNeg (a : Nat) : Nat := if a % 2 = 0 then a + 1 else a - 1

/-- The literal is true. -/
def LitTrue (σ : Nat → Bool) (a : Nat) : Prop := if a % 2 = 0 then σ (a / 2) = true else σ (a / 2) = false

/-- Every clause has a true literal. -/
def SatAll (σ : Nat → Bool) (C : List (Nat × Nat)) : Prop := ∀ c ∈ C, LitTrue σ c.1 ∨ LitTrue σ c.2

/-- The implication graph of clauses over `n` variables: from the negation of each literal of a clause to the other
literal. -/
def implGraph (n : Nat) (C : List (Nat × Nat)) : List (List Nat) :=
  (List.range (2 * n)).map fun x =>
    (C.filter fun c => litNeg c.1 = x).map Prod.snd ++ (C.filter fun c => litNeg c.2 = x).map Prod.fst

/-- No closed walk of one or more edges. -/
def Acyclic (g : List (List Nat)) : Prop := ∀ x, ¬ Relation.TransGen (DEdge g) x x

end Verif.Spec
