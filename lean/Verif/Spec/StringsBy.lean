/-! Comparing positions of a list with a given comparison. -/
namespace Verif

/-- Positions `i` and `j` exist, and `eq` holds of their elements in this order. -/
def PosEq {α : Type u} (eq : α → α → Bool) (s : List α) (i j : Nat) : Prop :=
  ∃ a b, s[i]? = some a ∧ s[j]? = some b ∧ eq a b = true

end Verif
