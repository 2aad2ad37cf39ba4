import Verif.Prelude.Res
/-! Specification of decimal text, for parsing and displaying modints. -/
namespace Verif.Spec

/-- The value of a list of decimal digits. -/
def decValue : List Char → Nat := fun s => s.foldl (fun acc c => acc * 10 + (c.toNat - '0'.toNat)) 0

/-- `s` is a non-empty string of decimal digits with value `n`. -/
def DecimalText (s : List Char) (n : Nat) : Prop :=
  s ≠ [] ∧ (∀ c ∈ s, '0'.toNat ≤ c.toNat ∧ c.toNat ≤ '9'.toNat) ∧ decValue s = n

/-- `s` is a decimal integer with value `v`, with an optional sign; a minus sign only for signed types. -/
def IntText (signed : Bool) (s : List Char) (v : Int) : Prop :=
  (∃ n : Nat, DecimalText s n ∧ v = n) ∨ (∃ t, ∃ n : Nat, s = '+' :: t ∧ DecimalText t n ∧ v = n) ∨
    (signed = true ∧ ∃ t, ∃ n : Nat, s = '-' :: t ∧ DecimalText t n ∧ v = -n)

end Verif.Spec
