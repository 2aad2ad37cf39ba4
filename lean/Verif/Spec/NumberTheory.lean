import Verif.Prelude.Res
/-! Specification of linear congruence systems. -/
namespace Verif.Spec

/-- `x` solves `a[i] * x = b[i] (mod m[i])` for every `i < a.length`. -/
def CongrSol (a b m : List Int) (x : Int) : Prop :=
  ∀ i < a.length, m.getD i 0 ∣ a.getD i 0 * x - b.getD i 0

/-- Every entry is an `i64`, `a[i] ≥ 0`, `m[i] > 0`, and `b`, `m` are long enough. -/
def CongrInput (a b m : List Int) : Prop :=
  a.length ≤ b.length ∧ a.length ≤ m.length ∧
  ∀ i < a.length, (0 ≤ a.getD i 0 ∧ a.getD i 0 < 2 ^ 63) ∧ (-2 ^ 63 ≤ b.getD i 0 ∧ b.getD i 0 < 2 ^ 63) ∧
    (0 < m.getD i 0 ∧ m.getD i 0 < 2 ^ 63)

/-- Bounds under which no `i64` operation of the solver overflows: `L` is a common multiple of the
moduli, `2 L ≤ 2^63`, `a[i] * L ≤ 2^62` and `|b[i]| ≤ 2^62`. -/
def CongrSmall (a b m : List Int) (L : Int) : Prop :=
  0 < L ∧ 2 * L ≤ 2 ^ 63 ∧
  ∀ i < a.length, m.getD i 0 ∣ L ∧ a.getD i 0 * L ≤ 2 ^ 62 ∧ -2 ^ 62 ≤ b.getD i 0 ∧ b.getD i 0 ≤ 2 ^ 62

/-- Every entry is an `i64` of any sign, and `b`, `m` are long enough. -/
def CongrAny (a b m : List Int) : Prop :=
  a.length ≤ b.length ∧ a.length ≤ m.length ∧
  ∀ i < a.length, -2 ^ 63 ≤ a.getD i 0 ∧ a.getD i 0 < 2 ^ 63 ∧ -2 ^ 63 ≤ b.getD i 0 ∧ b.getD i 0 < 2 ^ 63 ∧
    -2 ^ 63 ≤ m.getD i 0 ∧ m.getD i 0 < 2 ^ 63

/-- The bounds of `CongrSmall` for entries of any sign: `L` is a positive common multiple of the moduli
(so no modulus is zero), `2 L ≤ 2^63`, `|a[i] * L| ≤ 2^62` and `|b[i]| ≤ 2^62`. -/
def CongrSmallAny (a b m : List Int) (L : Int) : Prop :=
  0 < L ∧ 2 * L ≤ 2 ^ 63 ∧
  ∀ i < a.length, m.getD i 0 ∣ L ∧ -2 ^ 62 ≤ a.getD i 0 * L ∧ a.getD i 0 * L ≤ 2 ^ 62 ∧
    -2 ^ 62 ≤ b.getD i 0 ∧ b.getD i 0 ≤ 2 ^ 62

end Verif.Spec
