import Mathlib.Data.Nat.Prime.Basic
import Verif.Prelude.Res
/-! Specifications for `internal_math`. -/
namespace Verif.Spec

/-- `n` is a strong probable prime to base `a`: with `n - 1 = 2^s d`, `d` odd, either `a^d = 1` or
`a^(2^r d) = -1` modulo `n` for some `r < s`. -/
def StrongProbablePrime (n a : Nat) : Prop :=
  ∃ s d, n - 1 = 2 ^ s * d ∧ d % 2 = 1 ∧ (a ^ d % n = 1 ∨ ∃ r < s, a ^ (2 ^ r * d) % n = n - 1)

/-- `g` is a primitive root modulo `m`: every residue from `1` to `m - 1` is a power of `g`. -/
def IsPrimitiveRootMod (m g : Nat) : Prop := ∀ x, 1 ≤ x → x < m → ∃ k, g ^ k % m = x

/-- No prime factor `q` of the even part of `m - 1` has `g^((m - 1) / q) = 1 (mod m)`; for `m` even the prime 2
is tested as well, with the exponent rounded down. -/
def PassesRootTest (m g : Nat) : Prop :=
  ∀ q : Nat, q.Prime → q ∣ 2 * ((m - 1) / 2) → g ^ ((m - 1) / q) % m ≠ 1

end Verif.Spec
