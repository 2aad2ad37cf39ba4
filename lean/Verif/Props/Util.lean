import Verif.Proof.Util
/-! C01: `lg` and `ceil_lg` are exact integer logarithms. -/
namespace Verif.Props
open Res Model

/-- C01: for every non-zero `usize`, `lg` returns the floor of the binary logarithm. -/
theorem C01_lg (i : Nat) (h0 : 1 ≤ i) (h : i < 2 ^ 64) :
    ∃ k, lg i = .ok k ∧ 2 ^ k ≤ i ∧ i < 2 ^ (k + 1) ∧
      ∀ k', 2 ^ k' ≤ i → i < 2 ^ (k' + 1) → k' = k := by
  have hi : i ≠ 0 := by omega
  refine ⟨_, lg_eq hi h, Nat.log2_self_le hi, Nat.lt_log2_self, ?_⟩
  intro k' h1 h2
  have a := (Nat.le_log2 hi).2 h1
  have b := (Nat.log2_lt hi).2 h2
  omega

example : lg 1000 = .ok 9 := by decide

/-- C01: `lg(0)` panics (subtraction overflow). -/
theorem C01_lg_zero : lg 0 = .panic := lg_zero

/-- C01: for every `u32`, `ceil_lg n` is the least `k` with `n ≤ 2^k`. -/
theorem C01_ceil_lg (n : Nat) (h : n < 2 ^ 32) :
    ∃ k, ceilLg n = .ok k ∧ n ≤ 2 ^ k ∧ ∀ k', n ≤ 2 ^ k' → k ≤ k' := by
  refine ⟨_, ceilLg_eq h, ?_, ?_⟩
  · have := bitLen_le_iff (x := n - 1) (k := bitLen (n - 1))
    have := this.1 (Nat.le_refl _); omega
  · intro k' hk
    refine bitLen_le_iff.2 ?_
    have := Nat.two_pow_pos k'
    omega

example : ceilLg 0 = .ok 0 ∧ ceilLg 1 = .ok 0 ∧ ceilLg 9 = .ok 4 ∧
    ceilLg (2 ^ 32 - 1) = .ok 32 := by decide

end Verif.Props
