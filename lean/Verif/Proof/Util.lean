import Verif.Model.Util
namespace Verif
open Res Model

theorem lg_eq {i : Nat} (h0 : i ≠ 0) (h : i < 2 ^ 64) : lg i = .ok (Nat.log2 i) := by
  have h2 : Nat.log2 i < 64 := (Nat.log2_lt h0).2 h
  have h1 : leadingZeros 64 i = 63 - Nat.log2 i := by
    simp only [leadingZeros, bitLen, h0, if_false]; omega
  simp only [lg, h1, subU]
  simp
  omega

theorem lg_zero : lg 0 = .panic := by decide

theorem ceilLg_eq {n : Nat} (h : n < 2 ^ 32) : ceilLg n = .ok (bitLen (n - 1)) := by
  have : bitLen (n - 1) ≤ 32 := bitLen_le_iff.2 (by omega)
  have hl : leadingZeros 32 (n - 1) = 32 - bitLen (n - 1) := rfl
  unfold ceilLg
  rw [hl, subU_of_le (by omega)]; congr 1; omega

end Verif
