import Verif.Proof.Sprp.Table
import Verif.Proof.Sprp.RunEntries
import Verif.Proof.Sprp.RunGaps
import Verif.Proof.Sprp.RunDivs
import Verif.Proof.Sprp.RunLarge
import Verif.Proof.Sprp.RunRootsA
import Verif.Proof.Sprp.RunRootsB
import Mathlib.Tactic.IntervalCases
import Mathlib.Tactic.NormNum.Prime
/-! Below `2 ^ 31` the strong test to the bases 2, 7, 61 accepts only primes. -/
namespace Verif.Sprp
open Spec

theorem smallP_le (q : Nat) (hq : q.Prime) (h : q ∣ smallP) : q ≤ 255 := by
  have h1 : smallP ∣ prodR 8 0 := Nat.dvd_of_mod_eq_zero (by decide +kernel)
  have h2 := prodR_sound hq 8 0 (h.trans h1)
  have h3 : q ≠ 256 := by rintro rfl; exact absurd hq (by norm_num)
  omega

theorem bigP_le (q : Nat) (hq : q.Prime) (h : q ∣ bigP) : q ≤ 65536 := by
  have h1 : bigP ∣ prodR 16 0 := Nat.dvd_of_mod_eq_zero (by decide +kernel)
  have h2 := prodR_sound hq 16 0 (h.trans h1)
  omega

theorem small_in : ∀ q < 256, q < 2 ∨ (∃ d < q, 2 ≤ d ∧ q % d = 0) ∨ q = 2 ∨ q = 7 ∨ q = 61 ∨ ∃ i < 51, tp tab i = q := by
  decide +kernel

theorem gap_odd {tab pr i : Nat} (h : gap tab pr i = true) : tp tab (i + 1) % 2 = 1 := by
  obtain ⟨p, hp, h⟩ := pos_of h
  obtain ⟨p', hp', h⟩ := pos_of h
  have hp' : tp tab (i + 1) = p' + 1 := hp'
  obtain ⟨h0, h⟩ := and_of h
  rw [hp']
  exact beq_of h0

theorem mid_in (k : Nat) (hk : 50 + k < 6539) : tp tab (50 + k) % 2 = 1 ∧
    ∀ q, q.Prime → 255 < q → q ≤ tp tab (50 + k) → ∃ i < 6539, tp tab i = q := by
  induction k with
  | zero =>
    have h : tp tab 50 = 251 := by decide +kernel
    rw [Nat.add_zero, h]
    exact ⟨rfl, fun q _ h1 h2 => by omega⟩
  | succ k ih =>
    obtain ⟨h1, h2⟩ := ih (by omega)
    have hg := gap_all (50 + k) (by omega) (by omega)
    refine ⟨gap_odd hg, fun q hq h255 hle => ?_⟩
    by_cases h3 : q ≤ tp tab (50 + k)
    · exact h2 q hq h255 h3
    · have h4 := (gap_sound smallP_le hg h1 hq h255 (by omega)).1
      exact ⟨50 + (k + 1), by omega, by
        rw [show 50 + (k + 1) = 50 + k + 1 by omega] at hle ⊢
        omega⟩

/-- Every prime below 65536 other than 2, 7, 61 is in the table. -/
theorem prime_in {q : Nat} (hq : q.Prime) (h : q ≤ 65536) (h2 : q ≠ 2) (h7 : q ≠ 7) (h61 : q ≠ 61) :
    ∃ i < 6539, tp tab i = q := by
  by_cases h255 : 255 < q
  · by_cases hl : q ≤ 65521
    · have h := (mid_in 6488 (by omega)).2 q hq h255
      have e : tp tab (50 + 6488) = 65521 := by decide +kernel
      rw [e] at h
      exact h hl
    · exfalso
      have : 65522 ≤ q := by omega
      interval_cases q <;> exact absurd hq (by norm_num)
  · rcases small_in q (by omega) with h | ⟨d, h1, h2', h3⟩ | h | h | h | ⟨i, hi, e⟩
    · have := hq.two_le; omega
    · exfalso
      rcases (Nat.dvd_prime hq).1 (Nat.dvd_of_mod_eq_zero h3) with h | h <;> omega
    · exact absurd h h2
    · exact absurd h h7
    · exact absurd h h61
    · exact ⟨i, by omega, e⟩

theorem dvd_bigP (q : Nat) (hq : q.Prime) (h : q ≤ 65536) : q ∣ bigP := by
  apply Nat.dvd_of_mod_eq_zero
  by_cases h2 : q = 2
  · subst h2; decide +kernel
  by_cases h7 : q = 7
  · subst h7; decide +kernel
  by_cases h61 : q = 61
  · subst h61; decide +kernel
  obtain ⟨i, hi, e⟩ := prime_in hq h h2 h7 h61
  rw [← e]
  exact div_all i hi

/-- An odd number below `2 ^ 31` that is a strong probable prime to the bases 2, 7, 61 is prime. -/
theorem prime_of_pass {n : Nat} (h3 : 3 ≤ n) (ho : n % 2 = 1) (hn : n < 2 ^ 31) (h : Pass n) : n.Prime := by
  by_contra hnp
  obtain ⟨f2, f7, f61⟩ := h.fermat (by omega)
  by_cases hl : ∃ q, q.Prime ∧ q ∣ n ∧ 65536 < q
  · obtain ⟨q, hq, ⟨c, rfl⟩, hq2⟩ := hl
    have hc1 : c ≠ 1 := by rintro rfl; rw [Nat.mul_one] at hnp; exact hnp hq
    have hc0 : c ≠ 0 := by rintro rfl; omega
    have hco : c % 2 = 1 := by
      rcases Nat.mod_two_eq_zero_or_one c with h0 | h0
      · rw [Nat.mul_mod, h0] at ho; simp at ho
      · exact h0
    have hcl : c < 32768 := by
      by_contra hc
      have : 65537 * 32768 ≤ q * c := Nat.mul_le_mul (by omega) (by omega)
      omega
    have hk := large_all ((c - 1) / 2 - 1) (by omega)
    obtain ⟨k, hk1, hk2⟩ := pos_of (n := Nat.mul 2 (Nat.succ ((c - 1) / 2 - 1)))
      (f := fun k => large bigP (Nat.succ k)) hk
    have hk1 : 2 * ((c - 1) / 2 - 1 + 1) = k + 1 := hk1
    have ec : c = (k + 1) + 1 := by omega
    rw [Nat.mul_comm, ec] at h hn
    exact large_sound dvd_bigP bigP_le (by omega) hk2 hq hq2 hn h
  · have hl : ∀ q, q.Prime → q ∣ n → q ≤ 65536 := fun q hq hd => by
      by_contra hc
      exact hl ⟨q, hq, hd, by omega⟩
    have hnd : ∀ a, a.Prime → a ^ (n - 1) % n = 1 → ¬ a ∣ n := by
      intro a ha hf hd
      have h1 := zpow_dvd ha.two_le (by omega) hd hf
      rw [Nat.mod_eq_zero_of_dvd (dvd_pow_self a (by omega))] at h1
      omega
    refine roots_sound (tab := tab) ?_ (n := n) ⟨h3, ho, hn, h, ?_⟩ hnp ?_
    · intro i hi
      by_cases h250 : i < 250
      · exact root_all_A i h250
      · exact root_all_B i (by omega) hi
    · intro i hi hp hd
      exact entry_sound (entry_all i hi) (by omega) h hp hd
    · intro s hs hd
      refine prime_in hs (hl s hs hd) ?_ ?_ ?_
      · rintro rfl; omega
      · rintro rfl; exact hnd 7 hs f7 hd
      · rintro rfl; exact hnd 61 hs f61 hd

end Verif.Sprp
