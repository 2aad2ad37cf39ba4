import Verif.Prelude.Int
/-! Facts about lowest set bits (`i & i.wrapping_neg()`, `i & (i - 1)`). -/
namespace Verif

/-- the lowest set bit of `i` (0 for 0). -/
def low (i : Nat) : Nat :=
  if i = 0 then 0 else if i % 2 = 1 then 1 else 2 * low (i / 2)
decreasing_by omega

theorem low_odd_mul (q k : Nat) : low ((2 * q + 1) * 2 ^ k) = 2 ^ k := by
  induction k with
  | zero => rw [low]; simp
  | succ k ih =>
    have hp := Nat.two_pow_pos k
    have h1 : (2 * q + 1) * 2 ^ (k + 1) = 2 * ((2 * q + 1) * 2 ^ k) := by
      rw [Nat.pow_succ]; simp only [Nat.mul_left_comm, Nat.mul_comm]
    have h2 : 0 < (2 * q + 1) * 2 ^ k := Nat.mul_pos (by omega) hp
    rw [low, h1, if_neg (by omega), if_neg (by omega), Nat.mul_div_cancel_left _ (by omega), ih,
      Nat.pow_succ]
    omega

theorem exists_odd (i : Nat) (h : 0 < i) : ∃ q k, i = (2 * q + 1) * 2 ^ k := by
  induction i using Nat.strongRecOn with
  | _ i ih =>
    by_cases h2 : i % 2 = 1
    · exact ⟨i / 2, 0, by omega⟩
    · obtain ⟨q, k, e⟩ := ih (i / 2) (by omega) (by omega)
      refine ⟨q, k + 1, ?_⟩
      have : i = 2 * (i / 2) := by omega
      rw [this, e, Nat.pow_succ]
      simp only [Nat.mul_left_comm, Nat.mul_comm]

theorem low_pos {i : Nat} (h : 0 < i) : 0 < low i := by
  obtain ⟨q, k, rfl⟩ := exists_odd i h
  rw [low_odd_mul]; exact Nat.two_pow_pos k

theorem low_le (i : Nat) : low i ≤ i := by
  by_cases h : i = 0
  · subst h; simp [low]
  · obtain ⟨q, k, rfl⟩ := exists_odd i (by omega)
    rw [low_odd_mul]
    exact Nat.le_mul_of_pos_left _ (by omega)

/-- `i + low i` has a lowest bit at least twice as large. -/
theorem low_add_low {i : Nat} (h : 0 < i) : 2 * low i ≤ low (i + low i) := by
  obtain ⟨q, k, rfl⟩ := exists_odd i h
  rw [low_odd_mul]
  obtain ⟨q', k', e⟩ := exists_odd (q + 1) (by omega)
  have : (2 * q + 1) * 2 ^ k + 2 ^ k = (2 * q' + 1) * 2 ^ (k' + (k + 1)) := by
    rw [Nat.pow_add, ← Nat.mul_assoc, ← e, Nat.pow_succ,
      show (2 * q + 1) * 2 ^ k + 2 ^ k = (2 * q + 2) * 2 ^ k by
        rw [← Nat.succ_mul],
      show (2 * q + 2) = (q + 1) * 2 by omega, Nat.mul_assoc, Nat.mul_comm 2]
  rw [this, low_odd_mul, ← Nat.pow_succ']
  exact Nat.pow_le_pow_right (by omega) (by omega)

/-- Strictly between `i` and `i + low i` the lowest bit does not reach back over `i`. -/
theorem low_between {i j : Nat} (hi : 0 < i) (h1 : i < j) (h2 : j < i + low i) :
    i ≤ j - low j := by
  obtain ⟨q, k, rfl⟩ := exists_odd i hi
  rw [low_odd_mul] at h2
  obtain ⟨t, rfl⟩ : ∃ t, j = (2 * q + 1) * 2 ^ k + t := ⟨j - (2 * q + 1) * 2 ^ k, by omega⟩
  obtain ⟨s, m, e⟩ := exists_odd t (by omega)
  have hm : m < k := by
    apply Nat.lt_of_not_le
    intro hle
    have : 2 ^ k ≤ 2 ^ m := Nat.pow_le_pow_right (by omega) hle
    have : 2 ^ m ≤ t := by rw [e]; exact Nat.le_mul_of_pos_left _ (by omega)
    omega
  have h3 : low ((2 * q + 1) * 2 ^ k + t) = 2 ^ m := by
    have : (2 * q + 1) * 2 ^ k + t = (2 * ((2 * q + 1) * 2 ^ (k - m - 1) + s) + 1) * 2 ^ m := by
      have hk : 2 ^ k = 2 * 2 ^ (k - m - 1) * 2 ^ m := by
        rw [← Nat.pow_succ', ← Nat.pow_add]; congr 1; omega
      rw [hk, e]
      simp only [Nat.add_mul, Nat.mul_add, Nat.mul_assoc, Nat.mul_left_comm, Nat.one_mul]
      omega
    rw [this, low_odd_mul]
  rw [h3]
  have : 2 ^ m ≤ t := by rw [e]; exact Nat.le_mul_of_pos_left _ (by omega)
  omega

theorem testBit_odd_mul (q k t : Nat) : ((2 * q + 1) * 2 ^ k).testBit t =
    (decide (t = k) || (decide (k < t) && q.testBit (t - k - 1))) := by
  rw [Nat.testBit_mul_two_pow]
  rcases Nat.lt_trichotomy t k with h | h | h
  · have h1 : ¬ k ≤ t := by omega
    have h2 : ¬ t = k := by omega
    have h3 : ¬ k < t := by omega
    simp [h1, h2, h3]
  · subst h; simp
  · obtain ⟨d, rfl⟩ : ∃ d, t = k + d + 1 := ⟨t - k - 1, by omega⟩
    rw [show k + d + 1 - k = d + 1 by omega, Nat.testBit_succ,
      show d + 1 - 1 = d by omega, show (2 * q + 1) / 2 = q by omega]
    have h1 : ¬ (k + d + 1 = k) := by omega
    have h2 : k ≤ k + d + 1 := by omega
    simp [h1, h2, h]

theorem testBit_odd_mul_pred (q k t : Nat) : ((2 * q + 1) * 2 ^ k - 1).testBit t =
    (decide (t < k) || (decide (k < t) && q.testBit (t - k - 1))) := by
  have hp := Nat.two_pow_pos k
  have e : (2 * q + 1) * 2 ^ k - 1 = 2 ^ k * (2 * q) + (2 ^ k - 1) := by
    rw [Nat.add_mul, Nat.one_mul, Nat.mul_comm (2 ^ k)]; omega
  rw [e, Nat.testBit_two_pow_mul_add _ (by omega)]
  rcases Nat.lt_trichotomy t k with h | h | h
  · simp [h, Nat.testBit_two_pow_sub_one]
  · subst h; simp
  · obtain ⟨d, rfl⟩ : ∃ d, t = k + d + 1 := ⟨t - k - 1, by omega⟩
    rw [if_neg (by omega), show k + d + 1 - k = d + 1 by omega, Nat.testBit_succ,
      show d + 1 - 1 = d by omega, show (2 * q) / 2 = q by omega]
    have : ¬ (k + d + 1 < k) := by omega
    have h' : k < k + d + 1 := by omega
    simp [this, h']

/-- `i & i.wrapping_neg()` is the lowest set bit. -/
theorem and_wneg (i : Nat) (h0 : 0 < i) (h : i < 2 ^ 64) : i &&& wnegU 64 i = low i := by
  have hw : wnegU 64 i = 2 ^ 64 - ((i - 1) + 1) := by
    unfold wnegU
    rw [Nat.mod_eq_of_lt h, Nat.mod_eq_of_lt (by omega)]; congr 1; omega
  obtain ⟨q, k, rfl⟩ := exists_odd i h0
  rw [low_odd_mul, hw]
  have hk : k < 64 := by
    apply Nat.lt_of_not_le; intro hle
    have h1 : 2 ^ 64 ≤ 2 ^ k := Nat.pow_le_pow_right (by omega) hle
    have h2 : 2 ^ k ≤ (2 * q + 1) * 2 ^ k := Nat.le_mul_of_pos_left _ (by omega)
    omega
  apply Nat.eq_of_testBit_eq
  intro t
  rw [Nat.testBit_and, Nat.testBit_two_pow_sub_succ (by omega), testBit_odd_mul,
    testBit_odd_mul_pred, Nat.testBit_two_pow]
  rcases Nat.lt_trichotomy t k with h | h | h
  · have h1 : ¬ t = k := by omega
    have h2 : ¬ k < t := by omega
    have h3 : ¬ k = t := by omega
    simp [h1, h2, h3]
  · subst h; simp [hk]
  · have h1 : ¬ t = k := by omega
    have h2 : ¬ t < k := by omega
    have h3 : ¬ k = t := by omega
    simp [h1, h2, h3, h]
    intro a _; exact a

/-- `i & (i - 1)` clears the lowest set bit. -/
theorem and_pred (i : Nat) (h0 : 0 < i) : i &&& (i - 1) = i - low i := by
  obtain ⟨q, k, rfl⟩ := exists_odd i h0
  rw [low_odd_mul]
  have e : (2 * q + 1) * 2 ^ k - 2 ^ k = q * 2 ^ (k + 1) := by
    rw [Nat.add_mul, Nat.one_mul, Nat.add_sub_cancel, Nat.pow_succ, Nat.mul_comm 2 q,
      Nat.mul_assoc, Nat.mul_comm 2]
  rw [e]
  apply Nat.eq_of_testBit_eq
  intro t
  rw [Nat.testBit_and, testBit_odd_mul, testBit_odd_mul_pred, Nat.testBit_mul_two_pow]
  rcases Nat.lt_trichotomy t k with h | h | h
  · have h1 : ¬ t = k := by omega
    have h2 : ¬ k < t := by omega
    simp [h1, h2]; omega
  · subst h
    have : ¬ t + 1 ≤ t := by omega
    simp [this]
  · have h1 : ¬ t = k := by omega
    have h2 : ¬ t < k := by omega
    have h3 : k + 1 ≤ t := by omega
    simp [h1, h2, h3, h, Nat.sub_sub]

/-- `i & -i = i` says that `i` is a power of two. -/
theorem low_eq_self_iff {i : Nat} (h : 0 < i) : low i = i ↔ ∃ k, i = 2 ^ k := by
  constructor
  · intro e
    obtain ⟨q, k, rfl⟩ := exists_odd i h
    rw [low_odd_mul] at e; exact ⟨k, e.symm⟩
  · rintro ⟨k, rfl⟩
    have := low_odd_mul 0 k
    simpa using this

end Verif
