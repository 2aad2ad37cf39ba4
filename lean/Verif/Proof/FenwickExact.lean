import Verif.Proof.Fenwick
import Verif.Prelude.SatOr
/-! The Fenwick tree with a checked addition: exactly when it panics. -/
namespace Verif.FenwickP
open Res Model Spec

variable {A : Type} [AddCommMonoid A] {add sub : A → A → Res A} {Fits : A → Prop}

theorem floor_eq {i m x : ℕ} (h1 : 2 ^ m ∣ x) (h2 : x ≤ i) (h3 : i < x + 2 ^ m) : i / 2 ^ m * 2 ^ m = x := by
  obtain ⟨q, rfl⟩ := h1
  have hp := Nat.two_pow_pos m
  have : i / 2 ^ m = q := by
    rw [Nat.div_eq_iff hp]
    constructor
    · rw [Nat.mul_comm]; exact h2
    · rw [Nat.mul_comm q]; omega
  rw [this, Nat.mul_comm]

theorem floor_le (i m : ℕ) : i / 2 ^ m * 2 ^ m ≤ i := Nat.div_mul_le_self _ _

theorem lt_floor (i m : ℕ) : i < i / 2 ^ m * 2 ^ m + 2 ^ m := Nat.lt_div_mul_add (Nat.two_pow_pos m)

theorem floor_anti (i : ℕ) {m m' : ℕ} (h : m ≤ m') : i / 2 ^ m' * 2 ^ m' ≤ i / 2 ^ m * 2 ^ m := by
  have h1 := floor_le i m'
  have hd : 2 ^ m ∣ i / 2 ^ m' * 2 ^ m' := Nat.dvd_trans (Nat.pow_dvd_pow 2 h) (Nat.dvd_mul_left _ _)
  obtain ⟨q, hq⟩ := hd
  rw [hq] at h1 ⊢
  rw [Nat.mul_comm]
  refine Nat.mul_le_mul_right _ ?_
  rw [Nat.le_div_iff_mul_le (Nat.two_pow_pos m), Nat.mul_comm]
  exact h1

theorem dvd_low {j m : ℕ} (hj : 0 < j) (h : 2 ^ m ∣ j) : 2 ^ m ≤ low j := by
  obtain ⟨q, k, rfl⟩ := exists_odd j hj
  rw [low_odd_mul]
  refine Nat.pow_le_pow_right (by omega) ?_
  apply Nat.le_of_not_lt
  intro hlt
  have h1 : 2 ^ (k + 1) ∣ (2 * q + 1) * 2 ^ k := Nat.dvd_trans (Nat.pow_dvd_pow 2 hlt) h
  rw [Nat.pow_succ, Nat.mul_comm (2 ^ k) 2] at h1
  have := Nat.dvd_of_mul_dvd_mul_right (Nat.two_pow_pos k) h1
  omega

/-- One step of the walk of `pref`. -/
theorem floor_step {i j : ℕ} (hj : 0 < j) (h : ∃ m, i / 2 ^ m * 2 ^ m = j) :
    (∃ m, i / 2 ^ m * 2 ^ m = j - low j) ∧
    ∀ m', i / 2 ^ m' * 2 ^ m' < j → i / 2 ^ m' * 2 ^ m' ≤ j - low j := by
  obtain ⟨m, hm⟩ := h
  obtain ⟨q, k, hk⟩ := exists_odd j hj
  have hlow : low j = 2 ^ k := by rw [hk, low_odd_mul]
  have hmk : 2 ^ m ≤ 2 ^ k := by rw [← hlow]; exact dvd_low hj (hm ▸ Nat.dvd_mul_left _ _)
  have h1 := floor_le i m
  have h2 := lt_floor i m
  rw [hm] at h1 h2
  have hFk : i / 2 ^ k * 2 ^ k = j := floor_eq (by rw [hk]; exact Nat.dvd_mul_left _ _) h1 (by omega)
  have hle := low_le j
  have hFk1 : i / 2 ^ (k + 1) * 2 ^ (k + 1) = j - low j := by
    refine floor_eq ?_ (by omega) (by rw [Nat.pow_succ]; omega)
    rw [hlow, hk, Nat.add_mul, Nat.one_mul, Nat.add_sub_cancel, Nat.pow_succ]
    exact ⟨q, by rw [Nat.mul_comm 2 q, Nat.mul_assoc, Nat.mul_comm 2, Nat.mul_comm q]⟩
  refine ⟨⟨_, hFk1⟩, fun m' hlt => ?_⟩
  by_cases hmm : m' ≤ k
  · have := floor_anti i hmm; omega
  · have := floor_anti i (show k + 1 ≤ m' by omega); omega

theorem pref_satOr (hc : ExactAdd add sub Fits) {t : Fenwick A} {a : List A} (hr : Rep t a) {i : ℕ}
    (hi : i ≤ a.length) :
    SatOr (∃ m, i / 2 ^ m * 2 ^ m < i ∧ ¬ Fits (rsum (fn a) (i / 2 ^ m * 2 ^ m) i)) (t.pref add 0 i)
      (fun s => s = rsum (fn a) 0 i ∧
        ∀ m, i / 2 ^ m * 2 ^ m < i → Fits (rsum (fn a) (i / 2 ^ m * 2 ^ m) i)) := by
  unfold Fenwick.pref
  refine satOr_bind ((whileLoop_satOr (cond := fun st : ℕ × A => decide (st.1 > 0))
    (I := fun st : ℕ × A => st.1 ≤ i ∧ st.2 = rsum (fn a) st.1 i ∧ (∃ m, i / 2 ^ m * 2 ^ m = st.1) ∧
      ∀ m, st.1 ≤ i / 2 ^ m * 2 ^ m → i / 2 ^ m * 2 ^ m < i → Fits (rsum (fn a) (i / 2 ^ m * 2 ^ m) i))
    (μ := fun st => st.1) ?_ (i + 1) (i, 0) ?_ ?_).mono ?_)
  · rintro ⟨j, s⟩ ⟨h1, h2, h3, h4⟩ hj
    simp only [gt_iff_lt, decide_eq_true_eq] at h1 h2 h3 h4 hj
    subst h2
    have hlp := low_pos hj
    have hle := low_le j
    obtain ⟨h5, h6⟩ := floor_step hj h3
    have e : rsum (fn a) j i + rsum (fn a) (j - low j) j = rsum (fn a) (j - low j) i := by
      rw [add_comm]; exact rsum_split (by omega) h1
    simp only [idx_of_some (hr.val j hj (by omega)), ok_bind]
    by_cases hf : Fits (rsum (fn a) (j - low j) i)
    · rw [hc.add_ok _ _ (by rw [e]; exact hf), e, ok_bind, satOr_ok]
      simp only [and_pred j hj]
      refine ⟨⟨by omega, trivial, h5, fun m h7 h8 => ?_⟩, by omega⟩
      by_cases h9 : i / 2 ^ m * 2 ^ m < j
      · have := h6 m h9
        rw [show i / 2 ^ m * 2 ^ m = j - low j by omega]
        exact hf
      · exact h4 m (by omega) h8
    · rw [hc.add_panic _ _ (by rw [e]; exact hf)]
      obtain ⟨m, hm⟩ := h5
      exact satOr_panic ⟨m, by omega, by rw [hm]; exact hf⟩
  · refine ⟨Nat.le_refl _, by simp, ⟨0, by simp⟩, fun m h1 h2 => ?_⟩
    simp only at h1
    omega
  · simp
  · rintro ⟨j, s⟩ ⟨⟨h1, h2, h3, h4⟩, h5⟩
    simp only [gt_iff_lt, decide_eq_false_iff_not] at h1 h2 h3 h4 h5
    obtain rfl : j = 0 := by omega
    rw [satOr_ok]
    exact ⟨h2, fun m => h4 m (by omega)⟩

theorem add_satOr (hc : ExactAdd add sub Fits) {t : Fenwick A} {a : List A} (hr : Rep t a)
    {p : ℕ} {v : A} (hn : a.length < 2 ^ 63) (hp : p + 1 < 2 ^ 64) :
    SatOr (∃ j, p < j ∧ j - low j ≤ p ∧ j ≤ a.length ∧ ¬ Fits (rsum (fn (addTo a p v)) (j - low j) j))
      (t.addAt add p v) (fun t' => Rep t' (addTo a p v) ∧
        ∀ j, p < j → j - low j ≤ p → j ≤ a.length → Fits (rsum (fn (addTo a p v)) (j - low j) j)) := by
  unfold Fenwick.addAt
  rw [addU_of_lt hp, ok_bind]
  by_cases hpn : p < a.length
  · let a' := addTo a p v
    refine satOr_bind ((whileLoop_satOr (cond := fun st : ℕ × List A => decide (st.1 ≤ t.n))
      (I := fun st : ℕ × List A => p < st.1 ∧ st.1 - low st.1 ≤ p ∧ st.2.length = a.length ∧
        (∀ i, 0 < i → i ≤ a.length → st.2[i - 1]? =
          some (rsum (fn (if i < st.1 then a' else a)) (i - low i) i)) ∧
        ∀ j, p < j → j < st.1 → j - low j ≤ p → j ≤ a.length → Fits (rsum (fn a') (j - low j) j))
      (μ := fun st => a.length + 1 - st.1) ?_ _ _ ?_ ?_).mono ?_)
    · rintro ⟨j, ary⟩ ⟨h1, h2, h3, h4, h5⟩ hj
      simp only [decide_eq_true_eq, hr.n] at h1 h2 h3 h4 h5 hj
      have hj0 : 0 < j := by omega
      have h6 := h4 j hj0 hj
      rw [if_neg (Nat.lt_irrefl _)] at h6
      simp only [idx_of_some h6, ok_bind]
      have e : rsum (fn a) (j - low j) j + v = rsum (fn a') (j - low j) j := by
        rw [rsum_point a p v _ _ hpn, if_pos ⟨h2, h1⟩]
      by_cases hf : Fits (rsum (fn a') (j - low j) j)
      · have hlj := low_le j
        have hlp := low_pos hj0
        rw [hc.add_ok _ _ (by rw [e]; exact hf), e, ok_bind, upd_of_lt (by omega), ok_bind,
          and_wneg j hj0 (by omega), addU_of_lt (by omega), ok_bind, satOr_ok]
        refine ⟨⟨by simp only; omega, ?_, by simp [h3], ?_, ?_⟩, by simp only; omega⟩
        · have := low_add_low hj0; simp only; omega
        · intro i hi0 hi
          simp only
          by_cases hij : i = j
          · subst hij
            rw [List.getElem?_set_self (by omega), if_pos (by omega)]
          · rw [List.getElem?_set_ne (by omega), h4 i hi0 hi]
            by_cases hlt : i < j
            · rw [if_pos hlt, if_pos (by omega)]
            · rw [if_neg hlt]
              split
              · rename_i hlt2
                have := low_between hj0 (show j < i by omega) hlt2
                rw [rsum_point a p v _ _ hpn, if_neg (by omega)]
              · rfl
        · intro i hi0 hi h7 h8
          simp only at hi
          by_cases hij : i = j
          · rw [hij]; exact hf
          · by_cases hlt : i < j
            · exact h5 i hi0 hlt h7 h8
            · have := low_between hj0 (show j < i by omega) hi
              omega
      · rw [hc.add_panic _ _ (by rw [e]; exact hf)]
        exact satOr_panic ⟨j, h1, h2, hj, hf⟩
    · refine ⟨by simp, ?_, hr.len, ?_, ?_⟩
      · have := low_pos (show 0 < p + 1 by omega); simp only; omega
      · intro i hi0 hi
        simp only [hr.val i hi0 hi]
        split
        · rename_i h
          rw [rsum_point a p v _ _ hpn, if_neg (by omega)]
        · rfl
      · intro j h1 h2; simp only at h2; omega
    · simp only [hr.n]; omega
    · rintro ⟨j, ary⟩ ⟨⟨h1, h2, h3, h4, h5⟩, h6⟩
      simp only [decide_eq_false_iff_not, hr.n] at h1 h2 h3 h4 h5 h6
      rw [satOr_ok]
      refine ⟨⟨by rw [addTo_length]; exact hr.n, by rw [addTo_length]; exact h3, ?_⟩, ?_⟩
      · rw [addTo_length]
        intro i hi0 hi
        rw [h4 i hi0 hi, if_pos (by omega)]
      · intro i hi h7 h8
        exact h5 i hi (by omega) h7 h8
  · have e : addTo a p v = a := by
      unfold addTo; exact List.modify_eq_self (by omega)
    rw [e]
    rw [whileLoop]
    simp only [hr.n, show ¬ (p + 1 ≤ a.length) by omega, decide_false, ok_bind, satOr_ok,
      Bool.false_eq_true, if_false]
    exact ⟨⟨rfl, hr.len, hr.val⟩, fun j h1 h2 h3 => by omega⟩

/-- The two additions of round `k` of `from` fit. -/
def FromFits (Fits : A → Prop) (a : List A) (k : ℕ) : Prop :=
  Fits (rsum (fn a) (k - low k) k) ∧
    (k + low k ≤ a.length → Fits (rsum (fn a) (k + low k - low (k + low k)) k))

theorem from_satOr' (hc : ExactAdd add sub Fits) {a : List A} (hn : a.length < 2 ^ 63) :
    SatOr (∃ k, 0 < k ∧ k ≤ a.length ∧ ¬ FromFits Fits a k) (Fenwick.from add 0 a)
      (fun t => Rep t a ∧ ∀ k, 0 < k → k ≤ a.length → FromFits Fits a k) := by
  unfold Fenwick.from
  refine satOr_bind ((forRange_satOr (I := fun i (ary : List A) => ary.length = a.length ∧
      (∀ j, 0 < j → j < i → j ≤ a.length → ary[j - 1]? = some (rsum (fn a) (j - low j) j)) ∧
      (∀ j, i ≤ j → j ≤ a.length → ∃ m, 2 ^ m ≤ low j ∧ (j - 2 ^ m < i ∨ 2 ^ m = low j) ∧
         (∀ m', m' < m → i ≤ j - 2 ^ m') ∧
         ary[j - 1]? = some (rsum (fn a) (j - low j) (j - 2 ^ m))) ∧
      ∀ k, 0 < k → k < i → FromFits Fits a k)
    (by omega) ?_ ?_).mono ?_)
  · refine ⟨by simp [Fenwick.new], by omega, fun j h1 h2 => ?_, by omega⟩
    obtain ⟨k, hk⟩ := low_pow (show 0 < j by omega)
    refine ⟨k, by omega, Or.inr hk.symm, ?_, ?_⟩
    · intro m' hm'
      have h1 : 2 ^ m' < 2 ^ k := (Nat.pow_lt_pow_iff_right (by omega)).2 hm'
      have := low_le j
      omega
    · have : j - 1 < a.length := by omega
      rw [hk, rsum_self]
      simp [Fenwick.new, this]
  · rintro i ary h1 hi ⟨hl, hlo, hhi, hff⟩
    obtain ⟨m, hm1, hm2, hm3, hm4⟩ := hhi i (Nat.le_refl _) (by omega)
    have hm0 : m = 0 := by
      apply Classical.byContradiction; intro h
      have := hm3 0 (by omega)
      simp at this; omega
    subst hm0
    have hia : i - 1 < a.length := by omega
    rw [idx_of_some hm4, ok_bind, idx_of_some (List.getElem?_eq_getElem hia), ok_bind]
    have e : rsum (fn a) (i - low i) (i - 2 ^ 0) + a[i - 1]'(by omega) =
        rsum (fn a) (i - low i) i := by
      have h0 := low_pos (show 0 < i by omega)
      have := rsum_succ (c := fn a) (lo := i - low i) (hi := i - 1) (by omega)
      rw [show i - 1 + 1 = i by omega] at this
      rw [this]
      simp [fn, hia]
    by_cases hf1 : Fits (rsum (fn a) (i - low i) i)
    swap
    · rw [hc.add_panic _ _ (by rw [e]; exact hf1)]
      exact satOr_panic ⟨i, by omega, by omega, fun h => hf1 h.1⟩
    rw [hc.add_ok _ _ (by rw [e]; exact hf1), e]
    have hli := low_le i
    have hlp := low_pos (show 0 < i by omega)
    rw [ok_bind, upd_of_lt (by omega), ok_bind, and_wneg i (by omega) (by omega), addU_of_lt (by omega), ok_bind]
    obtain ⟨k, hk⟩ := low_pow (show 0 < i by omega)
    have hother : ∀ j, i + 1 ≤ j → j ≤ a.length → j ≠ i + low i →
        ∃ m, 2 ^ m ≤ low j ∧ (j - 2 ^ m < i + 1 ∨ 2 ^ m = low j) ∧
         (∀ m', m' < m → i + 1 ≤ j - 2 ^ m') ∧
         ary[j - 1]? = some (rsum (fn a) (j - low j) (j - 2 ^ m)) := by
      intro j h2 h3 h4
      obtain ⟨m, a1, a2, a3, a4⟩ := hhi j (by omega) h3
      refine ⟨m, a1, by omega, ?_, a4⟩
      intro m' hm'
      have b1 := a3 m' hm'
      have b2 : 2 ^ m' < 2 ^ m := (Nat.pow_lt_pow_iff_right (by omega)).2 hm'
      have b3 := low_sub (j := j) (m := m') (by omega) (by omega)
      have b4 := low_le j
      apply Classical.byContradiction
      intro hcon
      have : i = j - 2 ^ m' := by omega
      rw [← this] at b3
      omega
    have hffi : FromFits Fits a i → ∀ k, 0 < k → k < i + 1 → FromFits Fits a k := by
      intro h k h0 h2
      by_cases hki : k = i
      · rw [hki]; exact h
      · exact hff k h0 (by omega)
    split
    · rename_i hj
      obtain ⟨m, a1, a2, a3, a4⟩ := hhi (i + low i) (by omega) hj
      have hd := low_add_low (show 0 < i by omega)
      have hmk : m = k + 1 := by
        have c1 : k + 1 ≤ m := by
          have : 2 ^ k < 2 ^ m := by
            rcases a2 with a2 | a2 <;> omega
          exact (Nat.pow_lt_pow_iff_right (by omega)).1 this
        have c2 : m ≤ k + 1 := by
          apply Nat.le_of_not_lt
          intro hlt
          have := a3 (k + 1) hlt
          rw [Nat.pow_succ] at this
          omega
        omega
      subst hmk
      have e2 : rsum (fn a) (i + low i - low (i + low i)) (i + low i - 2 ^ (k + 1)) +
          rsum (fn a) (i - low i) i = rsum (fn a) (i + low i - low (i + low i)) i := by
        rw [show i + low i - 2 ^ (k + 1) = i - low i by rw [Nat.pow_succ]; omega]
        exact rsum_split (by omega) (by omega)
      rw [idx_of_some (List.getElem?_set_self (by omega)), ok_bind,
        idx_of_some ((List.getElem?_set_ne (by omega)).trans a4), ok_bind]
      by_cases hf2 : Fits (rsum (fn a) (i + low i - low (i + low i)) i)
      swap
      · rw [hc.add_panic _ _ (by rw [e2]; exact hf2)]
        exact satOr_panic ⟨i, by omega, by omega, fun h => hf2 (h.2 hj)⟩
      rw [hc.add_ok _ _ (by rw [e2]; exact hf2), e2, ok_bind, upd_of_lt (by simp; omega), satOr_ok]
      refine ⟨by simp [hl], ?_, ?_, hffi ⟨hf1, fun _ => hf2⟩⟩
      · intro j h0 h2 h3
        rw [List.getElem?_set_ne (by omega)]
        by_cases hji : j = i
        · subst hji; exact List.getElem?_set_self (by omega)
        · rw [List.getElem?_set_ne (by omega)]
          exact hlo j h0 (by omega) h3
      · intro j h2 h3
        by_cases hjj : j = i + low i
        · subst hjj
          refine ⟨k, by rw [Nat.pow_succ] at a1; omega, by omega, ?_, ?_⟩
          · intro m' hm'
            have b2 : 2 ^ m' < 2 ^ k := (Nat.pow_lt_pow_iff_right (by omega)).2 hm'
            omega
          · rw [List.getElem?_set_self (by simp; omega), ← hk, Nat.add_sub_cancel]
        · rw [List.getElem?_set_ne (by omega), List.getElem?_set_ne (by omega)]
          exact hother j h2 h3 hjj
    · rename_i hj
      rw [satOr_ok]
      refine ⟨by simp [hl], ?_, ?_, hffi ⟨hf1, fun h => absurd h hj⟩⟩
      · intro j h0 h2 h3
        by_cases hji : j = i
        · subst hji; exact List.getElem?_set_self (by omega)
        · rw [List.getElem?_set_ne (by omega)]
          exact hlo j h0 (by omega) h3
      · intro j h2 h3
        rw [List.getElem?_set_ne (by omega)]
        exact hother j h2 h3 (by omega)
  · rintro ary ⟨h1, h2, -, h4⟩
    rw [satOr_ok]
    exact ⟨⟨rfl, h1, fun i h0 hi => h2 i h0 (by omega) hi⟩, fun k h0 hk => h4 k h0 (by omega)⟩

theorem partitionPoint_satOr (hc : ExactAdd add sub Fits) {t : Fenwick A} {a : List A}
    (hr : Rep t a) (hn : a.length < 2 ^ 63) (h0 : 0 < a.length)
    {pred : A → Bool} {k : ℕ} (hk : k ≤ a.length)
    (hp : ∀ i, i < a.length → Fits (rsum (fn a) 0 (i + 1)) →
      (pred (rsum (fn a) 0 (i + 1)) = true ↔ i < k)) :
    SatOr (∃ i, k / 2 ^ (i + 1) * 2 ^ (i + 1) + 2 ^ i ≤ a.length ∧
        ¬ Fits (rsum (fn a) 0 (k / 2 ^ (i + 1) * 2 ^ (i + 1) + 2 ^ i)))
      (t.partitionPoint add 0 pred) (fun r => r = k ∧
        ∀ i, k / 2 ^ (i + 1) * 2 ^ (i + 1) + 2 ^ i ≤ a.length →
          Fits (rsum (fn a) 0 (k / 2 ^ (i + 1) * 2 ^ (i + 1) + 2 ^ i))) := by
  unfold Fenwick.partitionPoint
  have hlz : leadingZeros usizeBits t.n = 63 - Nat.log2 a.length := by
    unfold leadingZeros bitLen usizeBits
    rw [hr.n, if_neg (by omega)]; omega
  have hlog : Nat.log2 a.length < 63 := (Nat.log2_lt (by omega)).2 hn
  have e1 : subU (usizeBits - 1) (leadingZeros usizeBits t.n) = .ok (Nat.log2 a.length) := by
    rw [hlz, subU_of_le (by unfold usizeBits; omega)]; congr 1; unfold usizeBits; omega
  rw [e1, ok_bind]
  refine satOr_bind ((forRangeRev_satOr (I := fun i (st : ℕ × A) => 2 ^ i ∣ st.1 ∧ st.1 ≤ k ∧
      k < st.1 + 2 ^ i ∧ st.2 = rsum (fn a) 0 st.1 ∧
      ∀ j, i ≤ j → k / 2 ^ (j + 1) * 2 ^ (j + 1) + 2 ^ j ≤ a.length →
        Fits (rsum (fn a) 0 (k / 2 ^ (j + 1) * 2 ^ (j + 1) + 2 ^ j))) (by omega) ?_ ?_).mono ?_)
  · have := Nat.lt_log2_self (n := a.length)
    refine ⟨by simp, by simp, by simp only; omega, by simp, fun j hj hle => ?_⟩
    have : 2 ^ (Nat.log2 a.length + 1) ≤ 2 ^ j := Nat.pow_le_pow_right (by omega) hj
    omega
  · rintro i ⟨pos, s⟩ - hi ⟨h1, h2, h3, h4, h5⟩
    simp only at h1 h2 h3 h4
    subst h4
    have hpow : 2 ^ i ≤ 2 ^ 62 := Nat.pow_le_pow_right (by omega) (by omega)
    have hlow := low_add_pow h1
    have hfl : k / 2 ^ (i + 1) * 2 ^ (i + 1) = pos := floor_eq h1 h2 h3
    rw [Nat.pow_succ] at h3
    have hd : 2 ^ i ∣ pos := Nat.dvd_trans ⟨2, Nat.pow_succ ..⟩ h1
    simp only [Nat.one_shiftLeft]
    rw [addU_of_lt (by omega), ok_bind]
    have hpp := Nat.two_pow_pos i
    have h6 : (pos + 2 ^ i ≤ a.length → Fits (rsum (fn a) 0 (pos + 2 ^ i))) →
        ∀ j, i ≤ j → k / 2 ^ (j + 1) * 2 ^ (j + 1) + 2 ^ j ≤ a.length →
        Fits (rsum (fn a) 0 (k / 2 ^ (j + 1) * 2 ^ (j + 1) + 2 ^ j)) := by
      intro hf j hj
      by_cases hij : j = i
      · rw [hij, hfl]; exact hf
      · exact h5 j (by omega)
    by_cases hle : pos + 2 ^ i ≤ a.length
    · have hv := hr.val (pos + 2 ^ i) (by omega) hle
      rw [hlow, Nat.add_sub_cancel] at hv
      have e : rsum (fn a) 0 pos + rsum (fn a) pos (pos + 2 ^ i) = rsum (fn a) 0 (pos + 2 ^ i) :=
        rsum_split (by omega) (by omega)
      rw [if_pos (by rw [hr.n]; exact hle)]
      by_cases hf : Fits (rsum (fn a) 0 (pos + 2 ^ i))
      swap
      · rw [idx_of_some hv, ok_bind, hc.add_panic _ _ (by rw [e]; exact hf)]
        exact satOr_panic ⟨i, by rw [hfl]; exact hle, by rw [hfl]; exact hf⟩
      have hadd := hc.add_ok (rsum (fn a) 0 pos) (rsum (fn a) pos (pos + 2 ^ i)) (by rw [e]; exact hf)
      rw [e] at hadd
      simp only [idx_of_some hv, ok_bind, hadd]
      have hpi := hp (pos + 2 ^ i - 1) (by omega)
      rw [show pos + 2 ^ i - 1 + 1 = pos + 2 ^ i by omega] at hpi
      have hpi := hpi hf
      by_cases hb : pred (rsum (fn a) 0 (pos + 2 ^ i)) = true
      · rw [if_pos hb]
        have := hpi.1 hb
        rw [satOr_ok]
        exact ⟨(Nat.dvd_add_iff_left (Nat.dvd_refl _)).1 hd, by simp only; omega, by simp only; omega, rfl, h6 fun _ => hf⟩
      · rw [if_neg hb]
        have : ¬ pos + 2 ^ i - 1 < k := fun h => hb (hpi.2 h)
        rw [satOr_ok]
        exact ⟨hd, h2, by simp only; omega, rfl, h6 fun _ => hf⟩
    · rw [if_neg (by rw [hr.n]; exact hle)]
      simp only [ok_bind, Bool.false_eq_true, if_false, satOr_ok]
      exact ⟨hd, h2, by omega, trivial, h6 fun h => absurd h hle⟩
  · rintro ⟨pos, s⟩ ⟨_, h2, h3, _, h5⟩
    rw [satOr_ok]
    simp only [Nat.pow_zero] at h2 h3
    exact ⟨by omega, fun i => h5 i (Nat.zero_le _)⟩

end Verif.FenwickP
