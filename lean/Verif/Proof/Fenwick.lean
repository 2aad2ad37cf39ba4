import Verif.Model.Fenwick
import Verif.Spec.Fenwick
import Verif.Prelude.Bits
import Verif.Prelude.RangeProd
namespace Verif.FenwickP
open Res Model Spec

variable {A : Type} [AddCommMonoid A] {add sub : A → A → Res A} {Fits : A → Prop}

/-- The list as a function. -/
def fn (a : List A) : ℕ → A := fun i => a.getD i 0

/-- `t` is the Fenwick tree of the plain list `a`. -/
structure Rep (t : Fenwick A) (a : List A) : Prop where
  n : t.n = a.length
  len : t.ary.length = a.length
  val : ∀ i, 0 < i → i ≤ a.length → t.ary[i - 1]? = some (rsum (fn a) (i - low i) i)

theorem fits_rsum {a : List A} (h : RangesFit Fits a) (l r : ℕ) : Fits (rsum (fn a) l r) := by
  unfold fn; rw [rsum_list]; exact h l r

theorem pref_sat (hc : CheckedAdd add sub Fits) {t : Fenwick A} {a : List A} (hr : Rep t a)
    (hf : RangesFit Fits a) {i : ℕ} (hi : i ≤ a.length) :
    Sat (t.pref add 0 i) (fun s => s = rsum (fn a) 0 i) := by
  unfold Fenwick.pref
  simp only [sat_bind]
  refine (whileLoop_sat (I := fun st : ℕ × A => st.1 ≤ i ∧ st.2 = rsum (fn a) st.1 i)
    (μ := fun st => st.1) (Q := fun st => st.2 = rsum (fn a) 0 i) ?_ (i + 1) (i, 0) ?_ ?_).mono ?_
  · rintro ⟨j, s⟩ ⟨h1, h2⟩
    simp only at h1 h2
    subst h2
    simp only [sat_ok]
    by_cases hj : j > 0
    · simp only [hj, decide_true, if_true, sat_bind, sat_idx]
      refine ⟨_, hr.val j hj (by omega), ?_⟩
      have e : rsum (fn a) j i + rsum (fn a) (j - low j) j = rsum (fn a) (j - low j) i := by
        rw [add_comm]; exact rsum_split (by omega) h1
      rw [hc.add_ok _ _ (by rw [e]; exact fits_rsum hf _ _), e]
      simp only [sat_ok, and_pred j hj]
      have := low_pos hj
      have := low_le j
      refine ⟨⟨by omega, trivial⟩, by omega⟩
    · have : j = 0 := by omega
      subst this
      simp
  · simp
  · simp
  · rintro ⟨j, s⟩ h
    simpa using h

theorem rsum_point (a : List A) (i v lo hi) (hl : i < a.length) :
    rsum (fn (addTo a i v)) lo hi =
      if lo ≤ i ∧ i < hi then rsum (fn a) lo hi + v else rsum (fn a) lo hi := by
  have hne : ∀ j, j ≠ i → fn (addTo a i v) j = fn a j := by
    intro j hj; unfold fn addTo
    simp [List.getElem?_modify, hj.symm]
  have hei : fn (addTo a i v) i = fn a i + v := by
    unfold fn addTo
    simp [List.getElem?_modify, List.getElem?_eq_getElem hl]
  split
  · rename_i h
    rw [← rsum_split (c := fn a) (mid := i) h.1 (by omega),
      ← rsum_split (c := fn (addTo a i v)) (mid := i) h.1 (by omega),
      rsum_cons (c := fn a) (lo := i) h.2, rsum_cons (c := fn (addTo a i v)) (lo := i) h.2, hei,
      rsum_congr (c := fn (addTo a i v)) (c' := fn a) (lo := lo) (hi := i)
        (fun j _ hj => hne j (by omega)),
      rsum_congr (c := fn (addTo a i v)) (c' := fn a) (lo := i + 1) (hi := hi)
        (fun j hj _ => hne j (by omega))]
    simp only [add_assoc]
    congr 2
    rw [add_comm]
  · rename_i h
    exact rsum_congr fun j h1 h2 => hne j (by rintro rfl; exact h ⟨h1, h2⟩)

theorem addTo_length (a : List A) (i v) : (addTo a i v).length = a.length := by
  simp [addTo]

theorem add_sat (hc : CheckedAdd add sub Fits) {t : Fenwick A} {a : List A} (hr : Rep t a)
    {p : ℕ} {v : A} (hf : RangesFit Fits (addTo a p v))
    (hn : a.length < 2 ^ 63) (hp : p + 1 < 2 ^ 64) :
    Sat (t.addAt add p v) (fun t' => Rep t' (addTo a p v)) := by
  unfold Fenwick.addAt
  simp only [sat_bind, sat_addU, hp, true_and]
  by_cases hpn : p < a.length
  · let a' := addTo a p v
    refine (whileLoop_sat (I := fun st : ℕ × List A => p < st.1 ∧ st.1 - low st.1 ≤ p ∧
        st.2.length = a.length ∧
        ∀ i, 0 < i → i ≤ a.length → st.2[i - 1]? =
          some (rsum (fn (if i < st.1 then a' else a)) (i - low i) i))
      (μ := fun st => a.length + 1 - st.1) (Q := fun st => st.2.length = a.length ∧
        ∀ i, 0 < i → i ≤ a.length → st.2[i - 1]? = some (rsum (fn a') (i - low i) i))
      ?_ _ _ ?_ ?_).mono ?_
    · rintro ⟨j, ary⟩ ⟨h1, h2, h3, h4⟩
      simp only at h1 h2 h3 h4
      simp only [sat_ok, hr.n]
      by_cases hj : j ≤ a.length
      · simp only [hj, decide_true, if_true, sat_bind, sat_idx]
        have hj0 : 0 < j := by omega
        refine ⟨_, h4 j hj0 hj, ?_⟩
        simp only [Nat.lt_irrefl, if_false]
        have e : rsum (fn a) (j - low j) j + v = rsum (fn a') (j - low j) j := by
          rw [rsum_point a p v _ _ hpn, if_pos ⟨h2, h1⟩]
        rw [hc.add_ok _ _ (by rw [e]; exact fits_rsum hf _ _), e]
        have hlj := low_le j
        have hlp := low_pos hj0
        simp only [sat_ok, sat_upd, sat_addU, and_wneg j hj0 (by omega)]
        refine ⟨by omega, by omega, ⟨by omega, ?_, by simp [h3], ?_⟩, by omega⟩
        · have := low_add_low hj0; omega
        · intro i hi0 hi
          by_cases hij : i = j
          · subst hij
            rw [List.getElem?_set_self (by omega), if_pos (by omega)]
          · rw [List.getElem?_set_ne (by omega), h4 i hi0 hi]
            by_cases hlt : i < j
            · rw [if_pos hlt, if_pos (by omega)]
            · rw [if_neg hlt]
              split
              · rename_i hlt2
                have := low_between hj0 (show j < i by omega) hlt2
                rw [rsum_point a p v _ _ hpn, if_neg (by omega)]
              · rfl
      · simp only [hj, decide_false, Bool.false_eq_true, if_false]
        refine ⟨h3, fun i hi0 hi => ?_⟩
        rw [h4 i hi0 hi, if_pos (by omega)]
    · refine ⟨by simp, ?_, hr.len, ?_⟩
      · have := low_pos (show 0 < p + 1 by omega); simp only; omega
      · intro i hi0 hi
        simp only [hr.val i hi0 hi]
        split
        · rename_i h
          rw [rsum_point a p v _ _ hpn, if_neg (by omega)]
        · rfl
    · simp only [hr.n]; omega
    · rintro ⟨j, ary⟩ ⟨h1, h2⟩
      simp only [sat_ok]
      exact ⟨by rw [addTo_length]; exact hr.n, by rw [addTo_length]; exact h1,
        by rw [addTo_length]; exact h2⟩
  · have e : addTo a p v = a := by
      unfold addTo; exact List.modify_eq_self (by omega)
    rw [e]
    rw [whileLoop]
    simp only [hr.n, show ¬ (p + 1 ≤ a.length) by omega, decide_false, ok_bind, sat_ok,
      Bool.false_eq_true, if_false]
    exact ⟨rfl, hr.len, hr.val⟩

theorem Rep.unique {t t' : Fenwick A} {a : List A} (h : Rep t a) (h' : Rep t' a) : t = t' := by
  cases t; cases t'
  obtain ⟨h1, h2, h3⟩ := h
  obtain ⟨h1', h2', h3'⟩ := h'
  simp only at *
  subst h1 h1'
  congr 1
  apply List.ext_getElem?
  intro i
  by_cases hi : i < a.length
  · have := h3 (i + 1) (by omega) (by omega)
    have h' := h3' (i + 1) (by omega) (by omega)
    simp only [Nat.add_sub_cancel] at this h'
    rw [this, h']
  · rw [List.getElem?_eq_none (by omega), List.getElem?_eq_none (by omega)]

theorem rep_new (n : ℕ) : Rep (Fenwick.new (0 : A) n) (List.replicate n 0) := by
  refine ⟨by simp [Fenwick.new], by simp [Fenwick.new], fun i h1 h2 => ?_⟩
  simp only [List.length_replicate] at h2
  rw [rsum_zero]
  · have : i - 1 < n := by omega
    simp [Fenwick.new, this]
  · intro j h3 h4
    have : j < n := by omega
    simp [fn, this]

theorem low_sub {j m : ℕ} (hj : 0 < j) (h : 2 ^ m < low j) : low (j - 2 ^ m) = 2 ^ m := by
  obtain ⟨q, k, rfl⟩ := exists_odd j hj
  rw [low_odd_mul] at h
  have hm : m < k := (Nat.pow_lt_pow_iff_right (by omega)).1 h
  have hk : 2 ^ k = 2 * 2 ^ (k - m - 1) * 2 ^ m := by
    rw [← Nat.pow_succ', ← Nat.pow_add]; congr 1; omega
  have hp := Nat.two_pow_pos (k - m - 1)
  obtain ⟨w, hw⟩ : ∃ w, (2 * q + 1) * 2 ^ (k - m - 1) = w + 1 :=
    ⟨(2 * q + 1) * 2 ^ (k - m - 1) - 1, by
      have : 0 < (2 * q + 1) * 2 ^ (k - m - 1) := Nat.mul_pos (by omega) hp
      omega⟩
  have : (2 * q + 1) * 2 ^ k - 2 ^ m = (2 * w + 1) * 2 ^ m := by
    rw [hk, show (2 * q + 1) * (2 * 2 ^ (k - m - 1) * 2 ^ m) =
      2 * ((2 * q + 1) * 2 ^ (k - m - 1)) * 2 ^ m by
        simp only [Nat.mul_assoc, Nat.mul_left_comm], hw, ← Nat.sub_one_mul]
    congr 1
  rw [this, low_odd_mul]

theorem low_pow {j : ℕ} (hj : 0 < j) : ∃ k, low j = 2 ^ k := by
  obtain ⟨q, k, rfl⟩ := exists_odd j hj
  exact ⟨k, low_odd_mul q k⟩

theorem from_sat (hc : CheckedAdd add sub Fits) {a : List A} (hf : RangesFit Fits a)
    (hn : a.length < 2 ^ 63) :
    Sat (Fenwick.from add 0 a) (fun t => Rep t a) := by
  unfold Fenwick.from
  simp only [sat_bind]
  refine (forRange_sat (I := fun i (ary : List A) => ary.length = a.length ∧
      (∀ j, 0 < j → j < i → j ≤ a.length → ary[j - 1]? = some (rsum (fn a) (j - low j) j)) ∧
      (∀ j, i ≤ j → j ≤ a.length → ∃ m, 2 ^ m ≤ low j ∧ (j - 2 ^ m < i ∨ 2 ^ m = low j) ∧
         (∀ m', m' < m → i ≤ j - 2 ^ m') ∧
         ary[j - 1]? = some (rsum (fn a) (j - low j) (j - 2 ^ m))))
    (by omega) ?_ ?_).mono ?_
  · refine ⟨by simp [Fenwick.new], by omega, fun j h1 h2 => ?_⟩
    obtain ⟨k, hk⟩ := low_pow (show 0 < j by omega)
    refine ⟨k, by omega, Or.inr hk.symm, ?_, ?_⟩
    · intro m' hm'
      have h1 : 2 ^ m' < 2 ^ k := (Nat.pow_lt_pow_iff_right (by omega)).2 hm'
      have := low_le j
      omega
    · have : j - 1 < a.length := by omega
      rw [hk, rsum_self]
      simp [Fenwick.new, this]
  · rintro i ary h1 hi ⟨hl, hlo, hhi⟩
    obtain ⟨m, hm1, hm2, hm3, hm4⟩ := hhi i (Nat.le_refl _) (by omega)
    have hm0 : m = 0 := by
      apply Classical.byContradiction; intro h
      have := hm3 0 (by omega)
      simp at this; omega
    subst hm0
    simp only [sat_bind, sat_idx]
    refine ⟨_, hm4, a[i - 1]'(by omega), List.getElem?_eq_getElem (by omega), ?_⟩
    have e : rsum (fn a) (i - low i) (i - 2 ^ 0) + a[i - 1]'(by omega) =
        rsum (fn a) (i - low i) i := by
      have h0 := low_pos (show 0 < i by omega)
      have := rsum_succ (c := fn a) (lo := i - low i) (hi := i - 1) (by omega)
      rw [show i - 1 + 1 = i by omega] at this
      rw [this]
      have hia : i - 1 < a.length := by omega
      simp [fn, hia]
    rw [hc.add_ok _ _ (by rw [e]; exact fits_rsum hf _ _), e]
    have hli := low_le i
    have hlp := low_pos (show 0 < i by omega)
    simp only [sat_ok, sat_upd, sat_addU, and_wneg i (by omega) (by omega)]
    refine ⟨by omega, by omega, ?_⟩
    obtain ⟨k, hk⟩ := low_pow (show 0 < i by omega)
    have hother : ∀ j, i + 1 ≤ j → j ≤ a.length → j ≠ i + low i →
        ∃ m, 2 ^ m ≤ low j ∧ (j - 2 ^ m < i + 1 ∨ 2 ^ m = low j) ∧
         (∀ m', m' < m → i + 1 ≤ j - 2 ^ m') ∧
         ary[j - 1]? = some (rsum (fn a) (j - low j) (j - 2 ^ m)) := by
      intro j h2 h3 h4
      obtain ⟨m, a1, a2, a3, a4⟩ := hhi j (by omega) h3
      refine ⟨m, a1, by omega, ?_, a4⟩
      intro m' hm'
      have b1 := a3 m' hm'
      have b2 : 2 ^ m' < 2 ^ m := (Nat.pow_lt_pow_iff_right (by omega)).2 hm'
      have b3 := low_sub (j := j) (m := m') (by omega) (by omega)
      have b4 := low_le j
      apply Classical.byContradiction
      intro hcon
      have : i = j - 2 ^ m' := by omega
      rw [← this] at b3
      omega
    rw [sat_ite]
    constructor
    · intro hj
      obtain ⟨m, a1, a2, a3, a4⟩ := hhi (i + low i) (by omega) hj
      have hmk : m = k + 1 := by
        have hd := low_add_low (show 0 < i by omega)
        have c1 : k + 1 ≤ m := by
          have : 2 ^ k < 2 ^ m := by
            rcases a2 with a2 | a2 <;> omega
          exact (Nat.pow_lt_pow_iff_right (by omega)).1 this
        have c2 : m ≤ k + 1 := by
          apply Nat.le_of_not_lt
          intro hlt
          have := a3 (k + 1) hlt
          rw [Nat.pow_succ] at this
          omega
        omega
      subst hmk
      simp only [sat_bind, sat_idx]
      refine ⟨_, List.getElem?_set_self (by omega), _,
        (List.getElem?_set_ne (by omega)).trans a4, ?_⟩
      have hd := low_add_low (show 0 < i by omega)
      have e2 : rsum (fn a) (i + low i - low (i + low i)) (i + low i - 2 ^ (k + 1)) +
          rsum (fn a) (i - low i) i = rsum (fn a) (i + low i - low (i + low i)) i := by
        rw [show i + low i - 2 ^ (k + 1) = i - low i by rw [Nat.pow_succ]; omega]
        exact rsum_split (by omega) (by omega)
      rw [hc.add_ok _ _ (by rw [e2]; exact fits_rsum hf _ _), e2]
      simp only [sat_ok, sat_upd]
      refine ⟨by simp; omega, by simp [hl], ?_, ?_⟩
      · intro j h0 h2 h3
        rw [List.getElem?_set_ne (by omega)]
        by_cases hji : j = i
        · subst hji; exact List.getElem?_set_self (by omega)
        · rw [List.getElem?_set_ne (by omega)]
          exact hlo j h0 (by omega) h3
      · intro j h2 h3
        by_cases hjj : j = i + low i
        · subst hjj
          refine ⟨k, by rw [Nat.pow_succ] at a1; omega, by omega, ?_, ?_⟩
          · intro m' hm'
            have b2 : 2 ^ m' < 2 ^ k := (Nat.pow_lt_pow_iff_right (by omega)).2 hm'
            omega
          · rw [List.getElem?_set_self (by simp; omega), ← hk, Nat.add_sub_cancel]
        · rw [List.getElem?_set_ne (by omega), List.getElem?_set_ne (by omega)]
          exact hother j h2 h3 hjj
    · intro hj
      simp only [sat_ok]
      refine ⟨by simp [hl], ?_, ?_⟩
      · intro j h0 h2 h3
        by_cases hji : j = i
        · subst hji; exact List.getElem?_set_self (by omega)
        · rw [List.getElem?_set_ne (by omega)]
          exact hlo j h0 (by omega) h3
      · intro j h2 h3
        rw [List.getElem?_set_ne (by omega)]
        exact hother j h2 h3 (by omega)
  · rintro ary ⟨h1, h2, -⟩
    simp only [sat_ok]
    exact ⟨rfl, h1, fun i h0 hi => h2 i h0 (by omega) hi⟩

theorem low_add_pow {pos i : ℕ} (h : 2 ^ (i + 1) ∣ pos) : low (pos + 2 ^ i) = 2 ^ i := by
  obtain ⟨q, rfl⟩ := h
  have : 2 ^ (i + 1) * q + 2 ^ i = (2 * q + 1) * 2 ^ i := by
    rw [Nat.pow_succ, Nat.add_mul, Nat.one_mul]
    congr 1
    rw [Nat.mul_comm (2 ^ i), Nat.mul_assoc, Nat.mul_comm (2 ^ i), ← Nat.mul_assoc]
  rw [this, low_odd_mul]

theorem partitionPoint_sat (hc : CheckedAdd add sub Fits) {t : Fenwick A} {a : List A}
    (hr : Rep t a) (hf : RangesFit Fits a) (hn : a.length < 2 ^ 63) (h0 : 0 < a.length)
    {pred : A → Bool} {k : ℕ} (hk : k ≤ a.length)
    (hp : ∀ i, i < a.length → (pred (rsum (fn a) 0 (i + 1)) = true ↔ i < k)) :
    Sat (t.partitionPoint add 0 pred) (fun r => r = k) := by
  unfold Fenwick.partitionPoint
  have hlz : leadingZeros usizeBits t.n = 63 - Nat.log2 a.length := by
    unfold leadingZeros bitLen usizeBits
    rw [hr.n, if_neg (by omega)]; omega
  have hlog : Nat.log2 a.length < 63 := (Nat.log2_lt (by omega)).2 hn
  have e1 : subU (usizeBits - 1) (leadingZeros usizeBits t.n) = .ok (Nat.log2 a.length) := by
    rw [hlz, subU_of_le (by unfold usizeBits; omega)]; congr 1; unfold usizeBits; omega
  rw [e1, ok_bind]
  simp only [sat_bind]
  refine (forRangeRev_sat (I := fun i (st : ℕ × A) => 2 ^ i ∣ st.1 ∧ st.1 ≤ k ∧
      k < st.1 + 2 ^ i ∧ st.2 = rsum (fn a) 0 st.1) (by omega) ?_ ?_).mono ?_
  · refine ⟨by simp, by simp, ?_, by simp⟩
    have := Nat.lt_log2_self (n := a.length)
    simp only; omega
  · rintro i ⟨pos, s⟩ - hi ⟨h1, h2, h3, h4⟩
    simp only at h1 h2 h3 h4
    subst h4
    have hpow : 2 ^ i ≤ 2 ^ 62 := Nat.pow_le_pow_right (by omega) (by omega)
    have hlow := low_add_pow h1
    rw [Nat.pow_succ] at h3
    have hd : 2 ^ i ∣ pos := Nat.dvd_trans ⟨2, Nat.pow_succ ..⟩ h1
    simp only [Nat.one_shiftLeft, sat_bind, sat_addU]
    refine ⟨by omega, ?_⟩
    have hpp := Nat.two_pow_pos i
    by_cases hle : pos + 2 ^ i ≤ a.length
    · have hv := hr.val (pos + 2 ^ i) (by omega) hle
      rw [hlow, Nat.add_sub_cancel] at hv
      have e : rsum (fn a) 0 pos + rsum (fn a) pos (pos + 2 ^ i) = rsum (fn a) 0 (pos + 2 ^ i) :=
        rsum_split (by omega) (by omega)
      have hadd := hc.add_ok (rsum (fn a) 0 pos) (rsum (fn a) pos (pos + 2 ^ i))
        (by rw [e]; exact fits_rsum hf _ _)
      rw [e] at hadd
      rw [if_pos (by rw [hr.n]; exact hle)]
      simp only [sat_bind, idx_of_some hv, ok_bind, hadd, sat_ok]
      have hpi := hp (pos + 2 ^ i - 1) (by omega)
      rw [show pos + 2 ^ i - 1 + 1 = pos + 2 ^ i by omega] at hpi
      by_cases hb : pred (rsum (fn a) 0 (pos + 2 ^ i)) = true
      · rw [if_pos hb]
        have := hpi.1 hb
        simp only [sat_ok]
        exact ⟨(Nat.dvd_add_iff_left (Nat.dvd_refl _)).1 hd, by omega, by omega, trivial⟩
      · rw [if_neg hb]
        have : ¬ pos + 2 ^ i - 1 < k := fun h => hb (hpi.2 h)
        simp only [sat_ok]
        exact ⟨hd, h2, by omega, trivial⟩
    · rw [if_neg (by rw [hr.n]; exact hle)]
      simp only [sat_ok, Bool.false_eq_true, if_false]
      exact ⟨hd, h2, by omega, trivial⟩
  · rintro ⟨pos, s⟩ ⟨_, h2, h3, _⟩
    simp only [sat_ok] at *
    simp at h3
    omega

theorem sum_sat (hc : CheckedAdd add sub Fits) {t : Fenwick A} {a : List A} (hr : Rep t a)
    (hf : RangesFit Fits a) {l r : ℕ} (hl : l ≤ r) (hi : r ≤ a.length) :
    Sat (t.sum add sub 0 l r) (fun s => s = rsum (fn a) l r) := by
  unfold Fenwick.sum
  simp only [sat_bind]
  refine (pref_sat hc hr hf hi).mono ?_
  rintro _ rfl
  refine (pref_sat hc hr hf (show l ≤ a.length by omega)).mono ?_
  rintro _ rfl
  have e := rsum_split (c := fn a) (Nat.zero_le l) hl
  rw [← e, hc.sub_ok _ _ (by rw [e]; exact fits_rsum hf _ _) (fits_rsum hf _ _) (fits_rsum hf _ _)]
  simp

end Verif.FenwickP
