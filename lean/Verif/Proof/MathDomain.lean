import Verif.Proof.PrimitiveRoot
/-! `safe_mod`, `pow_mod`, `inv_gcd` and `primitive_root` outside their documented domains. -/
namespace Verif.IMP
open Model Res NTP Spec

theorem rem_zero64 (x : Int) : i64.rem x 0 = panic := by
  unfold IntTy.rem; rw [if_pos rfl]

theorem safeMod_zero (x : Int) : safeMod x 0 = panic := by
  unfold safeMod; rw [rem_zero64]; rfl

theorem safeMod_min : safeMod (-2 ^ 63) (-1) = panic := by decide +kernel

theorem safeMod_neg {x m : Int} (hx : i64.In x) (hm : m < 0) (hmi : i64.In m) (h : ¬ (x = -2 ^ 63 ∧ m = -1)) :
    safeMod x m = if 0 ≤ x.tmod m then ok (x.tmod m) else if -2 ^ 63 ≤ x.tmod m + m then ok (x.tmod m + m)
      else panic := by
  unfold safeMod
  rw [rem_ok hm.ne (fun hh => h ⟨by rw [hh.2.1]; decide, hh.2.2⟩), ok_bind]
  rw [i64_in] at hmi
  by_cases h0 : 0 ≤ x.tmod m
  · rw [if_neg (by omega), if_pos h0]
  · rw [if_pos (by omega), if_neg h0]
    by_cases h1 : -2 ^ 63 ≤ x.tmod m + m
    · rw [if_pos h1, IntTy.ck_of (i64_in.2 (by omega))]
    · rw [if_neg h1, IntTy.ck_panic (fun hh => by rw [i64_in] at hh; omega)]

/-! ### Barrett reduction above `2^31` -/

theorem barrett_mul_big {a b m im : Nat} (hm1 : 2 ^ 31 < m) (hm2 : m < 2 ^ 32) (ha : a < m) (hb : b < m)
    (him : im = (2 ^ 64 - 1) / m + 1) :
    mulMod a b m im = ok (if a * b / m < a * b * im / 2 ^ 64 ∧ a * b % m + 2 ^ 32 < 2 * m then
      a * b % m + (2 ^ 32 - m) else a * b % m) := by
  have hmm0 : a * b ≤ (m - 1) * (m - 1) := Nat.mul_le_mul (by omega) (by omega)
  have hM : (m - 1) * (m - 1) ≤ (2 ^ 32 - 2) * (2 ^ 32 - 2) := Nat.mul_le_mul (by omega) (by omega)
  unfold mulMod
  rw [mulU_of_lt (by omega), ok_bind]
  have himlt : im < 2 ^ 64 := by
    have : (2 ^ 64 - 1) / m ≤ (2 ^ 64 - 1) / 2 := Nat.div_le_div_left (by omega) (by decide)
    omega
  rw [mulU_of_lt (by
    calc a * b * im < 2 ^ 64 * 2 ^ 64 := Nat.mul_lt_mul'' (by omega) himlt
      _ = 2 ^ 128 := by norm_num), ok_bind]
  simp only []
  congr 1
  have hmpos : 0 < m := by omega
  obtain ⟨r, hr, hrm⟩ : ∃ r, im * m = 2 ^ 64 + r ∧ r < m := by
    have h1 := Nat.div_add_mod (2 ^ 64 - 1) m
    have h2 := Nat.mod_lt (2 ^ 64 - 1) hmpos
    refine ⟨m - 1 - (2 ^ 64 - 1) % m, ?_, by omega⟩
    rw [him, Nat.add_mul, Nat.one_mul, Nat.mul_comm ((2 ^ 64 - 1) / m) m]
    omega
  have hcd := Nat.div_add_mod (a * b) m
  have hd := Nat.mod_lt (a * b) hmpos
  have hc : a * b / m < m := by
    rw [Nat.div_lt_iff_lt_mul hmpos]
    exact Nat.mul_lt_mul'' ha hb
  generalize a * b / m = c at *
  generalize a * b % m = d at *
  generalize a * b = z at *
  have hz : z * im = c * 2 ^ 64 + (c * r + d * im) := by
    rw [← hcd]
    calc (m * c + d) * im = c * (im * m) + d * im := by ring
      _ = _ := by rw [hr]; ring
  have hcr : c * r ≤ (m - 1) * (m - 1) := Nat.mul_le_mul (by omega) (by omega)
  have hcm2 : m * c ≤ m * (m - 1) := Nat.mul_le_mul_left _ (by omega)
  have hcm3 : m * (m - 1) + m ≤ (2 ^ 32 - 1) * (2 ^ 32 - 1) := by
    obtain ⟨k, rfl⟩ : ∃ k, m = k + 1 := ⟨m - 1, by omega⟩
    rw [Nat.add_sub_cancel, show (k + 1) * k + (k + 1) = (k + 1) * (k + 1) by ring]
    exact Nat.mul_le_mul (by omega) (by omega)
  have hdi : d * im + im ≤ 2 ^ 64 + r := by
    rw [← hr]
    calc d * im + im = im * (d + 1) := by ring
      _ ≤ im * m := Nat.mul_le_mul_left _ hd
  have hx : z * im / 2 ^ 64 = c ∨ z * im / 2 ^ 64 = c + 1 := by
    rw [hz]
    by_cases hlt : c * r + d * im < 2 ^ 64
    · left; omega
    · right; omega
  have hxm : ((z * im) >>> 64) % 2 ^ 64 = z * im / 2 ^ 64 := by
    rw [Nat.shiftRight_eq_div_pow]
    exact Nat.mod_eq_of_lt (by omega)
  rw [hxm]
  unfold wsubU wmulU waddU
  have hcm : m * c ≤ z := by omega
  rcases hx with hx | hx <;> rw [hx]
  · have e1 : c * m = m * c := Nat.mul_comm _ _
    have e2 : (z + (2 ^ 64 - c * m % 2 ^ 64 % 2 ^ 64)) % 2 ^ 64 % 2 ^ 32 = d := by
      rw [e1]
      generalize m * c = w at *
      omega
    rw [e2, if_neg (by omega), if_neg (by omega)]
  · have e1 : (c + 1) * m = m * c + m := by ring
    have e2 : (z + (2 ^ 64 - (c + 1) * m % 2 ^ 64 % 2 ^ 64)) % 2 ^ 64 % 2 ^ 32 = 2 ^ 32 + d - m := by
      rw [e1]
      generalize m * c = w at *
      omega
    rw [e2]
    by_cases hw : d + 2 ^ 32 < 2 * m
    · rw [if_neg (by omega), if_pos (by omega)]; omega
    · rw [if_pos (by omega), if_neg (by omega)]; omega

/-! ### `pow_mod` with a negative modulus -/

/-- `y` too large to be squared in `u64`. -/
theorem powLoop_big {M y : Nat} (hM : M ≠ 0) (hy : 2 ^ 32 ≤ y) (hy2 : y < 2 ^ 64) {n : Int} (hn : n ≠ 0)
    (fuel : Nat) :
    loop (fuel + 1) ((n, 1, y) : Int × Nat × Nat) (powModStep M) = panic := by
  have hbig : ¬ y * y < 2 ^ 64 := by
    have : 2 ^ 32 * 2 ^ 32 ≤ y * y := Nat.mul_le_mul hy hy
    omega
  have hp : mulU 64 y y = panic := by unfold mulU; rw [if_neg hbig]
  rw [loop]
  simp only [powModStep]
  rw [if_pos hn]
  split
  · rw [mulU_of_lt (by omega), ok_bind]
    simp only [remU]
    rw [if_neg hM, ok_bind, hp]; rfl
  · rw [ok_bind, hp]; rfl

theorem powMod_negmod {x : Int} {n : Nat} {m : Int} (hx : i64.In x) (hn : n < 2 ^ 63) (hm : m < 0)
    (hm2 : -2 ^ 31 ≤ m) (h : ¬ (x = -2 ^ 63 ∧ m = -1)) :
    powMod x n m = if 0 ≤ x.tmod m then ok ((x.tmod m) ^ n % (2 ^ 32 + m)) else if n = 0 then ok 1 else panic := by
  unfold powMod
  rw [if_neg (by omega), safeMod_neg hx hm (i64_in.2 (by omega)) h]
  have hlt := natAbs_tmod_lt x hm.ne
  obtain ⟨M, hM⟩ : ∃ M : Nat, 2 ^ 32 + m = M := ⟨(2 ^ 32 + m).toNat, by omega⟩
  have e2 : (m % 2 ^ 32).toNat = M := by omega
  rw [e2, hM]
  by_cases h0 : 0 ≤ x.tmod m
  · rw [if_pos h0, if_pos h0, ok_bind]
    obtain ⟨y, hy⟩ := Int.eq_ofNat_of_zero_le h0
    rw [hy] at hlt ⊢
    have e1 : ((y : Int) % 2 ^ 64).toNat = y := by omega
    rw [e1, powLoop_sat (m := M) (by omega) (by omega) (y ^ n % M) 64 n 1 y (by omega) (by omega) (by omega) (by simp)]
    push_cast
    rfl
  · rw [if_neg h0, if_neg h0, if_pos (by omega), ok_bind]
    by_cases hn0 : n = 0
    · subst hn0
      rw [if_pos rfl, loop]
      simp only [powModStep]
      rw [if_neg (by simp)]
      simp only [ok_bind]
      rw [asI64_nat (by omega)]; rfl
    · rw [if_neg hn0]
      exact powLoop_big (by omega) (by omega) (by omega) (by omega) 64

theorem powLoop_negneg {x n m : Int} (hx : i64.In x) (hn : n < 0) (hm : m < 0) (hm2 : -2 ^ 31 ≤ m)
    (h : ¬ (x = -2 ^ 63 ∧ m = -1)) (fuel : Nat) :
    (safeMod x m >>= fun y =>
      loop (fuel + 1) ((n, 1, (y % 2 ^ 64).toNat) : Int × Nat × Nat) (powModStep (m % 2 ^ 32).toNat)) =
      if 0 ≤ x.tmod m then .diverge else Res.panic := by
  rw [safeMod_neg hx hm (i64_in.2 (by omega)) h]
  have hlt := natAbs_tmod_lt x hm.ne
  by_cases h0 : 0 ≤ x.tmod m
  · rw [if_pos h0, if_pos h0, ok_bind]
    exact powLoop_neg (by omega) (by omega) _ _ _ _ hn (by omega) (by omega)
  · rw [if_neg h0, if_neg h0, if_pos (by omega), ok_bind]
    exact powLoop_big (by omega) (by omega) (by omega) (by omega) fuel

/-! ### `inv_gcd` with a negative modulus -/

theorem invGcd_loop_neg {a b : Int} (hb : b < 0) (hbi : -2 ^ 63 < b) {A : Int} (hA0 : A ≠ 0) (hA : A.natAbs < b.natAbs)
    (hAa : b ∣ a - A) (fuel : Nat) (hf : A.natAbs < fuel) :
    Sat (loop fuel ((b, A, 0, 1) : Int × Int × Int × Int) invGcdStep) (fun r =>
      r.1.natAbs = Int.gcd b A ∧ b ∣ r.2 * a - r.1 ∧ 2 * (Int.gcd b A * |r.2|) ≤ -b ∧ (r.2 < 0 → r.1 < 0)) := by
  generalize hG : Int.gcd b A = G
  refine loop_satG (σ := Int × Int × Int × Int) (fun st k =>
    |st.2.1| < |st.1| ∧ |st.1| ≤ -b ∧ st.2.1.natAbs = k ∧ Int.gcd st.1 st.2.1 = G ∧
    b ∣ st.2.2.1 * a - st.1 ∧ b ∣ st.2.2.2 * a - st.2.1 ∧
    |st.1| * |st.2.2.2| + |st.2.1| * |st.2.2.1| ≤ -b ∧ 2 * (G * |st.2.2.1|) ≤ -b ∧
    ((0 ≤ st.2.2.1 ∧ 0 ≤ st.2.2.2 ∧ ((st.1 < 0 ∧ 0 ≤ st.2.1) ∨ (0 < st.1 ∧ st.2.1 ≤ 0))) ∨
      (st.1 < 0 ∧ st.2.1 ≤ 0))) _ ?_ _ _ A.natAbs ?_ hf
  swap
  · have z1 := Int.abs_eq_natAbs A
    have z2 := Int.abs_eq_natAbs b
    refine ⟨by simp only; omega, by simp only; omega, rfl, hG, ⟨-1, by ring⟩, by simpa using hAa, ?_, by simp; omega, ?_⟩
    · simp; omega
    · simp only
      by_cases h : 0 < A
      · left; exact ⟨by omega, by omega, .inl ⟨hb, by omega⟩⟩
      · right; omega
  rintro ⟨s, t, m0, m1⟩ k ⟨p1, p3, p4, p5, p6, p7, p8, p9, p10⟩
  simp only at p1 p3 p4 p5 p6 p7 p8 p9 p10
  unfold invGcdStep
  simp only []
  by_cases ht : t = 0
  · subst ht
    rw [if_neg (by simp), sat_ok]
    refine ⟨?_, p6, p9, ?_⟩
    · simp only
      rw [← p5, Int.gcd_zero_right]
    · simp only
      intro hm; omega
  have htp : 0 < |t| := abs_pos.2 ht
  have z1 := Int.abs_eq_natAbs s
  have z2 := Int.abs_eq_natAbs t
  rw [if_pos ht, div_ok (ty := i64) (i64_in.2 (by omega)) (i64_in.2 (by omega)) ht (fun h => by
    have h1 : s = -9223372036854775808 := by rw [h.2.1]; decide
    omega), ok_bind]
  have hst := Int.mul_tdiv_add_tmod s t
  have hrl := natAbs_tmod_lt s ht
  have hgt : Int.gcd t (s.tmod t) = G := by rw [gcd_tmod, p5]
  -- signs
  have hsg : (0 ≤ s → 0 ≤ s.tmod t) ∧ (s ≤ 0 → s.tmod t ≤ 0) :=
    ⟨fun h => Int.tmod_nonneg t h, fun h => by
      have := Int.tmod_nonneg t (show 0 ≤ -s by omega)
      rw [Int.neg_tmod] at this; omega⟩
  have hug : (0 ≤ s ∧ t ≤ 0 ∨ s ≤ 0 ∧ 0 ≤ t) → s.tdiv t ≤ 0 := by
    rintro (⟨h1, h2⟩ | ⟨h1, h2⟩)
    · exact Int.tdiv_nonpos_of_nonneg_of_nonpos h1 h2
    · have := Int.tdiv_nonneg (show 0 ≤ -s by omega) h2
      rw [Int.neg_tdiv] at this; omega
  have habs : |s| = |t| * |s.tdiv t| + |s.tmod t| := by
    rw [Int.abs_eq_natAbs, Int.abs_eq_natAbs, Int.abs_eq_natAbs, Int.abs_eq_natAbs, Int.natAbs_tdiv, Int.natAbs_tmod]
    have := Nat.div_add_mod s.natAbs t.natAbs
    rw [← Nat.cast_mul, ← Nat.cast_add]
    congr 1
    exact this.symm
  generalize s.tdiv t = u at *
  generalize s.tmod t = r at *
  have z3 := Int.abs_eq_natAbs r
  have hm1 := abs_nonneg m1
  have hm0 := abs_nonneg m0
  have hrr := abs_nonneg r
  have huu := abs_nonneg u
  have e1 : |m1 * u| = |m1| * |u| := abs_mul ..
  have e0 : |t * u| = |t| * |u| := abs_mul ..
  have q1 : |t| * |m1 * u| ≤ |s| * |m1| := by
    rw [e1, habs]
    nlinarith [Int.mul_nonneg hrr hm1]
  have hz0 : 0 ≤ |t| * |m0| := Int.mul_nonneg htp.le hm0
  have q2 : |m1 * u| ≤ -b := by
    have : |m1 * u| ≤ |t| * |m1 * u| := by nlinarith [abs_nonneg (m1 * u)]
    omega
  have q3 : |t| * |m0 - m1 * u| + |r| * |m1| ≤ -b := by
    have h4 : |m0 - m1 * u| ≤ |m0| + |m1 * u| := abs_sub m0 (m1 * u)
    have h5 : |t| * |m0 - m1 * u| ≤ |t| * (|m0| + |m1 * u|) := Int.mul_le_mul_of_nonneg_left h4 htp.le
    have h6 : |t| * |m1 * u| + |r| * |m1| = |s| * |m1| := by rw [e1, habs]; ring
    linarith [Int.mul_add |t| |m0| |m1 * u|]
  have q4 : |m0 - m1 * u| ≤ -b := by
    have : |m0 - m1 * u| ≤ |t| * |m0 - m1 * u| := by nlinarith [abs_nonneg (m0 - m1 * u)]
    have : 0 ≤ |r| * |m1| := Int.mul_nonneg hrr hm1
    omega
  have q5 : |t * u| ≤ -b := by rw [e0]; omega
  have q2' := abs_le.1 q2
  have q4' := abs_le.1 q4
  have q5' := abs_le.1 q5
  have hsr : s - t * u = r := by omega
  rw [IntTy.ck_of (i64_in.2 (by omega)), ok_bind, hsr, IntTy.ck_of (i64_in.2 (by omega)), ok_bind,
    IntTy.ck_of (i64_in.2 (by omega)), ok_bind, IntTy.ck_of (i64_in.2 (by omega)), ok_bind, sat_ok]
  refine ⟨r.natAbs, by omega, by simp only; omega, by simp only; omega, rfl, hgt, p7, ?_,
    by simp only; linarith, ?_, ?_⟩
  · simp only
    obtain ⟨c1, h1⟩ := p6
    obtain ⟨c2, h2⟩ := p7
    exact ⟨c1 - u * c2, by rw [← hsr]; linear_combination h1 - u * h2⟩
  · simp only
    have hGt : (G : Int) ∣ |t| := (dvd_abs _ _).2 (by rw [← p5]; exact Int.gcd_dvd_right ..)
    have hGs : (G : Int) ∣ |s| := (dvd_abs _ _).2 (by rw [← p5]; exact Int.gcd_dvd_left ..)
    have g1 := Int.le_of_dvd htp hGt
    have g2 := Int.le_of_dvd (show 0 < |s| - |t| by omega) (Int.dvd_sub hGs hGt)
    have : 2 * (G : Int) * |m1| ≤ |s| * |m1| := Int.mul_le_mul_of_nonneg_right (by omega) hm1
    have : 0 ≤ |t| * |m0| := hz0
    linarith
  · simp only
    rcases p10 with ⟨a1, a2, a3⟩ | ⟨a1, a2⟩
    · left
      have hu := hug (by omega)
      have : m1 * u ≤ 0 := Int.mul_nonpos_of_nonneg_of_nonpos a2 hu
      exact ⟨a2, by omega, by omega⟩
    · right; omega

theorem invGcd_negmod {a b : Int} (ha : i64.In a) (hb : b < 0) (hbi : -2 ^ 63 < b)
    (hsm : 0 ≤ a.tmod b ∨ -2 ^ 63 ≤ a.tmod b + b) (hmin : ¬ (a = -2 ^ 63 ∧ b = -1)) :
    Sat (invGcd a b) (fun r => r.1.natAbs = Int.gcd a b ∧ b ∣ r.2 * a - r.1 ∧ 0 ≤ r.2 ∧
      r.2 * Int.gcd a b < -b) := by
  unfold invGcd
  have hlt := natAbs_tmod_lt a hb.ne
  have hdv : b ∣ a - a.tmod b := ⟨a.tdiv b, by have := Int.mul_tdiv_add_tmod a b; omega⟩
  have hg : Int.gcd b (a.tmod b) = Int.gcd a b := gcd_tmod a b
  have hgp : 0 < Int.gcd a b := Nat.pos_of_ne_zero fun e => by
    have := (Int.gcd_eq_zero_iff.1 e).2; omega
  have hgb : (Int.gcd a b : Int) ∣ b := Int.gcd_dvd_right ..
  have hga : (Int.gcd a b : Int) ∣ a := Int.gcd_dvd_left ..
  by_cases hz : a.tmod b = 0
  · rw [safeMod_neg ha hb (i64_in.2 (by omega)) hmin, if_pos (by omega), ok_bind, if_pos hz, sat_ok]
    refine ⟨?_, ⟨-1, by ring⟩, le_refl _, by simp; omega⟩
    simp only
    rw [← hg, hz, Int.gcd_zero_right]
  -- after the loop
  have hfin : ∀ A : Int, (∃ fuel, a.tmod b ≠ 0 ∧ (a.tmod b).natAbs < fuel ∧
      loop (A.natAbs + 2) ((b, A, 0, 1) : Int × Int × Int × Int) invGcdStep =
        loop fuel ((b, a.tmod b, 0, 1) : Int × Int × Int × Int) invGcdStep) →
      Sat (loop (A.natAbs + 2) ((b, A, 0, 1) : Int × Int × Int × Int) invGcdStep >>= fun p =>
        if p.2 < 0 then do
          let q ← i64.div b p.1
          let m0 ← i64.ck (p.2 + q)
          ok (p.1, m0)
        else ok (p.1, p.2)) (fun r => r.1.natAbs = Int.gcd a b ∧ b ∣ r.2 * a - r.1 ∧ 0 ≤ r.2 ∧
        r.2 * Int.gcd a b < -b) := by
    rintro A ⟨fuel, h1, h2, h3⟩
    rw [h3, sat_bind]
    refine (invGcd_loop_neg hb hbi h1 hlt hdv fuel h2).mono ?_
    rintro ⟨s, m0⟩ ⟨k1, k2, k3, k4⟩
    simp only at k1 k2 k3 k4 ⊢
    rw [hg] at k1 k3
    generalize Int.gcd a b = G at *
    have z1 := Int.abs_eq_natAbs m0
    obtain ⟨q, hq⟩ := hgb
    have hq0 : q < 0 := by
      by_contra hc
      have : 0 ≤ (G : Int) * q := Int.mul_nonneg (by omega) (by omega)
      omega
    have hm : 2 * |m0| ≤ -q := by
      by_contra hc
      have : (G : Int) * (-q + 1) ≤ G * (2 * |m0|) := Int.mul_le_mul_of_nonneg_left (by omega) (by omega)
      nlinarith
    have hqb : b ≤ q := by nlinarith
    by_cases hneg : m0 < 0
    · have hs : s = -(G : Int) := by have := k4 hneg; omega
      subst hs
      rw [if_pos hneg, div_ok (ty := i64) (i64_in.2 (by omega)) (i64_in.2 (by
        have : (G : Int) ≤ -b := by nlinarith
        omega)) (by omega) (fun h => by
          have h1 : b = -9223372036854775808 := by rw [h.2.1]; decide
          omega), ok_bind,
        show b.tdiv (-(G : Int)) = -q by rw [hq, Int.tdiv_neg, Int.mul_tdiv_cancel_left _ (by omega)],
        IntTy.ck_of (i64_in.2 (by omega)), ok_bind, sat_ok]
      refine ⟨by simp, ?_, by simp only; omega, ?_⟩
      · obtain ⟨c, hc⟩ := k2
        obtain ⟨w, hw⟩ := hga
        refine ⟨c - w, ?_⟩
        simp only
        have : q * a = b * w := by rw [hw, hq]; ring
        linear_combination hc - this
      · simp only
        rw [hq]
        nlinarith
    · have habs : |m0| = m0 := abs_of_nonneg (by omega)
      rw [if_neg hneg, sat_ok]
      refine ⟨k1, k2, by simp only; omega, ?_⟩
      simp only
      rw [hq]
      nlinarith
  rw [safeMod_neg ha hb (i64_in.2 (by omega)) hmin]
  by_cases h0 : 0 ≤ a.tmod b
  · rw [if_pos h0, ok_bind, if_neg hz]
    exact hfin (a.tmod b) ⟨_, hz, by omega, rfl⟩
  · rw [if_neg h0, if_pos (by omega), ok_bind, if_neg (by omega)]
    refine hfin (a.tmod b + b) ⟨(a.tmod b + b).natAbs, hz, by omega, ?_⟩
    generalize hr : a.tmod b = r at *
    have d1 : b.tdiv (r + b) = 0 := by
      have : (b.tdiv (r + b)).natAbs = 0 := by
        rw [Int.natAbs_tdiv]; exact Nat.div_eq_of_lt (by omega)
      omega
    have d2 : (r + b).tdiv b = 1 := by
      rw [← Int.neg_tdiv_neg, Int.tdiv_eq_ediv_of_nonneg (by omega),
        show -(r + b) = -r + -b * 1 by ring, Int.add_mul_ediv_left _ _ (by omega),
        Int.ediv_eq_zero_of_lt (by omega) (by omega)]; rfl
    rw [loop]
    simp only [invGcdStep]
    rw [if_pos (by omega), div_ok (ty := i64) (i64_in.2 (by omega)) (i64_in.2 (by omega)) (by omega) (fun h => by
      have h1 : b = -9223372036854775808 := by rw [h.2.1]; decide
      omega), ok_bind, d1]
    rw [IntTy.ck_of (i64_in.2 (by omega)), ok_bind, IntTy.ck_of (i64_in.2 (by omega)), ok_bind,
      IntTy.ck_of (i64_in.2 (by omega)), ok_bind, IntTy.ck_of (i64_in.2 (by omega)), ok_bind, ok_bind]
    simp only []
    rw [loop]
    simp only [invGcdStep]
    rw [if_pos (by omega), Int.mul_zero, Int.sub_zero, Int.mul_zero, Int.sub_zero,
      div_ok (ty := i64) (i64_in.2 (by omega)) (i64_in.2 (by omega)) (by omega) (fun h => by
      have h1 : r + b = -9223372036854775808 := by rw [h.2.1]; decide
      omega), ok_bind, d2]
    rw [IntTy.ck_of (i64_in.2 (by omega)), ok_bind, IntTy.ck_of (i64_in.2 (by omega)), ok_bind,
      IntTy.ck_of (i64_in.2 (by omega)), ok_bind, IntTy.ck_of (i64_in.2 (by omega)), ok_bind, ok_bind]
    simp only [Int.mul_one, Int.zero_mul, Int.sub_zero]
    rw [show r + b - b = r by omega]

/-! ### `primitive_root` of numbers that are not prime -/

theorem passes_minFac {m : Nat} (hm3 : 3 ≤ m) : PassesRootTest m m.minFac := by
  intro q hq hd he
  have hp := Nat.minFac_prime (n := m) (by omega)
  have hk : (m - 1) / q ≠ 0 := by
    have h1 := Nat.le_of_dvd (by omega) hd
    have := Nat.div_pos (show q ≤ m - 1 by omega) hq.pos
    omega
  have h1 : m.minFac ∣ m.minFac ^ ((m - 1) / q) % m :=
    (Nat.dvd_mod_iff (Nat.minFac_dvd m)).2 (dvd_pow_self _ hk)
  rw [he] at h1
  exact hp.one_lt.ne' (Nat.dvd_one.1 h1)

theorem rootSearch_composite {m : Nat} (hm3 : 3 ≤ m) (hm2 : m < 2 ^ 31) (hnp : ¬ m.Prime) :
    Sat (rootSearch m) (fun r => ∃ g : Nat, r = g ∧ 2 ≤ g ∧ g ≤ m.minFac ∧ PassesRootTest m g ∧
      ∀ g', 2 ≤ g' → g' < g → ¬ PassesRootTest m g') := by
  have hp := Nat.minFac_prime (n := m) (by omega)
  refine rootSearch_gen hm3 hm2 hp.two_le ?_ (passes_minFac hm3)
  have h1 := Nat.minFac_le (n := m) (by omega)
  rcases Nat.lt_or_ge m.minFac m with h | h
  · exact h
  · exact absurd (by rw [show m.minFac = m by omega] at hp; exact hp) hnp

theorem divOut_zero (fuel : Nat) : loop fuel (0 : Int) (divOutStep 2) = .diverge := by
  induction fuel with
  | zero => rfl
  | succ fuel ih =>
    rw [loop, show divOutStep 2 0 = ok (.next 0) from rfl]
    exact ih

theorem divOut_neg {x : Int} (hx : x < 0) (hx2 : -2 ^ 30 ≤ x) : Sat (divOut x 2) (fun y => y < 0) := by
  unfold divOut
  refine loop_satG (σ := Int) (fun r k => r < 0 ∧ -2 ^ 30 ≤ r ∧ r.natAbs < 2 ^ k) _ ?_ _ _ 31
    ⟨hx, hx2, by norm_num; omega⟩ (by omega)
  rintro r k ⟨h1, h2, h3⟩
  unfold divOutStep
  rw [rem_ok (by omega) (fun h => by omega), ok_bind]
  by_cases h : r.tmod 2 = 0
  · rw [if_pos h, div_ok (i32_in.2 (by omega)) (i32_in.2 (by omega)) (by omega) (fun h => by omega), ok_bind, sat_ok]
    have := Int.mul_tdiv_add_tmod r 2
    rcases k with _ | k
    · simp at h3; omega
    · rw [Nat.pow_succ] at h3
      exact ⟨k, by omega, by omega, by omega, by omega⟩
  · rw [if_neg h, sat_ok]; exact h1

theorem rootSearch_neg {m : Int} (hm : m < 0) (hm2 : -2 ^ 31 < m) : rootSearch m = .diverge := by
  unfold rootSearch rootDivs
  have hd := Int.mul_tdiv_add_tmod (m - 1) 2
  have ht := natAbs_tmod_lt (m - 1) (b := 2) (by omega)
  have h0 : (m - 1).tmod 2 ≤ 0 := by
    have := Int.tmod_nonneg 2 (show 0 ≤ -(m - 1) by omega)
    rw [Int.neg_tmod] at this; omega
  obtain ⟨x, hx, hx0⟩ := divOut_neg (x := (m - 1).tdiv 2) (by omega) (by omega)
  rw [IntTy.ck_of (i32_in.2 (by omega)), ok_bind,
    div_ok (i32_in.2 (by omega)) (i32_in.2 (by omega)) (by omega) (fun h => by omega), ok_bind, hx, ok_bind]
  rw [show (65536 : Nat) = 65535 + 1 from rfl, loop]
  simp only [trialStep]
  rw [if_neg (by omega), IntTy.ck_of (i64_in.2 (by omega)), ok_bind, if_pos (by omega), ok_bind]
  simp only [ok_bind]
  rw [if_neg (by omega), ok_bind, loop]
  simp only [rootStep, rootTest]
  rw [IntTy.ck_of (i32_in.2 (by omega)), ok_bind, show idx ((List.replicate 20 (0 : Int)).set 0 2) 0 = ok 2 by decide,
    ok_bind, div_ok (i32_in.2 (by omega)) (i32_in.2 (by omega)) (by omega) (fun h => by omega), ok_bind]
  have hp : powMod 2 ((m - 1).tdiv 2) m = .diverge := by
    unfold powMod
    rw [if_neg (by omega), powLoop_negneg (i64_in.2 (by omega)) (by omega) hm (by omega) (by omega) 64,
      if_pos (Int.tmod_nonneg _ (by omega))]
  rw [hp]; rfl

end Verif.IMP
