import Verif.Proof.MathDomain
/-! `inv_gcd` with the modulus `i64::MIN`. -/
namespace Verif.IMP
open Model Res NTP Spec

/-- The state of the loop of `inv_gcd(a, i64::MIN)`: the two remainders have opposite signs, so no quotient is
positive and the coefficients only grow. -/
structure MinInv (a : Int) (G : Nat) (s t m0 m1 : Int) : Prop where
  lt : |t| < |s|
  hi : s < 2 ^ 63
  sgn : (s < 0 ∧ 0 ≤ t) ∨ (0 < s ∧ t ≤ 0)
  gcd : Int.gcd s t = G
  d0 : (-2 ^ 63 : Int) ∣ m0 * a - s
  d1 : (-2 ^ 63 : Int) ∣ m1 * a - t
  p0 : 0 ≤ m0
  p1 : 0 < m1
  tot : |s| * m1 + |t| * m0 = 2 ^ 63
  sm : 2 * (G * m0) ≤ 2 ^ 63

theorem min_step {a s t m0 m1 : Int} {G : Nat} (h : MinInv a G s t m0 m1) (ht : t ≠ 0) :
    (|t| = 1 ∧ s.tmod t = 0 → invGcdStep (s, t, m0, m1) = panic) ∧
    (¬ (|t| = 1 ∧ s.tmod t = 0) → ∃ m, invGcdStep (s, t, m0, m1) = ok (.next (t, s.tmod t, m1, m)) ∧
      MinInv a G t (s.tmod t) m1 m) := by
  obtain ⟨hlt, hhi, hsg, hG, hd0, hd1, hp0, hp1, htot, hsm⟩ := h
  have htp : 0 < |t| := abs_pos.2 ht
  have z1 := Int.abs_eq_natAbs s
  have z2 := Int.abs_eq_natAbs t
  have hsb : |s| ≤ 2 ^ 63 := by
    have : 0 ≤ |t| * m0 := Int.mul_nonneg htp.le hp0
    nlinarith [abs_nonneg s]
  have hst := Int.mul_tdiv_add_tmod s t
  have hrl := natAbs_tmod_lt s ht
  have hgt : Int.gcd t (s.tmod t) = G := by rw [gcd_tmod, hG]
  have hsr : (0 ≤ s → 0 ≤ s.tmod t) ∧ (s ≤ 0 → s.tmod t ≤ 0) :=
    ⟨fun h => Int.tmod_nonneg t h, fun h => by
      have := Int.tmod_nonneg t (show 0 ≤ -s by omega)
      rw [Int.neg_tmod] at this; omega⟩
  have hu : s.tdiv t ≤ 0 := by
    rcases hsg with ⟨h1, h2⟩ | ⟨h1, h2⟩
    · have := Int.tdiv_nonneg (show 0 ≤ -s by omega) h2
      rw [Int.neg_tdiv] at this; omega
    · exact Int.tdiv_nonpos_of_nonneg_of_nonpos h1.le h2
  have habs : |s| = |t| * |s.tdiv t| + |s.tmod t| := by
    rw [Int.abs_eq_natAbs, Int.abs_eq_natAbs, Int.abs_eq_natAbs, Int.abs_eq_natAbs, Int.natAbs_tdiv, Int.natAbs_tmod]
    have := Nat.div_add_mod s.natAbs t.natAbs
    rw [← Nat.cast_mul, ← Nat.cast_add]
    congr 1
    exact this.symm
  have hdiv : i64.div s t = ok (s.tdiv t) :=
    div_ok (ty := i64) (i64_in.2 (by omega)) (i64_in.2 (by omega)) ht (fun h => by
      have h1 : s = -9223372036854775808 := by rw [h.2.1]; decide
      have h2 : t = -1 := h.2.2
      omega)
  generalize s.tdiv t = u at *
  generalize s.tmod t = r at *
  have z3 := Int.abs_eq_natAbs r
  have hau : |u| = -u := abs_of_nonpos hu
  rw [hau] at habs
  have hrr := abs_nonneg r
  have hmu : m1 * u ≤ 0 := Int.mul_nonpos_of_nonneg_of_nonpos hp1.le hu
  have htot' : |t| * (m0 - m1 * u) + |r| * m1 = 2 ^ 63 := by
    rw [← htot, habs]; ring
  have hrm : 0 ≤ |r| * m1 := Int.mul_nonneg hrr hp1.le
  have htm : m0 - m1 * u ≤ |t| * (m0 - m1 * u) := by nlinarith
  have hsub : s - t * u = r := by omega
  have htu : |t * u| ≤ |s| := by rw [abs_mul, hau]; omega
  have htu' := abs_le.1 htu
  have step : invGcdStep (s, t, m0, m1) =
      (i64.ck (m0 - m1 * u) >>= fun m => ok (.next (t, r, m1, m))) := by
    unfold invGcdStep
    simp only []
    rw [if_pos ht, hdiv, ok_bind, IntTy.ck_of (i64_in.2 (by omega)), ok_bind, hsub,
      IntTy.ck_of (i64_in.2 (by omega)), ok_bind, IntTy.ck_of (i64_in.2 (by omega)), ok_bind]
  rw [step]
  constructor
  · rintro ⟨h1, h2⟩
    rw [h1, h2] at htot'
    simp only [abs_zero, Int.zero_mul, Int.one_mul] at htot'
    rw [IntTy.ck_panic (fun hh => by rw [i64_in] at hh; omega)]
    rfl
  · intro hne
    have hlt2 : m0 - m1 * u < 2 ^ 63 := by
      by_cases hr : r = 0
      · have : 2 ≤ |t| := by omega
        have : 0 < m0 - m1 * u := by
          by_contra hc
          have : m0 - m1 * u = 0 := by omega
          rw [this, hr] at htot'
          simp at htot'
        nlinarith
      · have : 0 < |r| * m1 := Int.mul_pos (abs_pos.2 hr) hp1
        omega
    refine ⟨m0 - m1 * u, by rw [IntTy.ck_of (i64_in.2 (by omega)), ok_bind], by omega, by omega, by omega, hgt, hd1, ?_,
      hp1.le, ?_, htot', ?_⟩
    · obtain ⟨c1, h1⟩ := hd0
      obtain ⟨c2, h2⟩ := hd1
      exact ⟨c1 - u * c2, by rw [← hsub]; linear_combination h1 - u * h2⟩
    · have : u ≠ 0 := by rintro rfl; simp at habs; omega
      have : m1 * u < 0 := Int.mul_neg_of_pos_of_neg hp1 (by omega)
      omega
    · have hGt : (G : Int) ∣ |t| := (dvd_abs _ _).2 (by rw [← hG]; exact Int.gcd_dvd_right ..)
      have hGs : (G : Int) ∣ |s| := (dvd_abs _ _).2 (by rw [← hG]; exact Int.gcd_dvd_left ..)
      have g1 := Int.le_of_dvd htp hGt
      have g2 := Int.le_of_dvd (show 0 < |s| - |t| by omega) (Int.dvd_sub hGs hGt)
      have : 2 * (G : Int) * m1 ≤ |s| * m1 := Int.mul_le_mul_of_nonneg_right (by omega) hp1.le
      have : 0 ≤ |t| * m0 := Int.mul_nonneg htp.le hp0
      linarith

theorem min_loop_panic {a : Int} : ∀ (fuel : Nat) (s t m0 m1 : Int), MinInv a 1 s t m0 m1 → t ≠ 0 →
    t.natAbs < fuel → loop fuel (s, t, m0, m1) invGcdStep = panic := by
  intro fuel
  induction fuel with
  | zero => intro s t m0 m1 _ _ h; omega
  | succ fuel ih =>
    intro s t m0 m1 h ht hf
    obtain ⟨h1, h2⟩ := min_step h ht
    rw [loop]
    by_cases hc : |t| = 1 ∧ s.tmod t = 0
    · rw [h1 hc]; rfl
    · obtain ⟨m, e, hi⟩ := h2 hc
      rw [e, ok_bind]
      refine ih _ _ _ _ hi (fun hr => hc ⟨?_, hr⟩) (by have := natAbs_tmod_lt s ht; omega)
      have := hi.gcd
      rw [hr, Int.gcd_zero_right] at this
      rw [Int.abs_eq_natAbs, this]; rfl

theorem min_loop_ok {a : Int} {G : Nat} (hG : G ≠ 1) : ∀ (fuel : Nat) (s t m0 m1 : Int), MinInv a G s t m0 m1 →
    t.natAbs < fuel → Sat (loop fuel (s, t, m0, m1) invGcdStep) (fun r =>
      r.1.natAbs = G ∧ (-2 ^ 63 : Int) ∣ r.2 * a - r.1 ∧ 0 ≤ r.2 ∧ 2 * (G * r.2) ≤ 2 ^ 63) := by
  intro fuel
  induction fuel with
  | zero => intro s t m0 m1 _ h; omega
  | succ fuel ih =>
    intro s t m0 m1 h hf
    rw [loop]
    by_cases ht : t = 0
    · subst ht
      have : invGcdStep (s, 0, m0, m1) = ok (.done (s, m0)) := by
        unfold invGcdStep; simp only []; rw [if_neg (by simp)]
      rw [this, ok_bind, sat_ok]
      exact ⟨by simp only; rw [← h.gcd, Int.gcd_zero_right], h.d0, h.p0, h.sm⟩
    · obtain ⟨_, h2⟩ := min_step h ht
      obtain ⟨m, e, hi⟩ := h2 (fun ⟨h1, h3⟩ => hG (by
        have := h.gcd
        rw [← this, ← gcd_tmod, h3, Int.gcd_zero_right]
        rw [Int.abs_eq_natAbs] at h1; omega))
      rw [e, ok_bind]
      exact ih _ _ _ _ hi (by have := natAbs_tmod_lt s ht; omega)

theorem minInv_start {a : Int} (h0 : 0 < a) (ha : i64.In a) :
    MinInv a (Int.gcd a (-2 ^ 63)) (-2 ^ 63) a 0 1 := by
  rw [i64_in] at ha
  have z := abs_of_pos h0
  have z2 : |(-2 ^ 63 : Int)| = 2 ^ 63 := by decide
  exact ⟨by rw [z, z2]; omega, by decide, .inl ⟨by decide, h0.le⟩, Int.gcd_comm .., ⟨-1, by ring⟩, ⟨0, by ring⟩, le_refl _, by decide,
    by rw [z2]; simp, by simp⟩

/-- `inv_gcd(a, i64::MIN)` for `a > 0`. -/
theorem invGcd_min_pos {a : Int} (h0 : 0 < a) (ha : i64.In a) :
    (Int.gcd a (-2 ^ 63) = 1 → invGcd a (-2 ^ 63) = panic) ∧
    (Int.gcd a (-2 ^ 63) ≠ 1 → Sat (invGcd a (-2 ^ 63)) (fun r => r.1.natAbs = Int.gcd a (-2 ^ 63) ∧
      (-2 ^ 63 : Int) ∣ r.2 * a - r.1 ∧ 0 ≤ r.2 ∧ 2 * (Int.gcd a (-2 ^ 63) * r.2) ≤ 2 ^ 63)) := by
  have hi := minInv_start h0 ha
  have hb := i64_in.1 ha
  have hm : a.tmod (-2 ^ 63) = a := by
    rw [show (-2 ^ 63 : Int) = -(2 ^ 63) from rfl, Int.tmod_neg]
    exact Int.tmod_eq_of_lt h0.le (by omega)
  have e : invGcd a (-2 ^ 63) = (loop (a.natAbs + 2) ((-2 ^ 63, a, 0, 1) : Int × Int × Int × Int) invGcdStep >>=
      fun p => if p.2 < 0 then do
          let q ← i64.div (-2 ^ 63) p.1
          let m0 ← i64.ck (p.2 + q)
          ok (p.1, m0)
        else ok (p.1, p.2)) := by
    unfold invGcd
    rw [safeMod_neg ha (by decide) (i64_in.2 (by decide)) (fun h => absurd h.2 (by decide)), hm, if_pos h0.le, ok_bind,
      if_neg h0.ne']
  rw [e]
  constructor
  · intro hg
    rw [hg] at hi
    rw [min_loop_panic _ _ _ _ _ hi h0.ne' (by omega)]
    rfl
  · intro hg
    rw [sat_bind]
    refine (min_loop_ok hg _ _ _ _ _ hi (by omega)).mono ?_
    rintro ⟨s, m⟩ h
    rw [if_neg (by simp only; exact not_lt.2 h.2.2.1), sat_ok]
    exact h

end Verif.IMP
