import Verif.Model.InternalMath
import Verif.Proof.ExCrt
import Mathlib.Data.Nat.ModEq
import Mathlib.Algebra.Order.Ring.Abs
import Mathlib.Data.Int.ModEq
/-! Proofs about `safe_mod`, Barrett reduction, `pow_mod`, `inv_gcd`. -/
namespace Verif.IMP
open Model Res NTP

theorem tmod_fix {x m : Int} (hm : 0 < m) :
    (if x.tmod m < 0 then x.tmod m + m else x.tmod m) = x % m := by
  have h1 := Int.mul_tdiv_add_tmod x m
  have h2 := Int.emod_nonneg x hm.ne'
  have h3 := Int.emod_lt_of_pos x hm
  have h4 := natAbs_tmod_lt x hm.ne'
  generalize x.tmod m = r at *
  have h5 : x % m = r % m := by
    rw [← h1, Int.add_comm, Int.add_mul_emod_self_left]
  rw [h5]
  split
  · rw [← Int.add_emod_right]; exact (Int.emod_eq_of_lt (by omega) (by omega)).symm
  · exact (Int.emod_eq_of_lt (by omega) (by omega)).symm

theorem safeMod_eq {x m : Int} (hx : i64.In x) (hm : 0 < m) (hmi : i64.In m) : safeMod x m = ok (x % m) := by
  unfold safeMod
  rw [rem_ok hm.ne' (fun h => by omega), ok_bind, ← tmod_fix hm]
  have h4 := natAbs_tmod_lt x hm.ne'
  rw [i64_in] at hmi
  split
  · rw [IntTy.ck_of (i64_in.2 (by omega))]
  · rfl

/-! ### Barrett -/

theorem barrett_mul {a b m im : Nat} (hm2 : m ≤ 2 ^ 31) (ha : a < m) (hb : b < m)
    (him : im = waddU 64 ((2 ^ 64 - 1) / m) 1) : mulMod a b m im = ok (a * b % m) := by
  have hab : a * b < 2 ^ 62 + 1 := by
    have : a * b ≤ 2 ^ 31 * 2 ^ 31 := Nat.mul_le_mul (by omega) (by omega)
    omega
  unfold mulMod
  rw [mulU_of_lt (by omega), ok_bind]
  have himlt : im < 2 ^ 64 := by rw [him]; exact Nat.mod_lt _ (by decide)
  rw [mulU_of_lt (by
    calc a * b * im < 2 ^ 64 * 2 ^ 64 := Nat.mul_lt_mul'' (by omega) himlt
      _ = 2 ^ 128 := by norm_num), ok_bind]
  by_cases hm1 : m = 1
  · subst hm1
    have : a = 0 := by omega
    subst this
    have : b = 0 := by omega
    subst this
    simp [wsubU, wmulU]
  simp only []
  congr 1
  have hmpos : 0 < m := by omega
  -- `im = ceil(2^64 / m)`
  have hq : (2 ^ 64 - 1) / m + 1 < 2 ^ 64 := by
    have : (2 ^ 64 - 1) / m ≤ (2 ^ 64 - 1) / 2 := Nat.div_le_div_left (by omega) (by decide)
    omega
  have him' : im = (2 ^ 64 - 1) / m + 1 := by
    rw [him]; unfold waddU; exact Nat.mod_eq_of_lt hq
  obtain ⟨r, hr, hrm⟩ : ∃ r, im * m = 2 ^ 64 + r ∧ r < m := by
    have h1 := Nat.div_add_mod (2 ^ 64 - 1) m
    have h2 := Nat.mod_lt (2 ^ 64 - 1) hmpos
    refine ⟨m - 1 - (2 ^ 64 - 1) % m, ?_, by omega⟩
    rw [him', Nat.add_mul, Nat.one_mul, Nat.mul_comm ((2 ^ 64 - 1) / m) m]
    omega
  have hcd := Nat.div_add_mod (a * b) m
  have hd := Nat.mod_lt (a * b) hmpos
  have hc : a * b / m < m := by
    rw [Nat.div_lt_iff_lt_mul hmpos]
    exact Nat.mul_lt_mul'' ha hb
  generalize a * b / m = c at *
  generalize a * b % m = d at *
  generalize a * b = z at *
  -- z * im = c * 2^64 + (c * r + d * im)
  have hz : z * im = c * 2 ^ 64 + (c * r + d * im) := by
    rw [← hcd]
    calc (m * c + d) * im = c * (im * m) + d * im := by ring
      _ = _ := by rw [hr]; ring
  have hcr : c * r ≤ 2 ^ 62 := by
    calc c * r ≤ 2 ^ 31 * 2 ^ 31 := Nat.mul_le_mul (by omega) (by omega)
      _ = 2 ^ 62 := by norm_num
  have hdi : d * im + im ≤ 2 ^ 64 + r := by
    rw [← hr]
    calc d * im + im = im * (d + 1) := by ring
      _ ≤ im * m := Nat.mul_le_mul_left _ hd
  have hx : z * im / 2 ^ 64 = c ∨ z * im / 2 ^ 64 = c + 1 := by
    rw [hz]
    by_cases hlt : c * r + d * im < 2 ^ 64
    · left; omega
    · right; omega
  have hxm : ((z * im) >>> 64) % 2 ^ 64 = z * im / 2 ^ 64 := by
    rw [Nat.shiftRight_eq_div_pow]
    exact Nat.mod_eq_of_lt (by omega)
  rw [hxm]
  unfold wsubU wmulU waddU
  have hcm : m * c ≤ z := by omega
  have hmm : m * c + m ≤ 2 ^ 63 := by omega
  rcases hx with hx | hx <;> rw [hx]
  · have e1 : c * m = m * c := Nat.mul_comm _ _
    have e2 : (z + (2 ^ 64 - c * m % 2 ^ 64 % 2 ^ 64)) % 2 ^ 64 % 2 ^ 32 = d := by
      rw [e1]
      generalize m * c = w at *
      omega
    rw [e2, if_neg (by omega)]
  · have e1 : (c + 1) * m = m * c + m := by ring
    have e2 : (z + (2 ^ 64 - (c + 1) * m % 2 ^ 64 % 2 ^ 64)) % 2 ^ 64 % 2 ^ 32 = 2 ^ 32 + d - m := by
      rw [e1]
      generalize m * c = w at *
      omega
    rw [e2, if_pos (by omega)]
    omega

/-! ### `pow_mod` -/

theorem asI64_nat {r : Nat} (h : r < 2 ^ 63) : asI64 (r : Int) = r := asI64_of (by omega) (by omega)

theorem powLoop_sat {m : Nat} (hm1 : 1 < m) (hm : m ≤ 2 ^ 32) (T : Nat) :
    ∀ (fuel : Nat) (n : Nat) (r y : Nat), n < 2 ^ fuel → r < m → y < m → (r * y ^ n) % m = T →
      loop (fuel + 1) (((n : Int), r, y) : Int × Nat × Nat) (powModStep m) = ok (T : Int) := by
  intro fuel
  have hmul : ∀ u v : Nat, u < m → v < m → u * v < 2 ^ 64 := by
    intro u v hu hv
    have : u * v ≤ (2 ^ 32 - 1) * (2 ^ 32 - 1) := Nat.mul_le_mul (by omega) (by omega)
    omega
  induction fuel with
  | zero =>
    intro n r y hn hr hy hT
    have : n = 0 := by omega
    subst this
    simp only [loop, powModStep]
    rw [if_neg (by simp)]
    simp only [ok_bind]
    rw [asI64_nat (by omega)]
    simp at hT
    rw [← hT, Nat.mod_eq_of_lt hr]
  | succ fuel ih =>
    intro n r y hn hr hy hT
    rw [loop]
    by_cases hn0 : n = 0
    · subst hn0
      simp only [powModStep]
      rw [if_neg (by simp)]
      simp only [ok_bind]
      rw [asI64_nat (by omega)]
      simp at hT
      rw [← hT, Nat.mod_eq_of_lt hr]
    have hn2 : ((n : Int) / 2) = ((n / 2 : Nat) : Int) := by simp
    have key : ∀ r' : Nat, r' < m → (r' * (y * y % m) ^ (n / 2)) % m = T →
        loop (fuel + 1) ((((n / 2 : Nat) : Int), r', y * y % m) : Int × Nat × Nat) (powModStep m) = ok (T : Int) := by
      intro r' h1 h2
      refine ih (n / 2) r' (y * y % m) ?_ h1 (Nat.mod_lt _ (by omega)) h2
      rw [Nat.pow_succ] at hn; omega
    have hsq : ∀ r' : Nat, (r' * (y * y % m) ^ (n / 2)) % m = (r' * y ^ (2 * (n / 2))) % m := by
      intro r'
      rw [Nat.mul_mod, Nat.pow_mod, Nat.mod_mod, ← Nat.pow_mod, ← Nat.mul_mod, ← Nat.pow_two, ← Nat.pow_mul]
    simp only [powModStep]
    rw [if_pos (by simpa using hn0)]
    by_cases hodd : n % 2 = 1
    · rw [if_pos (by omega), mulU_of_lt (hmul _ _ hr hy), ok_bind]
      simp only [remU]
      rw [if_neg (by omega), ok_bind, mulU_of_lt (hmul _ _ hy hy), ok_bind, if_neg (by omega), ok_bind, ok_bind,
        hn2]
      refine key _ (Nat.mod_lt _ (by omega)) ?_
      rw [hsq, Nat.mul_mod, Nat.mod_mod, ← Nat.mul_mod, ← hT]
      congr 1
      have : n = 2 * (n / 2) + 1 := by omega
      conv_rhs => rw [this, Nat.pow_succ]
      ring
    · rw [if_neg (by omega), ok_bind, mulU_of_lt (hmul _ _ hy hy), ok_bind]
      simp only [remU]
      rw [if_neg (by omega), ok_bind, ok_bind, hn2]
      refine key _ hr ?_
      rw [hsq, ← hT]
      have : n = 2 * (n / 2) := by omega
      conv_rhs => rw [this]

theorem powMod_eq {x : Int} {n m : Nat} (hx : i64.In x) (hn : n < 2 ^ 63) (hm : 1 ≤ m) (hm2 : m < 2 ^ 31) :
    powMod x n m = ok (x ^ n % m) := by
  unfold powMod
  by_cases h1 : m = 1
  · subst h1
    rw [if_pos (by rfl)]
    simp [Int.emod_one]
  · rw [if_neg (by omega), safeMod_eq hx (by omega) (i64_in.2 (by omega)), ok_bind]
    have h2 := Int.emod_nonneg x (b := (m : Int)) (by omega)
    have h3 := Int.emod_lt_of_pos x (b := (m : Int)) (by omega)
    obtain ⟨y, hy⟩ := Int.eq_ofNat_of_zero_le h2
    have e1 : ((x % (m : Int)) % 2 ^ 64).toNat = y := by rw [hy]; omega
    have e2 : ((m : Int) % 2 ^ 32).toNat = m := by omega
    rw [e1, e2]
    have := powLoop_sat (m := m) (by omega) (by omega) (y ^ n % m) 64 n 1 y (by
      have : 2 ^ 63 < 2 ^ 64 := by norm_num
      omega) (by omega) (by omega) (by simp)
    rw [this]
    congr 1
    push_cast
    rw [← hy]
    exact ((Int.mod_modEq x m).pow n)

/-- For a negative exponent the loop runs forever: `n` stays negative. -/
theorem powLoop_neg {m : Nat} (hm1 : 1 < m) (hm : m ≤ 2 ^ 32) :
    ∀ (fuel : Nat) (n : Int) (r y : Nat), n < 0 → r < m → y < m →
      loop fuel ((n, r, y) : Int × Nat × Nat) (powModStep m) = .diverge := by
  intro fuel
  have hmul : ∀ u v : Nat, u < m → v < m → u * v < 2 ^ 64 := by
    intro u v hu hv
    have : u * v ≤ (2 ^ 32 - 1) * (2 ^ 32 - 1) := Nat.mul_le_mul (by omega) (by omega)
    omega
  induction fuel with
  | zero => intro n r y _ _ _; rfl
  | succ fuel ih =>
    intro n r y hn hr hy
    rw [loop]
    simp only [powModStep]
    rw [if_pos (by omega)]
    have hmod : ∀ w, w % m < m := fun w => Nat.mod_lt _ (by omega)
    split
    · rw [mulU_of_lt (hmul _ _ hr hy), ok_bind]
      simp only [remU]
      rw [if_neg (by omega), ok_bind, mulU_of_lt (hmul _ _ hy hy), ok_bind, if_neg (by omega), ok_bind, ok_bind]
      exact ih _ _ _ (by omega) (hmod _) (hmod _)
    · rw [ok_bind, mulU_of_lt (hmul _ _ hy hy), ok_bind]
      simp only [remU]
      rw [if_neg (by omega), ok_bind, ok_bind]
      exact ih _ _ _ (by omega) hr (hmod _)

/-! ### `inv_gcd` -/

theorem invGcd_sat {a b : Int} (ha : i64.In a) (hb : 1 ≤ b) (hbi : i64.In b) :
    Sat (invGcd a b) (fun r => r.1 = Int.gcd a b ∧ b ∣ r.2 * a - r.1 ∧ 0 ≤ r.2 ∧ r.2 * r.1 < b) := by
  unfold invGcd
  rw [safeMod_eq ha (by omega) hbi, ok_bind]
  have hbi' := i64_in.1 hbi
  have h2 := Int.emod_nonneg a (b := b) (by omega)
  have h3 := Int.emod_lt_of_pos a (b := b) (by omega)
  have hgm : Int.gcd (a % b) b = Int.gcd a b := by
    conv_rhs => rw [← Int.mul_ediv_add_emod a b]
    simp
  by_cases h0 : a % b = 0
  · rw [if_pos h0, sat_ok]
    have hd : b ∣ a := Int.dvd_of_emod_eq_zero h0
    refine ⟨?_, ⟨-1, by ring⟩, le_refl _, by simp; omega⟩
    rw [← hgm, h0, Int.gcd_zero_left]; omega
  rw [if_neg h0]
  -- the loop
  have hdm : b ∣ a % b - a := ⟨-(a / b), by have := Int.mul_ediv_add_emod a b; linarith⟩
  generalize hA : a % b = A at *
  have hgpos : 0 < Int.gcd a b := by
    rw [← hgm]
    exact Nat.pos_of_ne_zero fun e => h0 (Int.gcd_eq_zero_iff.1 e).1
  generalize hG : Int.gcd a b = G at *
  have hloop : Sat (loop (A.natAbs + 2) ((b, A, 0, 1) : Int × Int × Int × Int) invGcdStep) (fun r =>
      r.1 = G ∧ b ∣ r.2 * a - r.1 ∧ 2 * (G * |r.2|) ≤ b) := by
    refine loop_satG (σ := Int × Int × Int × Int) (fun st k =>
      0 ≤ st.2.1 ∧ st.2.1 < st.1 ∧ st.1 ≤ b ∧ st.2.1.natAbs = k ∧ Int.gcd st.1 st.2.1 = G ∧
      b ∣ st.2.2.1 * a - st.1 ∧ b ∣ st.2.2.2 * a - st.2.1 ∧
      st.1 * |st.2.2.2| + st.2.1 * |st.2.2.1| ≤ b ∧ 2 * (G * |st.2.2.1|) ≤ b) _ ?_ _ _ A.natAbs ?_ (by omega)
    swap
    · refine ⟨by omega, by omega, by omega, rfl, ?_, ⟨-1, by ring⟩, ?_, by simp, by simp; omega⟩
      · simp only; rw [Int.gcd_comm]; exact hgm
      · simp only
        rw [← Int.dvd_neg]
        convert hdm using 1
        ring
    rintro ⟨s, t, m0, m1⟩ k ⟨p1, p2, p3, p4, p5, p6, p7, p8, p9⟩
    simp only at p1 p2 p3 p4 p5 p6 p7 p8 p9
    unfold invGcdStep
    simp only []
    by_cases ht : t = 0
    · subst ht
      rw [if_neg (by simp), sat_ok]
      refine ⟨?_, p6, p9⟩
      simp only
      rw [← p5, Int.gcd_zero_right]; omega
    have htp : 0 < t := by omega
    rw [if_pos ht, div_ok (ty := i64) (i64_in.2 (by omega)) (i64_in.2 (by omega)) ht (fun h => by omega), ok_bind]
    have hu0 : 0 ≤ s.tdiv t := Int.tdiv_nonneg (by omega) p1
    have hst := Int.mul_tdiv_add_tmod s t
    have hr0 := Int.tmod_nonneg t (show 0 ≤ s by omega)
    have hrl := Int.tmod_lt_of_pos s htp
    have hgt : Int.gcd t (s.tmod t) = G := by rw [gcd_tmod, p5]
    generalize s.tdiv t = u at *
    generalize s.tmod t = r at *
    have htu : 0 ≤ t * u := Int.mul_nonneg p1 hu0
    have hm1 := abs_nonneg m1
    have hm0 := abs_nonneg m0
    have e1 : |m1 * u| = |m1| * u := by rw [abs_mul, abs_of_nonneg hu0]
    have q1 : t * |m1 * u| ≤ s * |m1| := by
      rw [e1, ← hst]
      nlinarith [Int.mul_nonneg hr0 hm1]
    have hz0 : 0 ≤ t * |m0| := Int.mul_nonneg p1 hm0
    have q2 : |m1 * u| ≤ b := by
      have : |m1 * u| ≤ t * |m1 * u| := by nlinarith [abs_nonneg (m1 * u)]
      omega
    have q3 : t * |m0 - m1 * u| + r * |m1| ≤ b := by
      have h4 : |m0 - m1 * u| ≤ |m0| + |m1 * u| := abs_sub m0 (m1 * u)
      have h5 : t * |m0 - m1 * u| ≤ t * (|m0| + |m1 * u|) := Int.mul_le_mul_of_nonneg_left h4 p1
      have h6 : t * |m1 * u| + r * |m1| = s * |m1| := by rw [e1, ← hst]; ring
      linarith [Int.mul_add t |m0| |m1 * u|]
    have q4 : |m0 - m1 * u| ≤ b := by
      have : |m0 - m1 * u| ≤ t * |m0 - m1 * u| := by nlinarith [abs_nonneg (m0 - m1 * u)]
      have : 0 ≤ r * |m1| := Int.mul_nonneg hr0 hm1
      omega
    have q2' := abs_le.1 q2
    have q4' := abs_le.1 q4
    rw [IntTy.ck_of (i64_in.2 (by omega)), ok_bind, IntTy.ck_of (i64_in.2 (by omega)), ok_bind,
      IntTy.ck_of (i64_in.2 (by omega)), ok_bind, IntTy.ck_of (i64_in.2 (by omega)), ok_bind, sat_ok]
    have hsr : s - t * u = r := by omega
    rw [hsr]
    refine ⟨r.natAbs, by omega, hr0, hrl, by omega, rfl, hgt, p7, ?_, by simp only; linarith, ?_⟩
    · simp only
      obtain ⟨c1, h1⟩ := p6
      obtain ⟨c2, h2⟩ := p7
      exact ⟨c1 - u * c2, by rw [← hsr]; linear_combination h1 - u * h2⟩
    · simp only
      -- `s ≥ 2 G`
      have hGt : (G : Int) ∣ t := by rw [← p5]; exact Int.gcd_dvd_right ..
      have hGs : (G : Int) ∣ s := by rw [← p5]; exact Int.gcd_dvd_left ..
      have g1 := Int.le_of_dvd htp hGt
      have g2 := Int.le_of_dvd (show 0 < s - t by omega) (Int.dvd_sub hGs hGt)
      have : 2 * (G : Int) * |m1| ≤ s * |m1| := Int.mul_le_mul_of_nonneg_right (by omega) hm1
      linarith
  rw [sat_bind]
  refine hloop.mono ?_
  rintro ⟨s, m0⟩ ⟨rfl, h5, h6⟩
  simp only at h5 h6 ⊢
  have hGb : (G : Int) ∣ b := by rw [← hG]; exact Int.gcd_dvd_right ..
  obtain ⟨q, hq⟩ := hGb
  have hG0 : (0 : Int) < G := by omega
  have hq0 : 0 < q := by
    by_contra hc
    have : (G : Int) * q ≤ 0 := Int.mul_nonpos_of_nonneg_of_nonpos hG0.le (by omega)
    omega
  have hqb : q ≤ b := by rw [hq]; nlinarith
  have hm : 2 * |m0| ≤ q := by
    by_contra hc
    have : (G : Int) * (q + 1) ≤ G * (2 * |m0|) := Int.mul_le_mul_of_nonneg_left (by omega) hG0.le
    rw [hq] at h6
    nlinarith
  by_cases hneg : m0 < 0
  · have habs : |m0| = -m0 := abs_of_neg hneg
    have hGle := Int.le_of_dvd (show 0 < b by omega) ⟨q, hq⟩
    rw [if_pos hneg, div_ok (ty := i64) hbi (i64_in.2 (by omega)) hG0.ne' (fun h => by omega), ok_bind,
      show b.tdiv G = q by rw [hq]; exact Int.mul_tdiv_cancel_left _ hG0.ne',
      IntTy.ck_of (i64_in.2 (by omega)), ok_bind, sat_ok]
    refine ⟨rfl, ?_, by simp only; omega, ?_⟩
    · obtain ⟨c, hc⟩ := h5
      have : (G : Int) ∣ a := by rw [← hG]; exact Int.gcd_dvd_left ..
      obtain ⟨w, hw⟩ := this
      refine ⟨c + w, ?_⟩
      simp only
      have : q * a = b * w := by rw [hw, hq]; ring
      linear_combination hc + this
    · simp only
      rw [hq]
      nlinarith
  · have habs : |m0| = m0 := abs_of_nonneg (by omega)
    rw [if_neg hneg, sat_ok]
    refine ⟨rfl, h5, by simp only; omega, ?_⟩
    simp only
    rw [hq]
    nlinarith

end Verif.IMP
