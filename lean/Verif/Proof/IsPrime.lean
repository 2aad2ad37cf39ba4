import Verif.Proof.InternalMath
import Verif.Spec.InternalMath
import Mathlib.FieldTheory.Finite.Basic
import Mathlib.Data.ZMod.Basic
/-! `is_prime` computes the strong probable prime test to the bases 2, 7, 61. -/
namespace Verif.IMP
open Model Res NTP Spec

theorem oddPart_sat (n : Nat) (h0 : 0 < n) (hn : n < 2 ^ 63) :
    Sat (oddPart n) (fun d => ∃ s e : Nat, d = e ∧ n = 2 ^ s * e ∧ e % 2 = 1) := by
  unfold oddPart
  refine loop_satG (σ := Int) (fun x k => ∃ s e : Nat, x = e ∧ n = 2 ^ s * e ∧ 0 < e ∧ e < 2 ^ k) _ ?_ _ _ 64
    ⟨0, n, rfl, by simp, h0, by omega⟩ (by omega)
  rintro x k ⟨s, e, rfl, h1, h2, h3⟩
  have he : e < 2 ^ 63 := by
    have : e ≤ n := by rw [h1]; exact Nat.le_mul_of_pos_left _ (Nat.two_pow_pos s)
    omega
  rw [rem_ok (by decide) (fun h => by have := h.2.2; omega), ok_bind]
  have hm : ((e : Int)).tmod 2 = ((e % 2 : Nat) : Int) := by
    rw [Int.tmod_eq_emod_of_nonneg (by omega)]; simp
  have hd : ((e : Int)).tdiv 2 = ((e / 2 : Nat) : Int) := by
    rw [Int.tdiv_eq_ediv_of_nonneg (by omega)]; simp
  rw [hm]
  by_cases h : e % 2 = 0
  · rw [if_pos (by omega), div_ok (ty := i64) (i64_in.2 (by omega)) (by decide) (by decide)
      (fun h => by have := h.2.2; omega), ok_bind, sat_ok, hd]
    have hk : 0 < k := by
      rcases k with _ | k
      · simp at h3; omega
      · omega
    refine ⟨k - 1, by omega, s + 1, e / 2, rfl, ?_, by omega, ?_⟩
    · have : e = 2 * (e / 2) := by omega
      rw [Nat.pow_succ, Nat.mul_assoc, ← this]; exact h1
    · obtain ⟨j, rfl⟩ : ∃ j, k = j + 1 := ⟨k - 1, by omega⟩
      simp only [Nat.add_sub_cancel]
      rw [Nat.pow_succ] at h3
      omega
  · rw [if_neg (by omega), sat_ok]
    exact ⟨s, e, rfl, h1, by omega⟩

/-- The residues met by the test. -/
def Y (n a d k : Nat) : Nat := a ^ (2 ^ k * d) % n

theorem Y_succ (n a d k : Nat) : Y n a d (k + 1) = Y n a d k * Y n a d k % n := by
  unfold Y
  rw [← Nat.mul_mod, ← Nat.pow_add, show 2 ^ (k + 1) * d = 2 ^ k * d + 2 ^ k * d by ring]

theorem Y_one_le {n a d j r : Nat} (hn : 1 < n) (h : Y n a d j = 1) (hjr : j ≤ r) : Y n a d r = 1 := by
  induction hjr with
  | refl => exact h
  | step _ ih => rw [Y_succ, ih]; exact Nat.mod_eq_of_lt hn

/-- All prime factors congruent to `1` modulo `M` make a number congruent to `1`. -/
theorem modEq_one_of_factors {M : Nat} (n : Nat) (hn : n ≠ 0) (h : ∀ p, p.Prime → p ∣ n → p ≡ 1 [MOD M]) :
    n ≡ 1 [MOD M] := by
  induction n using Nat.strong_induction_on with
  | _ n ih =>
    by_cases h1 : n = 1
    · subst h1; rfl
    have hp := Nat.minFac_prime h1
    obtain ⟨c, hc⟩ := Nat.minFac_dvd n
    have hc0 : c ≠ 0 := by rintro rfl; simp at hc; exact hn hc
    have hcn : c < n := by
      conv_rhs => rw [hc]
      have := hp.two_le
      nlinarith [Nat.pos_of_ne_zero hc0]
    have h2 := ih c hcn hc0 fun p hp hd => h p hp (hd.trans ⟨n.minFac, by rw [Nat.mul_comm]; exact hc⟩)
    have h3 := h _ hp (Nat.minFac_dvd n)
    have := h3.mul h2
    rw [← hc] at this
    simpa using this

/-- `a^(n-1) = -1` is impossible modulo an odd `n > 1`. -/
theorem pow_ne_neg_one {n a : Nat} (hn : 1 < n) (hodd : n % 2 = 1) : a ^ (n - 1) % n ≠ n - 1 := by
  intro h
  -- `n - 1 = 2^s d`
  obtain ⟨s, d, hs, hd⟩ := Nat.exists_eq_two_pow_mul_odd (n := n - 1) (by omega)
  have hM : n ≡ 1 [MOD 2 ^ (s + 1)] := by
    refine modEq_one_of_factors n (by omega) fun p hp hpn => ?_
    haveI := Fact.mk hp
    have hp2 : p ≠ 2 := by rintro rfl; omega
    -- in `ZMod p`
    have h1 : (a : ZMod p) ^ (n - 1) = -1 := by
      have h2 : ((a ^ (n - 1) + 1 : Nat) : ZMod p) = 0 := by
        rw [ZMod.natCast_eq_zero_iff]
        refine hpn.trans (Nat.dvd_of_mod_eq_zero ?_)
        rw [Nat.add_mod, h]
        by_cases h1 : n = 1
        · omega
        · rw [Nat.mod_eq_of_lt (show 1 < n by omega), Nat.sub_add_cancel (by omega), Nat.mod_self]
      push_cast at h2
      exact eq_neg_of_add_eq_zero_left h2
    have hne : (-1 : ZMod p) ≠ 1 := by
      haveI : Fact (2 < p) := ⟨by have := hp.two_le; omega⟩
      exact ZMod.neg_one_ne_one
    have ha0 : (a : ZMod p) ≠ 0 := by
      intro h0
      rw [h0, zero_pow (by omega)] at h1
      have : (1 : ZMod p) = 0 := by linear_combination h1
      exact one_ne_zero this
    -- the order of `a^d` is `2^(s+1)`
    have hord : orderOf ((a : ZMod p) ^ d) = 2 ^ (s + 1) := by
      refine orderOf_eq_prime_pow ?_ ?_
      · rw [← pow_mul, Nat.mul_comm, ← hd, h1]; exact hne
      · rw [← pow_mul, pow_succ, ← Nat.mul_assoc, Nat.mul_comm d, ← hd, pow_mul, h1]; ring
    have hdvd : 2 ^ (s + 1) ∣ p - 1 := by
      rw [← hord]
      exact orderOf_dvd_of_pow_eq_one (ZMod.pow_card_sub_one_eq_one (pow_ne_zero _ ha0))
    exact ((Nat.modEq_iff_dvd' hp.one_lt.le).2 hdvd).symm
  have h3 := (Nat.modEq_iff_dvd' hn.le).1 hM.symm
  rw [hd, Nat.pow_succ] at h3
  have h4 := Nat.dvd_of_mul_dvd_mul_left (Nat.two_pow_pos s) h3
  have := Nat.odd_iff.1 hs
  omega

theorem sprpRejects_eq {n a s d : Nat} (hn : 3 ≤ n) (hodd : n % 2 = 1) (hn2 : n < 2 ^ 31) (ha : a < 2 ^ 63)
    (hsd : n - 1 = 2 ^ s * d) (hd : d % 2 = 1) :
    Sat (sprpRejects n d a) (fun b => b = true ↔ ¬ (a ^ d % n = 1 ∨ ∃ r < s, a ^ (2 ^ r * d) % n = n - 1)) := by
  have hs1 : 1 ≤ s := by
    rcases s with _ | s
    · simp at hsd; omega
    · omega
  have hdn : d ≤ n - 1 := by rw [hsd]; exact Nat.le_mul_of_pos_left _ (Nat.two_pow_pos s)
  unfold sprpRejects
  rw [powMod_eq (i64_in.2 (by omega)) (by omega) (by omega) hn2, ok_bind, sat_bind]
  have e0 : ((a : Int) ^ d % (n : Int)) = ((Y n a d 0 : Nat) : Int) := by unfold Y; simp
  rw [e0]
  have hY : ∀ k, Y n a d k < n := fun k => Nat.mod_lt _ (by omega)
  have hloop : Sat (loop 65 (((d : Int), (Y n a d 0 : Nat)) : Int × Int) (sprpStep n)) (fun r =>
      ∃ k ≤ s, r.1 = (2 ^ k * d : Nat) ∧ r.2 = (Y n a d k : Nat) ∧
        (k = s ∨ Y n a d k = 1 ∨ Y n a d k = n - 1) ∧ ∀ j < k, Y n a d j ≠ 1 ∧ Y n a d j ≠ n - 1) := by
    have hs2 : s < 32 := by
      by_contra hc
      have h1 : 2 ^ 32 ≤ 2 ^ s := Nat.pow_le_pow_right (by decide) (by omega)
      have h2 : 2 ^ s ≤ 2 ^ s * d := Nat.le_mul_of_pos_right _ (by omega)
      omega
    refine loop_satG (σ := Int × Int) (fun t c => ∃ k ≤ s, t.1 = (2 ^ k * d : Nat) ∧ t.2 = (Y n a d k : Nat) ∧
      c = s - k ∧ ∀ j < k, Y n a d j ≠ 1 ∧ Y n a d j ≠ n - 1) _ ?_ _ _ s
      ⟨0, by omega, by simp, rfl, rfl, fun j hj => by omega⟩ (by omega)
    rintro ⟨t, y⟩ c ⟨k, hk, rfl, rfl, rfl, hj⟩
    unfold sprpStep
    simp only []
    have hks : 2 ^ k * d = n - 1 ↔ k = s := by
      constructor
      · intro h
        by_contra hne
        have : 2 ^ k < 2 ^ s := Nat.pow_lt_pow_right (by decide) (by omega)
        have : 2 ^ k * d < 2 ^ s * d := Nat.mul_lt_mul_of_pos_right this (by omega)
        omega
      · rintro rfl; exact hsd.symm
    by_cases hc : k ≠ s ∧ Y n a d k ≠ 1 ∧ Y n a d k ≠ n - 1
    · obtain ⟨c1, c2, c3⟩ := hc
      have c1' : 2 ^ k * d ≠ n - 1 := fun e => c1 (hks.1 e)
      rw [if_pos ⟨by omega, by omega, by omega⟩]
      have hyy : Y n a d k * Y n a d k < 2 ^ 31 * 2 ^ 31 :=
        Nat.mul_lt_mul'' (by have := hY k; omega) (by have := hY k; omega)
      have hcast : ((Y n a d k : Nat) : Int) * (Y n a d k : Nat) = ((Y n a d k * Y n a d k : Nat) : Int) := by
        push_cast; rfl
      rw [hcast, IntTy.ck_of (i64_in.2 (by omega)), ok_bind, rem_ok (by omega) (fun h => by omega), ok_bind, sat_ok]
      have hsucc : 2 ^ (k + 1) * d ≤ 2 ^ s * d :=
        Nat.mul_le_mul_right _ (Nat.pow_le_pow_right (by decide) (by omega))
      have h2k : 2 ^ (k + 1) * d = 2 ^ k * d * 2 := by ring
      refine ⟨s - (k + 1), by omega, k + 1, by omega, ?_, ?_, rfl, ?_⟩
      · simp only
        rw [asI64_of (by omega) (by omega), h2k]; push_cast; rfl
      · simp only
        rw [Y_succ, Int.tmod_eq_emod_of_nonneg (by omega)]; push_cast; rfl
      · intro j hjk
        rcases Nat.lt_succ_iff_lt_or_eq.1 hjk with h | rfl
        · exact hj j h
        · exact ⟨c2, c3⟩
    · rw [if_neg (by
        rintro ⟨h1, h2, h3⟩
        refine hc ⟨fun e => h1 ?_, by omega, by omega⟩
        have := hks.2 e; omega), sat_ok]
      refine ⟨k, hk, rfl, rfl, ?_, hj⟩
      by_contra hcc
      rw [not_or, not_or] at hcc
      exact hc hcc
  refine hloop.mono ?_
  rintro ⟨t, y⟩ ⟨k, hk, rfl, rfl, hex, hj⟩
  simp only
  rw [rem_ok (by decide) (fun h => by have := h.2.2; omega), ok_bind, sat_ok]
  have hpar : ((2 ^ k * d : Nat) : Int).tmod 2 = 0 ↔ 1 ≤ k := by
    rw [Int.tmod_eq_emod_of_nonneg (by omega)]
    rcases k with _ | k
    · simp; omega
    · have : 2 ^ (k + 1) * d = 2 * (2 ^ k * d) := by ring
      omega
  rw [decide_eq_true_iff, hpar]
  have hY0 : Y n a d 0 = a ^ d % n := by unfold Y; simp
  have hYs : Y n a d s ≠ n - 1 := by
    unfold Y; rw [← hsd]; exact pow_ne_neg_one (by omega) hodd
  constructor
  · rintro ⟨h1, h2⟩ (h3 | ⟨r, hr, h3⟩)
    · rw [← hY0] at h3
      exact (hj 0 (by omega)).1 h3
    · have h3 : Y n a d r = n - 1 := h3
      have hkr : k ≤ r := by
        by_contra hc
        exact (hj r (by omega)).2 h3
      rcases hex with rfl | h4 | h4
      · omega
      · have := Y_one_le (by omega) h4 hkr
        omega
      · omega
  · intro h
    rw [not_or, not_exists] at h
    obtain ⟨h1, h2⟩ := h
    rw [← hY0] at h1
    constructor
    · intro h3
      have h3 : Y n a d k = n - 1 := by omega
      by_cases hks : k = s
      · rw [hks] at h3; exact hYs h3
      · exact h2 k ⟨by omega, h3⟩
    · by_contra hk0
      have : k = 0 := by omega
      subst this
      rcases hex with h4 | h4 | h4
      · omega
      · exact h1 h4
      · exact h2 0 ⟨by omega, h4⟩

theorem strong_iff {n a s d : Nat} (hsd : n - 1 = 2 ^ s * d) (hd : d % 2 = 1) :
    StrongProbablePrime n a ↔ (a ^ d % n = 1 ∨ ∃ r < s, a ^ (2 ^ r * d) % n = n - 1) := by
  constructor
  · rintro ⟨s', d', h1, h2, h3⟩
    have : s' = s ∧ d' = d := by
      rw [hsd] at h1
      have aux : ∀ (s s' d d' : Nat), d % 2 = 1 → d' % 2 = 1 → 2 ^ s * d = 2 ^ s' * d' → s ≤ s' → s' = s ∧ d' = d := by
        intro s s' d d' hd hd' h hle
        obtain ⟨k, rfl⟩ := Nat.exists_eq_add_of_le hle
        rw [Nat.pow_add, Nat.mul_assoc] at h
        have := Nat.eq_of_mul_eq_mul_left (Nat.two_pow_pos s) h
        rcases k with _ | k
        · simp at this; exact ⟨rfl, this.symm⟩
        · have : d = 2 * (2 ^ k * d') := by rw [this]; ring
          omega
      rcases le_total s s' with hle | hle
      · exact aux s s' d d' hd h2 h1 hle
      · obtain ⟨e1, e2⟩ := aux s' s d' d h2 hd h1.symm hle
        exact ⟨e1.symm, e2.symm⟩
    rw [this.1, this.2] at h3
    exact h3
  · intro h
    exact ⟨s, d, hsd, hd, h⟩

/-- `is_prime` is the strong probable prime test to the bases 2, 7 and 61. -/
theorem isPrime_eq (n : Nat) (hn2 : n < 2 ^ 31) :
    Sat (isPrime n) (fun b => b = true ↔ (n = 2 ∨ n = 7 ∨ n = 61 ∨
      (3 ≤ n ∧ n % 2 = 1 ∧ StrongProbablePrime n 2 ∧ StrongProbablePrime n 7 ∧ StrongProbablePrime n 61))) := by
  unfold isPrime
  by_cases h1 : n ≤ 1
  · rw [if_pos (by omega), sat_ok]
    simp; omega
  rw [if_neg (by omega)]
  by_cases h2 : n = 2 ∨ n = 7 ∨ n = 61
  · rw [if_pos (by omega), sat_ok]
    simp only [true_iff]
    rcases h2 with h | h | h <;> simp [h]
  rw [if_neg (by omega), rem_ok (by decide) (fun h => by have := h.2.2; omega), ok_bind]
  have hm : ((n : Int)).tmod 2 = ((n % 2 : Nat) : Int) := by
    rw [Int.tmod_eq_emod_of_nonneg (by omega)]; simp
  rw [hm]
  by_cases h3 : n % 2 = 0
  · rw [if_pos (by omega), sat_ok]
    simp; omega
  rw [if_neg (by omega), sat_bind]
  have hc : ((n : Int) - 1) = ((n - 1 : Nat) : Int) := by omega
  rw [hc]
  refine (oddPart_sat (n - 1) (by omega) (by omega)).mono ?_
  rintro _ ⟨s, d, rfl, hsd, hd⟩
  have key : ∀ a : Nat, a < 2 ^ 63 → Sat (sprpRejects n d a) (fun b => b = true ↔ ¬ StrongProbablePrime n a) := by
    intro a ha
    rw [strong_iff hsd hd]
    exact sprpRejects_eq (by omega) (by omega) hn2 ha hsd hd
  obtain ⟨b1, e1, p1⟩ := key 2 (by norm_num)
  obtain ⟨b2, e2, p2⟩ := key 7 (by norm_num)
  obtain ⟨b3, e3, p3⟩ := key 61 (by norm_num)
  simp only [Nat.cast_ofNat] at e1 e2 e3
  rw [e1, ok_bind, e2, e3]
  rcases b1 with _ | _ <;> rcases b2 with _ | _ <;> rcases b3 with _ | _ <;> simp at p1 p2 p3 <;>
    simp [p1, p2, p3] <;> omega

/-- A prime not dividing the base passes the test. -/
theorem prime_strong {p a : Nat} (hp : p.Prime) (h2 : p ≠ 2) (ha : ¬ p ∣ a) : StrongProbablePrime p a := by
  haveI := Fact.mk hp
  have hp2 := hp.two_le
  obtain ⟨s, d, hd, hs⟩ := Nat.exists_eq_two_pow_mul_odd (n := p - 1) (by omega)
  refine ⟨s, d, hs, Nat.odd_iff.1 hd, ?_⟩
  have hfer : Y p a d s = 1 := by
    unfold Y
    rw [← hs]
    have h := ZMod.pow_card_sub_one_eq_one (p := p) (a := (a : ZMod p)) (by
      rwa [Ne, ZMod.natCast_eq_zero_iff])
    have h' : ((a ^ (p - 1) : Nat) : ZMod p) = ((1 : Nat) : ZMod p) := by push_cast; exact h
    have := (ZMod.natCast_eq_natCast_iff _ _ _).1 h'
    rw [this, Nat.mod_eq_of_lt (by omega)]
  -- descend from `s`
  have hY0 : Y p a d 0 = a ^ d % p := by unfold Y; simp
  have hmain : ∀ k ≤ s, Y p a d k = 1 → a ^ d % p = 1 ∨ ∃ r < s, a ^ (2 ^ r * d) % p = p - 1 := by
    intro k
    induction k with
    | zero => intro _ h; rw [hY0] at h; exact .inl h
    | succ k ih =>
      intro hk h
      have hlt : Y p a d k < p := Nat.mod_lt _ (by omega)
      rw [Y_succ] at h
      have hpos : Y p a d k ≠ 0 := by
        intro e; rw [e] at h; simp at h
      -- `p ∣ (y - 1)(y + 1)`
      have hdv : p ∣ (Y p a d k - 1) * (Y p a d k + 1) := by
        have h1 : (Y p a d k - 1) * (Y p a d k + 1) = Y p a d k * Y p a d k - 1 := by
          obtain ⟨y, hy⟩ : ∃ y, Y p a d k = y + 1 := ⟨Y p a d k - 1, by omega⟩
          rw [hy]
          simp only [Nat.add_sub_cancel]
          have : (y + 1) * (y + 1) = y * (y + 1 + 1) + 1 := by ring
          omega
        rw [h1]
        have h2 := Nat.div_add_mod (Y p a d k * Y p a d k) p
        rw [h] at h2
        exact ⟨Y p a d k * Y p a d k / p, by omega⟩
      rcases hp.dvd_mul.1 hdv with hd1 | hd1
      · have : Y p a d k - 1 = 0 := Nat.eq_zero_of_dvd_of_lt hd1 (by omega)
        have h1 : Y p a d k = 1 := by clear ih; omega
        exact ih (by omega) h1
      · have h1 := Nat.le_of_dvd (by omega) hd1
        have h2 : Y p a d k = p - 1 := by clear ih; omega
        exact .inr ⟨k, by omega, h2⟩
  exact hmain s (le_refl _) hfer

end Verif.IMP
