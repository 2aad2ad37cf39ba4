import Verif.Model.SearchPred
import Verif.Spec.SearchPred
import Verif.Proof.Fenwick
/-! `partition_point` of the Fenwick tree with a closure that has a state. -/
namespace Verif.FenwickP
open Res Model Spec

variable {A σ : Type} [AddCommMonoid A] {add sub : A → A → Res A} {Fits : A → Prop} {Inv : ℕ → σ → Prop}

theorem partitionPointS_sat (hc : CheckedAdd add sub Fits) {t : Fenwick A} {a : List A}
    (hr : Rep t a) (hf : RangesFit Fits a) (hn : a.length < 2 ^ 63) (h0 : 0 < a.length)
    {f : σ → A → Res (Bool × σ)} {P : ℕ → Bool → Prop} (hp : Answers Inv f (fun k => (a.take k).sum) 1 a.length P)
    {c0 : ℕ} {s0 : σ} (hI : Inv c0 s0) :
    Sat (t.partitionPointS add 0 f s0) (fun o => (o.1 ≤ a.length ∧ (o.1 = 0 ∨ P o.1 true) ∧
      (o.1 = a.length ∨ P (o.1 + 1) false)) ∧ ∃ c, c ≤ c0 + Nat.log2 a.length + 1 ∧ Inv c o.2) := by
  unfold Fenwick.partitionPointS
  have hlz : leadingZeros usizeBits t.n = 63 - Nat.log2 a.length := by
    unfold leadingZeros bitLen usizeBits
    rw [hr.n, if_neg (by omega)]; omega
  have hlog : Nat.log2 a.length < 63 := (Nat.log2_lt (by omega)).2 hn
  have e1 : subU (usizeBits - 1) (leadingZeros usizeBits t.n) = .ok (Nat.log2 a.length) := by
    rw [hlz, subU_of_le (by unfold usizeBits; omega)]; congr 1; unfold usizeBits; omega
  rw [e1, ok_bind]
  simp only [sat_bind]
  refine (forRangeRev_sat (I := fun i (st : ℕ × A × σ) => 2 ^ i ∣ st.1 ∧ st.1 ≤ a.length ∧
      (st.1 = 0 ∨ P st.1 true) ∧ (a.length < st.1 + 2 ^ i ∨ P (st.1 + 2 ^ i) false) ∧
      st.2.1 = rsum (fn a) 0 st.1 ∧ ∃ c, c + i ≤ c0 + Nat.log2 a.length + 1 ∧ Inv c st.2.2) (by omega) ?_ ?_).mono ?_
  · refine ⟨by simp, by simp, by simp, ?_, by simp, c0, by omega, hI⟩
    have := Nat.lt_log2_self (n := a.length)
    left
    simp only; omega
  · rintro i ⟨pos, sm, s⟩ - hi ⟨h1, h2, h3, h4, h5, c, h6, h7⟩
    simp only at h1 h2 h3 h4 h5 h7
    subst h5
    have hpow : 2 ^ i ≤ 2 ^ 62 := Nat.pow_le_pow_right (by omega) (by omega)
    have hlow := low_add_pow h1
    rw [Nat.pow_succ] at h4
    have hd : 2 ^ i ∣ pos := Nat.dvd_trans ⟨2, Nat.pow_succ ..⟩ h1
    simp only [Nat.one_shiftLeft, sat_bind, sat_addU]
    refine ⟨by omega, ?_⟩
    have hpp := Nat.two_pow_pos i
    by_cases hle : pos + 2 ^ i ≤ a.length
    · have hv := hr.val (pos + 2 ^ i) (by omega) hle
      rw [hlow, Nat.add_sub_cancel] at hv
      have e : rsum (fn a) 0 pos + rsum (fn a) pos (pos + 2 ^ i) = rsum (fn a) 0 (pos + 2 ^ i) :=
        rsum_split (by omega) (by omega)
      have hadd := hc.add_ok (rsum (fn a) 0 pos) (rsum (fn a) pos (pos + 2 ^ i))
        (by rw [e]; exact fits_rsum hf _ _)
      rw [e] at hadd
      obtain ⟨b2, s2, e2, hP2, hI2⟩ := hp c s (pos + 2 ^ i) (by omega) hle h7
      have e3 : rsum (fn a) 0 (pos + 2 ^ i) = (a.take (pos + 2 ^ i)).sum := by
        unfold fn; rw [rsum_list]; rfl
      simp only at e2
      rw [← e3] at e2
      rw [if_pos (by rw [hr.n]; exact hle)]
      simp only [sat_bind, idx_of_some hv, ok_bind, hadd, sat_ok, e2]
      by_cases hb : b2 = true
      · rw [if_pos hb]
        rw [hb] at hP2
        simp only [sat_ok]
        refine ⟨(Nat.dvd_add_iff_left (Nat.dvd_refl _)).1 hd, hle, Or.inr hP2, ?_, trivial, c + 1, by omega, hI2⟩
        rw [show pos + 2 ^ i + 2 ^ i = pos + 2 ^ i * 2 by omega]; exact h4
      · rw [if_neg hb]
        rw [show b2 = false by simpa using hb] at hP2
        simp only [sat_ok]
        exact ⟨hd, h2, h3, Or.inr hP2, trivial, c + 1, by omega, hI2⟩
    · rw [if_neg (by rw [hr.n]; exact hle)]
      simp only [sat_ok, Bool.false_eq_true, if_false]
      exact ⟨hd, h2, h3, Or.inl (by omega), trivial, c, by omega, h7⟩
  · rintro ⟨pos, sm, s⟩ ⟨_, h2, h3, h4, _, c, h6, h7⟩
    simp only [sat_ok] at *
    simp only [Nat.pow_zero] at h4
    refine ⟨⟨h2, h3, ?_⟩, c, by omega, h7⟩
    rcases h4 with h4 | h4
    · left; omega
    · exact Or.inr h4

end Verif.FenwickP
