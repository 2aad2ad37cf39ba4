import Verif.Proof.ReleaseWrap
import Verif.Proof.Factorial
/-! Modular integers and factorial tables in a release build. -/
namespace Verif.ReleaseP
open Model Res NTP MIP FACP
open scoped Nat

theorem miAdd_release {k : MKind} {m a b : Nat} (hk : k.modulus = m) (hm : m < 2 ^ 32) (ha : a < m) (hb : b < m) :
    Release.miAdd k a b = ok (if a + b < 2 ^ 32 then (a + b) % m else a + b - 2 ^ 32) := by
  split
  · rename_i h
    exact (miAdd_rls k a b).run (add_eq hk ha hb h)
  · rename_i h
    unfold Release.miAdd Release.addU waddU
    rw [ok_bind, hk, Nat.mod_eq_sub_mod (by omega), Nat.mod_eq_of_lt (by omega), if_neg (by omega)]

theorem miPow_release {m a e : Nat} {h : Bool} (hm : m < 2 ^ 32) (h2 : 2 ≤ m) (ha : a < m) (he : e < 2 ^ 64) :
    Release.miPow (.stat m h) a e = ok (a ^ e % m) :=
  (miPow_rls _ a e).run (pow_eq (mul_stat hm) h2 ha he)

theorem miInv_release {m a : Nat} (hm : m < 2 ^ 32) (h2 : 2 ≤ m) (ha0 : a ≠ 0) (ha : a < m) :
    Release.miInv (.stat m true) a = ok (a ^ (m - 2) % m) := by
  simp only [Release.miInv]
  unfold Release.subU
  rw [if_neg ha0, if_pos h2, ok_bind, miPow_release hm h2 ha (by omega)]

theorem mul_pow_mod {m a : Nat} (h2 : 2 ≤ m) : a * (a ^ (m - 2) % m) % m = a ^ (m - 1) % m := by
  rw [Nat.mul_mod, Nat.mod_mod, ← Nat.mul_mod, ← Nat.pow_succ', show (m - 2).succ = m - 1 by omega]

theorem fermat {m a : Nat} (hp : m.Prime) (ha0 : a ≠ 0) (ha : a < m) : a ^ (m - 1) % m = 1 := by
  have := Fact.mk hp
  have h := ZMod.pow_card_sub_one_eq_one (p := m) (a := (a : ZMod m)) (by
    intro h0
    rw [ZMod.natCast_eq_zero_iff] at h0
    have := Nat.le_of_dvd (by omega) h0
    omega)
  rwa [← Sprp.pow_eq_one_iff hp.two_le] at h

theorem factorialNew_release {p n : Nat} {h : Bool} (hp : p.Prime) (hp2 : p < 2 ^ 32) (hn : n < p) :
    Sat (Release.factorialNew (.stat p h) n) (FRep p n) := by
  have hm := hp.one_le
  have hk : (MKind.stat p h).modulus = p := rfl
  have hmul := mul_stat (h := h) hp2
  have ez : miNew (.stat p h) i32 0 = ok (0 % p) := new_nat (i := 0) hk hm hp2 (by decide) (by decide)
  have eo : miNew (.stat p h) i32 1 = ok (1 % p) := new_nat (i := 1) hk hm hp2 (by decide) (by decide)
  obtain ⟨f, ef, hfl, hff⟩ := new_fac (n := n) hk hmul hm hp2 (by omega) rfl
  have hnd : ¬ p ∣ n ! := fun h => absurd (hp.dvd_factorial.1 h) (by omega)
  have hne : n ! % p ≠ 0 := fun h => hnd (Nat.dvd_of_mod_eq_zero h)
  have hlt := Nat.mod_lt (n !) hp.pos
  obtain ⟨y, e, hy, hyn⟩ : ∃ y, Release.miInv (.stat p h) (n ! % p) = ok y ∧ y < p ∧ (n ! % p) * y % p = 1 % p := by
    cases h with
    | true =>
      refine ⟨_, miInv_release hp2 hp.two_le hne hlt, Nat.mod_lt _ hp.pos, ?_⟩
      rw [mul_pow_mod hp.two_le, fermat hp hne hlt, Nat.mod_eq_of_lt hp.one_lt]
    | false =>
      obtain ⟨y, e, h1⟩ := (Props.C45_inv (k := .stat p false) (.inl ⟨false, rfl⟩) rfl hp2 hlt).1
        (Nat.Coprime.symm ((Nat.Prime.coprime_iff_not_dvd hp).2 fun h => by
          have := Nat.le_of_dvd (by omega) h
          omega))
      exact ⟨y, (miInv_rls ..).run e, h1⟩
  have hyn' : y * n ! ≡ 1 [MOD p] := by
    rw [Nat.mul_comm]
    exact ((Nat.mod_modEq (n !) p).symm.mul_right y).trans hyn
  obtain ⟨g, eg, hgg⟩ := new_inv hk hmul hm hp2 (by omega) hy hyn' (g := (List.replicate (n + 1) (0 % p)).set n y)
    (by simp) (by simp)
  have hM := miMul_rls (.stat p h)
  have ef' := Rls.run (rls_forRange fun i s _ _ => rls_bind rls_refl fun a => rls_bind rls_refl fun b =>
    rls_bind (hM _ _) fun v => rls_refl) ef
  have eg' := Rls.run (rls_forRangeRev fun i s _ _ => rls_bind rls_refl fun a => rls_bind rls_refl fun b =>
    rls_bind (hM _ _) fun v => rls_refl) eg
  unfold Release.factorialNew
  simp only []
  rw [rls_addU.run (addU_of_lt (w := 64) (a := n) (b := 1) (by omega)), ok_bind, ez, ok_bind, eo, ok_bind,
    upd_of_lt (by simp), ok_bind, ef', ok_bind, idx_of_some (hff n (le_refl _)), ok_bind, e, ok_bind,
    upd_of_lt (by simp), ok_bind, eg', ok_bind, sat_ok]
  exact ⟨hfl, hff, hgg⟩

theorem exGcd_release_minNeg {ty : IntTy} {a b : Int} (h : MinNeg ty a b) : Release.exGcd ty a b = .panic := by
  obtain ⟨hs, h⟩ := h
  obtain ⟨hm1, hm2⟩ := mn_signed hs
  have h4 : ty.rem ty.mn (-1) = .panic := by
    unfold IntTy.rem; rw [if_neg (by decide), if_pos ⟨hs, rfl, rfl⟩]
  rcases h with ⟨rfl, rfl⟩ | ⟨rfl, rfl⟩
  · unfold Release.exGcd
    simp [Release.exGcdAux, h4]
  · unfold Release.exGcd
    by_cases e : ty.mn = -1
    · rw [e] at h4 ⊢; simp [Release.exGcdAux, h4]
    · have h1 : ty.mn ≠ 0 := by omega
      have h2 : (-1 : Int).tmod ty.mn = -1 := by
        have := Int.tmod_eq_of_lt (a := 1) (b := -ty.mn) (by omega) (by omega)
        rw [Int.tmod_neg] at this
        rw [show (-1 : Int) = -(1) by rfl, Int.neg_tmod, this]
      have h3 : ty.rem (-1) ty.mn = ok (-1) := by
        rw [rem_ok h1 (by rintro ⟨_, h4, h5⟩; exact e h5), h2]
      simp [Release.exGcdAux, h1, h3, h4]
end Verif.ReleaseP
