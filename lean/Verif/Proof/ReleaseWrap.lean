import Mathlib.Algebra.BigOperators.Group.List.Basic
import Mathlib.Algebra.Group.Hom.Basic
import Mathlib.Algebra.Order.Group.Abs
import Mathlib.Algebra.Order.Ring.Int
import Verif.Proof.Release
import Verif.Proof.NumberTheory
import Verif.Props.Fenwick
/-! Arithmetic modulo a power of two, and what follows for `gcd`, `lcm`, `ex_gcd` and the Fenwick tree. -/
namespace Verif.ReleaseP
open Model Res Release

/-- The modulus of a primitive type. -/
def md (ty : IntTy) : Int := if ty.signed then 2 * 2 ^ (ty.bits - 1) else 2 ^ ty.bits

theorem md_eq {ty : IntTy} (h : 1 ≤ ty.bits) : md ty = 2 ^ ty.bits := by
  unfold md
  split
  · obtain ⟨k, hk⟩ : ∃ k, ty.bits = k + 1 := ⟨ty.bits - 1, by omega⟩
    rw [hk, Nat.add_sub_cancel, Int.pow_succ, Int.mul_comm]
  · rfl

theorem md_pos (ty : IntTy) : 0 < md ty := by
  have h1 := Int.pow_pos (n := 2) (m := ty.bits - 1) (by decide)
  have h2 := Int.pow_pos (n := 2) (m := ty.bits) (by decide)
  unfold md; split <;> omega

theorem mx_sub_mn (ty : IntTy) : ty.mx - ty.mn + 1 = md ty := by
  unfold md IntTy.mx IntTy.mn; split <;> omega

theorem dvd_wrap (ty : IntTy) (x : Int) : md ty ∣ wrap ty x - x := by
  unfold md wrap
  split
  · refine ⟨-((x + 2 ^ (ty.bits - 1)) / (2 * 2 ^ (ty.bits - 1))), ?_⟩
    have := Int.emod_add_mul_ediv (x + 2 ^ (ty.bits - 1)) (2 * 2 ^ (ty.bits - 1))
    rw [Int.mul_neg]; omega
  · refine ⟨-(x / 2 ^ ty.bits), ?_⟩
    have := Int.emod_add_mul_ediv x (2 ^ ty.bits)
    rw [Int.mul_neg]; omega

theorem wrap_congr {ty : IntTy} {x y : Int} (h : md ty ∣ x - y) : wrap ty x = wrap ty y := by
  unfold md at h
  unfold wrap
  split
  · rename_i hs
    rw [if_pos hs] at h
    have : (x + 2 ^ (ty.bits - 1)) % (2 * 2 ^ (ty.bits - 1)) = (y + 2 ^ (ty.bits - 1)) % (2 * 2 ^ (ty.bits - 1)) := by
      rw [Int.emod_eq_emod_iff_emod_sub_eq_zero]
      apply Int.emod_eq_zero_of_dvd
      rw [show x + 2 ^ (ty.bits - 1) - (y + 2 ^ (ty.bits - 1)) = x - y by omega]
      exact h
    rw [this]
  · rename_i hs
    rw [if_neg hs] at h
    rw [Int.emod_eq_emod_iff_emod_sub_eq_zero]
    exact Int.emod_eq_zero_of_dvd h

theorem wrap_eq_iff {ty : IntTy} {x y : Int} : wrap ty x = wrap ty y ↔ md ty ∣ x - y := by
  refine ⟨fun h => ?_, wrap_congr⟩
  have h1 := dvd_wrap ty x
  have h2 := dvd_wrap ty y
  rw [h] at h1
  have := Int.dvd_sub h2 h1
  rwa [show wrap ty y - y - (wrap ty y - x) = x - y by omega] at this

theorem wrap_add (ty : IntTy) (x y : Int) : wrap ty (wrap ty x + wrap ty y) = wrap ty (x + y) := by
  apply wrap_congr
  rw [show wrap ty x + wrap ty y - (x + y) = (wrap ty x - x) + (wrap ty y - y) by omega]
  exact Int.dvd_add (dvd_wrap ..) (dvd_wrap ..)

theorem wrap_add_left (ty : IntTy) (x y : Int) : wrap ty (wrap ty x + y) = wrap ty (x + y) := by
  apply wrap_congr
  rw [show wrap ty x + y - (x + y) = wrap ty x - x by omega]
  exact dvd_wrap ..

theorem wrap_mul (ty : IntTy) (x y : Int) : wrap ty (wrap ty x * wrap ty y) = wrap ty (x * y) := by
  apply wrap_congr
  have e : wrap ty x * wrap ty y - x * y = wrap ty x * (wrap ty y - y) + (wrap ty x - x) * y := by
    rw [Int.mul_sub, Int.sub_mul]; omega
  rw [e]
  exact Int.dvd_add (Dvd.dvd.mul_left (dvd_wrap ..) _) (Dvd.dvd.mul_right (dvd_wrap ..) _)

theorem wr_val {ty : IntTy} (v : Val ty) : wr ty v.1 = v := by
  cases v with
  | mk x h => unfold wr; simp only [wrap_of_in h]

/-! ### Number theory -/

theorem exGcdAux_mod (ty : IntTy) : ∀ (fuel : Nat) (a b : Int), ty.In a → ty.In b → ¬ NTP.MinNeg ty a b → ty.In 1 →
    b.natAbs < fuel → ∃ x y g, Release.exGcdAux ty fuel a b = ok (x, y, g) ∧ ty.In x ∧ ty.In y ∧ ty.In g ∧
      g.natAbs = Int.gcd a b ∧ (0 ≤ a → 0 ≤ b → 0 ≤ g) ∧ md ty ∣ a * x + b * y - g
  | 0, _, _, _, _, _, _, h => by omega
  | fuel + 1, a, b, ha, hb, hmn, h1, hf => by
    unfold Release.exGcdAux
    by_cases hb0 : b = 0
    · subst hb0
      rw [if_pos rfl]
      refine ⟨1, 0, a, rfl, h1, IntTy.in_of_nonneg (Int.le_refl _) ty.mx_nonneg, ha, by simp, fun h _ => h, ?_⟩
      rw [Int.mul_one, Int.mul_zero, Int.add_zero, Int.sub_self]
      exact Int.dvd_zero _
    · have hnm : ¬ (ty.signed = true ∧ a = ty.mn ∧ b = -1) := fun h => hmn ⟨h.1, .inl h.2⟩
      rw [if_neg hb0, NTP.rem_ok hb0 hnm, ok_bind]
      have hlt := NTP.natAbs_tmod_lt a hb0
      obtain ⟨x, y, g, e, hx, hy, hg, hgg, hnn, hd⟩ := exGcdAux_mod ty fuel b (a.tmod b) hb (NTP.in_tmod ha)
        (NTP.minNeg_step ha hb hb0 hmn) h1 (by omega)
      rw [e, ok_bind]
      simp only
      rw [NTP.div_ok ha hb hb0 hnm, ok_bind]
      unfold Release.ck
      rw [ok_bind, ok_bind]
      refine ⟨y, _, g, rfl, hy, wrap_in .., hg, by rw [hgg, NTP.gcd_tmod], fun h1 h2 => hnn h2 (Int.tmod_nonneg _ h1), ?_⟩
      have k1 := dvd_wrap ty (a.tdiv b * y)
      have k2 := dvd_wrap ty (x - wrap ty (a.tdiv b * y))
      have e1 := Int.mul_tdiv_add_tmod a b
      have e2 : a * y + b * wrap ty (x - wrap ty (a.tdiv b * y)) - g =
          b * (wrap ty (x - wrap ty (a.tdiv b * y)) - (x - wrap ty (a.tdiv b * y))) -
            b * (wrap ty (a.tdiv b * y) - a.tdiv b * y) + (b * x + a.tmod b * y - g) := by
        rw [show a * y = (b * a.tdiv b + a.tmod b) * y by rw [e1], Int.add_mul, Int.mul_sub, Int.mul_sub, Int.mul_sub, Int.mul_assoc]
        omega
      rw [e2]
      exact Int.dvd_add (Int.dvd_sub (Dvd.dvd.mul_left k2 _) (Dvd.dvd.mul_left k1 _)) hd

/-- For non-negative arguments the wrapped product gives the least common multiple only if it is the product. -/
theorem lcm_wrapped {ty : IntTy} {a b : Int} (ha : ty.In a) (hb : ty.In b) (ha0 : 0 ≤ a) (hb0 : 0 ≤ b)
    (h0 : a ≠ 0 ∨ b ≠ 0) : ∃ l, Release.lcm ty a b = ok l ∧ (l = Int.lcm a b ↔ ty.In (a * b)) := by
  have hmn : ¬ NTP.MinNeg ty a b := by rintro ⟨-, ⟨-, h⟩ | ⟨h, -⟩⟩ <;> omega
  obtain ⟨g, e, hgi, hgg, hg0⟩ := NTP.gcd_sat ha hb hmn
  have hg0 := hg0 ha0 hb0
  have hgp : 0 < g := by
    rcases Int.lt_or_eq_of_le hg0 with h | h
    · exact h
    · rw [← h] at hgg
      have := Int.gcd_eq_zero_iff.1 hgg.symm
      omega
  have hgg' : g = Int.gcd a b := by rw [← hgg]; omega
  refine ⟨(wrap ty (a * b)).tdiv g, ?_, ?_⟩
  · unfold Release.lcm Release.ck
    rw [ok_bind, e, ok_bind, NTP.div_ok (wrap_in ..) hgi (by omega) (by rintro ⟨-, -, h⟩; omega)]
  · have hl : (Int.lcm a b : Int) * g = a * b := by
      rw [hgg', Int.mul_comm, ← Int.natCast_mul, Int.gcd_mul_lcm, Int.natCast_mul, Int.natAbs_of_nonneg ha0,
        Int.natAbs_of_nonneg hb0]
    have hab := Int.mul_nonneg ha0 hb0
    constructor
    · intro hq
      by_contra hc
      have hd := dvd_wrap ty (a * b)
      have hin := wrap_in ty (a * b)
      have hw : wrap ty (a * b) < a * b := by
        have : ty.mx < a * b := by
          by_contra h
          exact hc (IntTy.in_of_nonneg hab (by omega))
        have := hin.2
        omega
      have hlp : 0 < (Int.lcm a b : Int) := by
        rcases Int.lt_or_eq_of_le (Int.natCast_nonneg (Int.lcm a b)) with h | h
        · exact h
        · rw [← h, Int.zero_mul] at hl
          have h1 := IntTy.in_of_nonneg (ty := ty) (Int.le_refl 0) ty.mx_nonneg
          rw [hl] at h1
          exact (hc h1).elim
      by_cases hwn : wrap ty (a * b) < 0
      · have h1 := Int.tdiv_nonneg (a := -wrap ty (a * b)) (by omega) hg0
        rw [Int.neg_tdiv] at h1
        omega
      · rw [Int.tdiv_eq_ediv_of_nonneg (by omega)] at hq
        have hle := Int.emod_add_mul_ediv (wrap ty (a * b)) g
        have hlt := Int.emod_nonneg (wrap ty (a * b)) (show g ≠ 0 by omega)
        rw [hq, Int.mul_comm g, hl] at hle
        omega
    · intro hin
      rw [wrap_of_in hin, ← hl, Int.mul_tdiv_cancel _ (by omega)]

/-! ### Fenwick tree -/

/-- Addition with wrap-around. -/
@[reducible] def wrapMonoid (ty : IntTy) : AddCommMonoid (Val ty) where
  add a b := wr ty (a.1 + b.1)
  zero := ⟨0, IntTy.in_of_nonneg (Int.le_refl _) ty.mx_nonneg⟩
  add_assoc a b c := by
    show wr ty (wrap ty (a.1 + b.1) + c.1) = wr ty (a.1 + wrap ty (b.1 + c.1))
    unfold wr
    congr 1
    rw [wrap_add_left, Int.add_comm a.1 (wrap ty _), wrap_add_left]
    congr 1; omega
  add_comm a b := by show wr ty (a.1 + b.1) = wr ty (b.1 + a.1); rw [Int.add_comm]
  zero_add a := by show wr ty (0 + a.1) = a; rw [Int.zero_add, wr_val]
  add_zero a := by show wr ty (a.1 + 0) = a; rw [Int.add_zero, wr_val]
  nsmul := @nsmulRec _ ⟨⟨0, IntTy.in_of_nonneg (Int.le_refl _) ty.mx_nonneg⟩⟩ ⟨fun a b => wr ty (a.1 + b.1)⟩

/-- Wrapping is a homomorphism. -/
def wrapHom (ty : IntTy) : letI := wrapMonoid ty; Int →+ Val ty :=
  letI := wrapMonoid ty
  { toFun := wr ty
    map_zero' := by
      show wr ty 0 = ⟨0, _⟩
      unfold wr
      congr 1
      exact wrap_of_in (IntTy.in_of_nonneg (Int.le_refl _) ty.mx_nonneg)
    map_add' := fun x y => by
      show wr ty (x + y) = wr ty (wrap ty x + wrap ty y)
      unfold wr
      congr 1
      exact (wrap_add ..).symm }

end Verif.ReleaseP
