import Verif.Model.NumberTheory
import Mathlib.Data.Int.GCD
import Mathlib.Algebra.Order.Ring.Int
import Mathlib.Tactic.Ring
import Mathlib.Tactic.Linarith
import Mathlib.Tactic.LinearCombination
import Mathlib.Data.Nat.Prime.Pow
/-! Proofs about `gcd`, `lcm`, `ex_gcd`, `ex_crt`. -/
namespace Verif.NTP
open Model Res

theorem natAbs_tmod_lt (a : Int) {b : Int} (hb : b ≠ 0) : (a.tmod b).natAbs < b.natAbs := by
  rw [Int.natAbs_tmod]
  exact Nat.mod_lt _ (Int.natAbs_pos.2 hb)

theorem gcd_tmod (a b : Int) : Int.gcd b (a.tmod b) = Int.gcd a b := by
  rw [Int.gcd_comm]
  unfold Int.gcd
  rw [Int.natAbs_tmod, ← Nat.gcd_rec, Nat.gcd_comm]

/-- The one pair (in either order) on which Euclid's algorithm meets `MIN % -1`. -/
def MinNeg (ty : IntTy) (a b : Int) : Prop :=
  ty.signed = true ∧ ((a = ty.mn ∧ b = -1) ∨ (a = -1 ∧ b = ty.mn))

theorem mn_abs_of_in {ty : IntTy} (hs : ty.signed = true) {x : Int} (h : ty.In x) : x.natAbs ≤ ty.mn.natAbs := by
  obtain ⟨h1, h2⟩ := h
  unfold IntTy.mn IntTy.mx at *
  rw [if_pos hs] at *
  have := Int.pow_pos (n := 2) (m := ty.bits - 1) (by decide)
  generalize (2 : Int) ^ (ty.bits - 1) = M at *
  omega

theorem mn_signed {ty : IntTy} (hs : ty.signed = true) : ty.mx = -ty.mn - 1 ∧ ty.mn ≤ -1 := by
  unfold IntTy.mn IntTy.mx
  rw [if_pos hs, if_pos hs]
  have := Int.pow_pos (n := 2) (m := ty.bits - 1) (by decide)
  generalize (2 : Int) ^ (ty.bits - 1) = M at *
  omega

theorem in_of_abs {ty : IntTy} (hs : ty.signed = true) {x : Int} (h : x.natAbs < ty.mn.natAbs) : ty.In x := by
  obtain ⟨h1, h2⟩ := mn_signed hs
  unfold IntTy.In; omega

theorem in_tmod {ty : IntTy} {a b : Int} (ha : ty.In a) : ty.In (a.tmod b) := by
  obtain ⟨h1, h2⟩ := ha
  have h3 := ty.mn_nonpos
  have h4 := ty.mx_nonneg
  have h5 : (a.tmod b).natAbs ≤ a.natAbs := by rw [Int.natAbs_tmod]; exact Nat.mod_le _ _
  rcases le_total 0 a with h | h
  · have := Int.tmod_nonneg b h
    constructor <;> omega
  · have : a.tmod b ≤ 0 := by
      have := Int.tmod_nonneg b (by omega : 0 ≤ -a)
      rw [Int.neg_tmod] at this; omega
    constructor <;> omega

/-- Unless the pair is `(MIN, -1)`, the remainder is computed. -/
theorem rem_ok {ty : IntTy} {a b : Int} (hb : b ≠ 0) (h : ¬ (ty.signed = true ∧ a = ty.mn ∧ b = -1)) :
    ty.rem a b = ok (a.tmod b) := by
  unfold IntTy.rem
  rw [if_neg hb, if_neg h]

/-- The bad pair is not reached from another pair. -/
theorem minNeg_step {ty : IntTy} {a b : Int} (ha : ty.In a) (hbi : ty.In b) (hb : b ≠ 0)
    (h : ¬ MinNeg ty a b) : ¬ MinNeg ty b (a.tmod b) := by
  rintro ⟨hs, h1⟩
  have hle := mn_abs_of_in hs ha
  have hlt := natAbs_tmod_lt a hb
  obtain ⟨hm1, hm2⟩ := mn_signed hs
  rcases h1 with ⟨rfl, h2⟩ | ⟨rfl, h2⟩
  · by_cases e : a.natAbs = ty.mn.natAbs
    · have h3 : (a.tmod ty.mn).natAbs = 0 := by rw [Int.natAbs_tmod, e, Nat.mod_self]
      rw [h2] at h3; simp at h3
    · have : a.tmod ty.mn = a := by
        rcases le_total 0 a with h0 | h0
        · rw [show ty.mn = -(-ty.mn) by ring, Int.tmod_neg]
          exact Int.tmod_eq_of_lt h0 (by omega)
        · have := Int.tmod_eq_of_lt (a := -a) (b := -ty.mn) (by omega) (by omega)
          rw [Int.neg_tmod, Int.tmod_neg] at this
          omega
      rw [this] at h2
      exact h ⟨hs, .inr ⟨h2, rfl⟩⟩
  · simp at h2
    omega

theorem gcd_sat {ty : IntTy} {a b : Int} (ha : ty.In a) (hb : ty.In b) (h : ¬ MinNeg ty a b) :
    Sat (gcd ty a b) (fun g => ty.In g ∧ g.natAbs = Int.gcd a b ∧ (0 ≤ a → 0 ≤ b → 0 ≤ g)) := by
  unfold gcd
  refine loop_satG (σ := Int × Int) (fun s k => ty.In s.1 ∧ ty.In s.2 ∧ ¬ MinNeg ty s.1 s.2 ∧
    Int.gcd s.1 s.2 = Int.gcd a b ∧ (0 ≤ a → 0 ≤ b → 0 ≤ s.1 ∧ 0 ≤ s.2) ∧ s.2.natAbs = k) _ ?_ _ _ b.natAbs
    ⟨ha, hb, h, rfl, fun h1 h2 => ⟨h1, h2⟩, rfl⟩ (by omega)
  rintro ⟨a', b'⟩ k ⟨h1, h2, h3, h4, h5, rfl⟩
  simp only at h1 h2 h3 h4 h5 ⊢
  by_cases hz : b' = 0
  · subst hz
    rw [if_neg (by simp), sat_ok]
    refine ⟨h1, ?_, fun p q => (h5 p q).1⟩
    rw [← h4]; simp
  · rw [if_pos hz, rem_ok hz (fun e => h3 ⟨e.1, .inl e.2⟩), ok_bind, sat_ok]
    refine ⟨(a'.tmod b').natAbs, natAbs_tmod_lt _ hz, h2, in_tmod h1, minNeg_step h1 h2 hz h3, ?_, ?_, rfl⟩
    · rw [← h4]; exact gcd_tmod a' b'
    · intro p q
      obtain ⟨g1, g2⟩ := h5 p q
      exact ⟨g2, Int.tmod_nonneg _ g1⟩

theorem gcd_minNeg {ty : IntTy} {a b : Int} (h : MinNeg ty a b) : gcd ty a b = .panic := by
  obtain ⟨hs, h⟩ := h
  obtain ⟨hm1, hm2⟩ := mn_signed hs
  rcases h with ⟨rfl, rfl⟩ | ⟨rfl, rfl⟩
  · unfold gcd
    simp [loop, IntTy.rem, hs]
  · unfold gcd
    by_cases e : ty.mn = -1
    · rw [e]; simp [loop, IntTy.rem, hs, e]
    · have h1 : ty.mn ≠ 0 := by omega
      have h2 : (-1 : Int).tmod ty.mn = -1 := by
        have := Int.tmod_eq_of_lt (a := 1) (b := -ty.mn) (by omega) (by omega)
        rw [Int.tmod_neg] at this
        rw [show (-1 : Int) = -(1) by rfl, Int.neg_tmod, this]
      have h3 : ty.rem (-1) ty.mn = ok (-1) := by
        rw [rem_ok h1 (by rintro ⟨_, h4, h5⟩; exact e h5), h2]
      have h4 : ty.rem ty.mn (-1) = .panic := by
        unfold IntTy.rem; rw [if_neg (by decide), if_pos ⟨hs, rfl, rfl⟩]
      simp only [loop]
      rw [if_pos h1, h3]
      simp only [ok_bind]
      rw [if_pos (by decide), h4]
      rfl

/-- Unless the pair is `(MIN, -1)`, the quotient is computed. -/
theorem div_ok {ty : IntTy} {a b : Int} (ha : ty.In a) (hbi : ty.In b) (hb : b ≠ 0)
    (h : ¬ (ty.signed = true ∧ a = ty.mn ∧ b = -1)) : ty.div a b = ok (a.tdiv b) := by
  unfold IntTy.div
  rw [if_neg hb]
  apply IntTy.ck_of
  have hle : (a.tdiv b).natAbs ≤ a.natAbs := by rw [Int.natAbs_tdiv]; exact Nat.div_le_self _ _
  by_cases hs : ty.signed = true
  · obtain ⟨hm1, hm2⟩ := mn_signed hs
    have ha' := mn_abs_of_in hs ha
    by_cases hlt : (a.tdiv b).natAbs < ty.mn.natAbs
    · exact in_of_abs hs hlt
    have e1 : a.natAbs = ty.mn.natAbs := by omega
    have e2 : a = ty.mn := by have := ha.2; omega
    have e3 : b.natAbs = 1 := by
      by_contra hne
      have h2 : 2 ≤ b.natAbs := by omega
      have : (a.tdiv b).natAbs < a.natAbs := by
        rw [Int.natAbs_tdiv]; exact Nat.div_lt_self (by omega) h2
      omega
    have e4 : b = 1 := by
      by_contra hne
      exact h ⟨hs, e2, by omega⟩
    subst e4
    rw [Int.tdiv_one]; exact ha
  · have hz : ty.mn = 0 := by unfold IntTy.mn; rw [if_neg hs]
    have h1 := ha.1
    have h2 := ha.2
    have h3 := hbi.1
    have := Int.tdiv_nonneg (a := a) (b := b) (by omega) (by omega)
    constructor <;> omega

/-! ### `lcm` -/

theorem gcd_one_right {ty : IntTy} (a : Int) (h : a ≠ ty.mn ∨ True) : gcd ty a 1 = ok 1 := by
  unfold gcd
  simp [loop, IntTy.rem]

theorem gcd_one_left {ty : IntTy} {b : Int} (hb : 1 < b.natAbs) : gcd ty 1 b = ok 1 := by
  have h1 : b ≠ 0 := by omega
  have h2 : (1 : Int).tmod b = 1 := by
    rcases le_total 0 b with h | h
    · exact Int.tmod_eq_of_lt (by decide) (by omega)
    · have := Int.tmod_eq_of_lt (a := 1) (b := -b) (by omega) (by omega)
      rwa [Int.tmod_neg] at this
  have h3 : ty.rem 1 b = ok 1 := by
    rw [rem_ok h1 (by rintro ⟨_, _, h5⟩; omega), h2]
  unfold gcd
  simp only [loop]
  rw [if_pos h1, h3]
  simp only [ok_bind]
  obtain ⟨n, hn⟩ : ∃ n, b.natAbs = n + 2 := ⟨b.natAbs - 2, by omega⟩
  rw [hn]
  simp [loop, IntTy.rem]

theorem coprime_pow_two {x y k : Nat} (h : x * y = 2 ^ k) (hg : Nat.gcd x y = 1) : x = 1 ∨ y = 1 := by
  obtain ⟨i, _, rfl⟩ := (Nat.dvd_prime_pow Nat.prime_two).1 ⟨y, h.symm⟩
  obtain ⟨j, _, rfl⟩ := (Nat.dvd_prime_pow Nat.prime_two).1 ⟨2 ^ i, by rw [← h, Nat.mul_comm]⟩
  rcases i with _ | i
  · exact .inl rfl
  rcases j with _ | j
  · exact .inr rfl
  exfalso
  have : 2 ∣ Nat.gcd (2 ^ (i+1)) (2 ^ (j+1)) :=
    Nat.dvd_gcd (by rw [Nat.pow_succ]; exact ⟨_, Nat.mul_comm _ _⟩) (by rw [Nat.pow_succ]; exact ⟨_, Nat.mul_comm _ _⟩)
  rw [hg] at this
  omega

/-- The division of `lcm` never meets `MIN / -1`. -/
theorem lcm_no_min {ty : IntTy} {a b : Int} (hs : ty.signed = true) (ha : ty.In a) (hb : ty.In b)
    (h : a * b = ty.mn) : gcd ty a b ≠ ok (-1) := by
  intro hg
  obtain ⟨hm1, hm2⟩ := mn_signed hs
  have hmn : ¬ MinNeg ty a b := by
    intro hm
    rw [gcd_minNeg hm] at hg; cases hg
  obtain ⟨g, hg', h1, h2, h3⟩ := gcd_sat ha hb hmn
  rw [hg] at hg'
  have e : g = -1 := by injection hg' with hg'; exact hg'.symm
  subst e
  have hp : a.natAbs * b.natAbs = 2 ^ (ty.bits - 1) := by
    rw [← Int.natAbs_mul, h]
    unfold IntTy.mn
    rw [if_pos hs, Int.natAbs_neg, Int.natAbs_pow]; rfl
  rcases coprime_pow_two hp (by simpa [Int.gcd] using h2.symm) with h4 | h4
  · rcases Int.natAbs_eq a with h5 | h5 <;> rw [h4] at h5
    · have h5 : a = 1 := by simpa using h5
      subst h5
      have : b = ty.mn := by omega
      subst this
      rw [gcd_one_left (by have := ha.2; omega)] at hg
      cases hg
    · have h5 : a = -1 := by simpa using h5
      subst h5
      have := hb.2; omega
  · rcases Int.natAbs_eq b with h5 | h5 <;> rw [h4] at h5
    · have h5 : b = 1 := by simpa using h5
      subst h5
      rw [gcd_one_right _ (.inr trivial)] at hg
      cases hg
    · have h5 : b = -1 := by simpa using h5
      subst h5
      have := ha.2; omega

theorem lcm_sat {ty : IntTy} {a b : Int} (ha : ty.In a) (hb : ty.In b) (hp : ty.In (a * b))
    (h0 : a ≠ 0 ∨ b ≠ 0) :
    Sat (lcm ty a b) (fun l => l.natAbs = Int.lcm a b ∧ (0 ≤ a → 0 ≤ b → 0 ≤ l)) := by
  have hmn : ¬ MinNeg ty a b := by
    rintro ⟨hs, h⟩
    obtain ⟨hm1, hm2⟩ := mn_signed hs
    have := hp.2
    rcases h with ⟨rfl, rfl⟩ | ⟨rfl, rfl⟩ <;> omega
  obtain ⟨g, hg, h1, h2, h3⟩ := gcd_sat ha hb hmn
  have hgz : g ≠ 0 := by
    rintro rfl
    have := Int.gcd_eq_zero_iff.1 h2.symm
    omega
  unfold lcm
  rw [IntTy.ck_of hp, ok_bind, hg, ok_bind, div_ok hp h1 hgz, sat_ok]
  · refine ⟨?_, fun p q => Int.tdiv_nonneg (Int.mul_nonneg p q) (h3 p q)⟩
    rw [Int.natAbs_tdiv, Int.natAbs_mul, h2]
    rfl
  · rintro ⟨hs, h4, rfl⟩
    exact lcm_no_min hs ha hb h4 hg

theorem lcm_panic {ty : IntTy} {a b : Int} (h : ¬ ty.In (a * b) ∨ (a = 0 ∧ b = 0)) : lcm ty a b = .panic := by
  unfold lcm
  by_cases hp : ty.In (a * b)
  · rcases h with h | ⟨rfl, rfl⟩
    · exact absurd hp h
    · rw [IntTy.ck_of hp, ok_bind]
      simp [gcd, loop, IntTy.div]
  · rw [IntTy.ck_panic hp]; rfl

/-! ### `ex_gcd` -/

/-- What `ex_gcd` returns. -/
def ExPost (a b : Int) (r : Int × Int × Int) : Prop :=
  a * r.1 + b * r.2.1 = r.2.2 ∧ r.2.2.natAbs = Int.gcd a b ∧
  (b = 0 → r = (1, 0, a)) ∧ (b ≠ 0 → a.tmod b = 0 → r = (0, 1, b)) ∧
  (b ≠ 0 → a.tmod b ≠ 0 → 2 * (Int.gcd a b * r.1.natAbs) ≤ b.natAbs ∧
    2 * (Int.gcd a b * r.2.1.natAbs) ≤ a.natAbs) ∧
  (0 ≤ a → 0 ≤ b → 0 ≤ r.2.2)

theorem natAbs_div_mod (a b : Int) :
    a.natAbs = b.natAbs * (a.tdiv b).natAbs + (a.tmod b).natAbs := by
  rw [Int.natAbs_tdiv, Int.natAbs_tmod]
  exact (Nat.div_add_mod _ _).symm

theorem dvd_lt_two {r b : Nat} (h : b % r = 0) (hlt : r < b) : 2 * r ≤ b := by
  obtain ⟨c, rfl⟩ := Nat.dvd_of_mod_eq_zero h
  rcases c with _ | _ | c
  · omega
  · omega
  · nlinarith

theorem exGcdAux_sat {ty : IntTy} (hs : ty.signed = true) (h1 : 1 ≤ ty.mx) (fuel : Nat) :
    ∀ a b : Int, ty.In a → ty.In b → ¬ MinNeg ty a b → b.natAbs < fuel →
      Sat (exGcdAux ty fuel a b) (ExPost a b) := by
  obtain ⟨hm1, hm2⟩ := mn_signed hs
  induction fuel with
  | zero => intro a b _ _ _ h; omega
  | succ fuel ih =>
    intro a b ha hb hmn hf
    unfold exGcdAux
    by_cases hz : b = 0
    · subst hz
      rw [if_pos rfl, sat_ok]
      refine ⟨by ring, by simp, fun _ => rfl, fun h => absurd rfl h, fun h => absurd rfl h, fun h _ => h⟩
    have hno : ¬ (ty.signed = true ∧ a = ty.mn ∧ b = -1) := fun e => hmn ⟨e.1, .inl e.2⟩
    rw [if_neg hz, rem_ok hz hno, ok_bind]
    have hlt := natAbs_tmod_lt a hz
    obtain ⟨⟨x, y, g⟩, hrec, p1, p2, p3, p4, p5, p6⟩ :=
      ih b (a.tmod b) hb (in_tmod ha) (minNeg_step ha hb hz hmn) (by omega)
    rw [hrec, ok_bind]
    simp only at p1 p2 p3 p4 p5 p6 ⊢
    rw [div_ok ha hb hz hno, ok_bind]
    have hab := mn_abs_of_in hs ha
    have hbb := mn_abs_of_in hs hb
    have heq : b * a.tdiv b + a.tmod b = a := Int.mul_tdiv_add_tmod a b
    have hnd := natAbs_div_mod a b
    rw [gcd_tmod] at p2 p5
    have hgpos : 0 < Int.gcd a b := Nat.pos_of_ne_zero fun e => hz (Int.gcd_eq_zero_iff.1 e).2
    by_cases hr : a.tmod b = 0
    · have := p3 hr
      simp only [Prod.mk.injEq] at this
      obtain ⟨rfl, rfl, rfl⟩ := this
      rw [Int.mul_zero, IntTy.ck_of (IntTy.in_of_nonneg (le_refl 0) (by omega)), ok_bind,
        IntTy.ck_of (IntTy.in_of_nonneg (by decide) (by simpa using h1)), ok_bind, sat_ok]
      refine ⟨by ring, p2, fun h => absurd h hz, fun _ _ => rfl, fun _ h => absurd hr h, fun _ h => h⟩
    · -- the bounds
      have key : 2 * (Int.gcd a b * y.natAbs) ≤ b.natAbs ∧
          2 * (Int.gcd a b * x.natAbs) ≤ (a.tmod b).natAbs := by
        by_cases hd : b.tmod (a.tmod b) = 0
        · have := p4 hr hd
          simp only [Prod.mk.injEq] at this
          obtain ⟨rfl, rfl, rfl⟩ := this
          rw [← p2]
          refine ⟨?_, by simp⟩
          have := dvd_lt_two (r := (a.tmod b).natAbs) (b := b.natAbs)
            (by rw [← Int.natAbs_tmod, hd]; rfl) hlt
          simpa using this
        · exact ⟨(p5 hr hd).2, (p5 hr hd).1⟩
      obtain ⟨ky, kx⟩ := key
      have kq : 2 * (Int.gcd a b * (a.tdiv b * y).natAbs) ≤ b.natAbs * (a.tdiv b).natAbs := by
        rw [Int.natAbs_mul]
        calc 2 * (Int.gcd a b * ((a.tdiv b).natAbs * y.natAbs))
            = (2 * (Int.gcd a b * y.natAbs)) * (a.tdiv b).natAbs := by ring
          _ ≤ b.natAbs * (a.tdiv b).natAbs := Nat.mul_le_mul_right _ ky
      have kd : 2 * (Int.gcd a b * (x - a.tdiv b * y).natAbs) ≤ a.natAbs := by
        have := Int.natAbs_sub_le x (a.tdiv b * y)
        have := Nat.mul_le_mul_left (Int.gcd a b) this
        rw [Nat.mul_add] at this
        omega
      have small : ∀ v : Int, 2 * (Int.gcd a b * v.natAbs) ≤ a.natAbs → ty.In v := by
        intro v hv
        apply in_of_abs hs
        have : v.natAbs ≤ Int.gcd a b * v.natAbs := Nat.le_mul_of_pos_left _ hgpos
        omega
      rw [IntTy.ck_of (small _ (by omega)), ok_bind, IntTy.ck_of (small _ kd), ok_bind, sat_ok]
      refine ⟨?_, p2, fun h => absurd h hz, fun _ h => absurd h hr, fun _ _ => ⟨ky, kd⟩, ?_⟩
      · simp only
        rw [← p1]
        linear_combination y * (-heq)
      · intro q1 q2
        exact p6 q2 (Int.tmod_nonneg _ q1)

theorem exGcd_sat {ty : IntTy} (hs : ty.signed = true) (h1 : 1 ≤ ty.mx) {a b : Int} (ha : ty.In a)
    (hb : ty.In b) (h : ¬ MinNeg ty a b) : Sat (exGcd ty a b) (ExPost a b) :=
  exGcdAux_sat hs h1 _ a b ha hb h (by omega)

theorem exGcd_minNeg {ty : IntTy} {a b : Int} (h : MinNeg ty a b) : exGcd ty a b = .panic := by
  obtain ⟨hs, h⟩ := h
  obtain ⟨hm1, hm2⟩ := mn_signed hs
  have h4 : ty.rem ty.mn (-1) = .panic := by
    unfold IntTy.rem; rw [if_neg (by decide), if_pos ⟨hs, rfl, rfl⟩]
  rcases h with ⟨rfl, rfl⟩ | ⟨rfl, rfl⟩
  · unfold exGcd
    simp [exGcdAux, h4]
  · unfold exGcd
    by_cases e : ty.mn = -1
    · rw [e] at h4 ⊢; simp [exGcdAux, h4]
    · have h1 : ty.mn ≠ 0 := by omega
      have h2 : (-1 : Int).tmod ty.mn = -1 := by
        have := Int.tmod_eq_of_lt (a := 1) (b := -ty.mn) (by omega) (by omega)
        rw [Int.tmod_neg] at this
        rw [show (-1 : Int) = -(1) by rfl, Int.neg_tmod, this]
      have h3 : ty.rem (-1) ty.mn = ok (-1) := by
        rw [rem_ok h1 (by rintro ⟨_, h4, h5⟩; exact e h5), h2]
      simp [exGcdAux, h1, h3, h4]

/-! ### `ex_gcd` on an unsigned type -/

theorem mn_unsigned {ty : IntTy} (hs : ty.signed = false) : ty.mn = 0 := by
  unfold IntTy.mn; simp [hs]

theorem exGcdAux_dvd {ty : IntTy} {a b : Int} (h1 : 1 ≤ ty.mx) (hb : b ≠ 0) (hr : a.tmod b = 0)
    (hin : ty.In a) (hbi : ty.In b)
    (hno : ¬ (ty.signed = true ∧ a = ty.mn ∧ b = -1)) (fuel : Nat) :
    exGcdAux ty (fuel + 2) a b = ok (0, 1, b) := by
  unfold exGcdAux
  rw [if_neg hb, rem_ok hb hno, ok_bind, hr]
  unfold exGcdAux
  rw [if_pos rfl, ok_bind]
  simp only []
  rw [div_ok hin hbi hb hno, ok_bind, Int.mul_zero, IntTy.ck_of (IntTy.in_of_nonneg (le_refl 0) (by omega)),
    ok_bind, Int.sub_zero, IntTy.ck_of (IntTy.in_of_nonneg (by decide) h1), ok_bind]

theorem exGcdAux_unsigned_panic {ty : IntTy} (hs : ty.signed = false) (h1 : 1 ≤ ty.mx) (fuel : Nat) :
    ∀ a b : Int, ty.In a → ty.In b → 0 < b → b ≤ a → ¬ b ∣ a → b.natAbs < fuel →
      exGcdAux ty (fuel + 1) a b = .panic := by
  have hz := mn_unsigned hs
  induction fuel with
  | zero => intro a b _ _ _ _ _ h; omega
  | succ fuel ih =>
    intro a b ha hb hb0 hba hnd hf
    have ha0 : 0 ≤ a := by omega
    have hno : ∀ u v : Int, ¬ (ty.signed = true ∧ u = ty.mn ∧ v = -1) := by simp [hs]
    have hlt := natAbs_tmod_lt a (b := b) (by omega)
    have hr0 : a.tmod b ≠ 0 := fun e => hnd (Int.dvd_of_tmod_eq_zero e)
    have hrn := Int.tmod_nonneg b ha0
    have hq : 1 ≤ a.tdiv b := by
      have := Int.tdiv_nonneg ha0 hb0.le
      have h2 := Int.mul_tdiv_add_tmod a b
      by_contra hc
      have : a.tdiv b = 0 := by omega
      rw [this] at h2
      omega
    unfold exGcdAux
    rw [if_neg (by omega), rem_ok (by omega) (hno _ _), ok_bind]
    by_cases hd : a.tmod b ∣ b
    · have hf' : ∃ k, fuel = k + 1 := ⟨fuel - 1, by omega⟩
      obtain ⟨k, rfl⟩ := hf'
      rw [exGcdAux_dvd h1 hr0 (Int.tmod_eq_zero_of_dvd hd) hb (in_tmod ha) (hno _ _) k, ok_bind]
      simp only []
      rw [div_ok ha hb (by omega) (hno _ _), ok_bind, Int.mul_one]
      have hqi : ty.In (a.tdiv b) := by
        have : ty.div a b = ok (a.tdiv b) := div_ok ha hb (by omega) (hno _ _)
        unfold IntTy.div at this
        rw [if_neg (by omega)] at this
        by_contra hc
        rw [IntTy.ck_panic hc] at this; cases this
      rw [IntTy.ck_of hqi, ok_bind, IntTy.ck_panic (by unfold IntTy.In; omega)]
      rfl
    · rw [ih b (a.tmod b) hb (in_tmod ha) (by omega) (by omega) hd (by omega)]
      rfl

theorem exGcd_unsigned_ok {ty : IntTy} (hs : ty.signed = false) (h1 : 1 ≤ ty.mx) {a b : Int} (ha : ty.In a)
    (hb : ty.In b) (h : a ∣ b ∨ b ∣ a) : Sat (exGcd ty a b) (ExPost a b) := by
  have hz := mn_unsigned hs
  have hno : ∀ u v : Int, ¬ (ty.signed = true ∧ u = ty.mn ∧ v = -1) := by simp [hs]
  have ha0 : 0 ≤ a := by have := ha.1; omega
  have hb0 : 0 ≤ b := by have := hb.1; omega
  unfold exGcd
  by_cases hbz : b = 0
  · subst hbz
    unfold exGcdAux
    rw [if_pos rfl, sat_ok]
    exact ⟨by ring, by simp, fun _ => rfl, fun h => absurd rfl h, fun h => absurd rfl h, fun h _ => h⟩
  by_cases hr : b ∣ a
  · rw [exGcdAux_dvd h1 hbz (Int.tmod_eq_zero_of_dvd hr) ha hb (hno _ _), sat_ok]
    refine ⟨by ring, ?_, fun h => absurd h hbz, fun _ _ => rfl, fun _ h => absurd (Int.tmod_eq_zero_of_dvd hr) h,
      fun _ h => h⟩
    exact (Nat.gcd_eq_right (Int.natAbs_dvd_natAbs.2 hr)).symm
  · have hab : a ∣ b := h.resolve_right hr
    have haz : a ≠ 0 := by rintro rfl; exact hr ⟨0, by simp⟩
    have hle : a < b := by
      have := Int.le_of_dvd (by omega) hab
      rcases eq_or_lt_of_le this with e | e
      · exact absurd ⟨1, by omega⟩ hr
      · exact e
    have hmod : a.tmod b = a := Int.tmod_eq_of_lt ha0 hle
    have hdiv : a.tdiv b = 0 := Int.tdiv_eq_zero_of_lt ha0 hle
    have h0 : ty.In 0 := IntTy.in_of_nonneg (le_refl 0) (by omega)
    have hr' : a.tmod b ≠ 0 := by omega
    obtain ⟨k, hk⟩ : ∃ k, b.natAbs + 2 = k + 2 + 1 := ⟨b.natAbs - 1, by omega⟩
    rw [hk]
    unfold exGcdAux
    rw [if_neg hbz, rem_ok hbz (hno _ _), ok_bind, hmod,
      exGcdAux_dvd h1 haz (Int.tmod_eq_zero_of_dvd hab) hb ha (hno _ _), ok_bind]
    simp only []
    rw [div_ok ha hb hbz (hno _ _), ok_bind, hdiv, Int.zero_mul, IntTy.ck_of h0, ok_bind, Int.sub_zero,
      IntTy.ck_of h0, ok_bind, sat_ok]
    have hg : Int.gcd a b = a.natAbs := Nat.gcd_eq_left (Int.natAbs_dvd_natAbs.2 hab)
    refine ⟨by ring, hg.symm, fun h => absurd h hbz, fun _ h => absurd h hr', fun _ _ => ?_, fun h _ => h⟩
    rw [hg]
    refine ⟨?_, by simp⟩
    have := dvd_lt_two (r := a.natAbs) (b := b.natAbs)
      (Nat.mod_eq_zero_of_dvd (Int.natAbs_dvd_natAbs.2 hab)) (by omega)
    simpa using this

theorem exGcd_unsigned_panic {ty : IntTy} (hs : ty.signed = false) (h1 : 1 ≤ ty.mx) {a b : Int} (ha : ty.In a)
    (hb : ty.In b) (h : ¬ (a ∣ b ∨ b ∣ a)) : exGcd ty a b = .panic := by
  have hz := mn_unsigned hs
  have hno : ∀ u v : Int, ¬ (ty.signed = true ∧ u = ty.mn ∧ v = -1) := by simp [hs]
  have ha0 : 0 ≤ a := by have := ha.1; omega
  have hb0 : 0 ≤ b := by have := hb.1; omega
  rw [not_or] at h
  have hbz : b ≠ 0 := by rintro rfl; exact h.1 ⟨0, by simp⟩
  have haz : a ≠ 0 := by rintro rfl; exact h.2 ⟨0, by simp⟩
  unfold exGcd
  by_cases hle : b ≤ a
  · exact exGcdAux_unsigned_panic hs h1 _ a b ha hb (by omega) hle h.2 (by omega)
  · unfold exGcdAux
    rw [if_neg hbz, rem_ok hbz (hno _ _), ok_bind, Int.tmod_eq_of_lt ha0 (by omega),
      exGcdAux_unsigned_panic hs h1 _ b a hb ha (by omega) (by omega) h.1 (by omega)]
    rfl

end Verif.NTP
