import Verif.Props.NumberTheory
import Verif.Prelude.NoDiv
import Mathlib.Algebra.Order.Ring.Int
import Mathlib.Tactic.Ring
import Mathlib.Tactic.Linarith
/-! C106: relations between the answers of several calls of `gcd`, `lcm`, `ex_gcd` and `ex_crt`. -/
namespace Verif.Props
open Model Spec Res

variable {ty : IntTy} {a b c k p q r l : Int}

theorem gcd_nn (ha : ty.In a) (hb : ty.In b) (h0 : 0 ≤ a) (h1 : 0 ≤ b) :
    gcd ty a b = ok (Int.gcd a b : Int) ∧ ty.In (Int.gcd a b : Int) := by
  obtain ⟨g, e, hi, _, hg⟩ := C32_gcd ha hb (by rintro ⟨_, ⟨_, h⟩ | ⟨h, _⟩⟩ <;> omega)
  have := hg h0 h1
  subst this
  exact ⟨e, hi⟩

/-- C106: on the non-negative values `gcd` is commutative, associative and idempotent, with the unit 0. -/
theorem C106_gcd_monoid (ha : ty.In a) (hb : ty.In b) (hc : ty.In c) (h0 : 0 ≤ a) (h1 : 0 ≤ b) (h2 : 0 ≤ c) :
    ∃ p q r, gcd ty a b = ok p ∧ gcd ty b a = ok p ∧ gcd ty b c = ok q ∧ gcd ty p c = ok r ∧ gcd ty a q = ok r ∧
      gcd ty a a = ok a ∧ gcd ty a 0 = ok a ∧ gcd ty 0 a = ok a := by
  obtain ⟨e1, i1⟩ := gcd_nn ha hb h0 h1
  obtain ⟨e2, i2⟩ := gcd_nn hb hc h1 h2
  obtain ⟨e3, _⟩ := gcd_nn hb ha h1 h0
  obtain ⟨e4, _⟩ := gcd_nn i1 hc (Int.natCast_nonneg _) h2
  obtain ⟨e5, _⟩ := gcd_nn ha i2 h0 (Int.natCast_nonneg _)
  obtain ⟨e6, _⟩ := gcd_nn ha ha h0 h0
  have na : (a.natAbs : Int) = a := by omega
  refine ⟨_, _, _, e1, ?_, e2, e4, ?_, ?_, ?_, ?_⟩
  · rw [e3, Int.gcd_comm]
  · rw [e5, Int.gcd_assoc]
  · rw [e6, Int.gcd_self, na]
  · rfl
  · rw [(gcd_nn (IntTy.in_of_nonneg (le_refl _) (h0.trans ha.2)) ha (le_refl _) h0).1, Int.gcd_zero_left, na]

/-- C106: adding a multiple of the second argument to the first changes nothing. -/
theorem C106_gcd_shift (ha : ty.In a) (hb : ty.In b) (h0 : 0 ≤ a) (h1 : 0 ≤ b) (hk : ty.In (a + k * b))
    (h2 : 0 ≤ a + k * b) : gcd ty (a + k * b) b = gcd ty a b := by
  rw [(gcd_nn hk hb h2 h1).1, (gcd_nn ha hb h0 h1).1, Int.gcd_add_mul_right_left]

/-- C106: a common factor comes out. -/
theorem C106_gcd_scaled (ha : ty.In a) (hb : ty.In b) (h0 : 0 ≤ a) (h1 : 0 ≤ b) (hk : 0 ≤ k) (hka : ty.In (k * a))
    (hkb : ty.In (k * b)) : ∃ p, gcd ty a b = ok p ∧ gcd ty (k * a) (k * b) = ok (k * p) := by
  refine ⟨_, (gcd_nn ha hb h0 h1).1, ?_⟩
  rw [(gcd_nn hka hkb (Int.mul_nonneg hk h0) (Int.mul_nonneg hk h1)).1, Int.gcd_mul_left, Int.natCast_mul,
    Int.natAbs_of_nonneg hk]

theorem lcm_in (h : lcm ty a b = ok l) : ty.In l := by
  unfold lcm at h
  obtain ⟨_, _, h⟩ := bind_ok_inv h
  obtain ⟨_, _, h⟩ := bind_ok_inv h
  unfold IntTy.div IntTy.ck at h
  split at h
  · cases h
  · split at h
    · cases h; assumption
    · cases h

theorem lcm_nn (ha : ty.In a) (hb : ty.In b) (h0 : 0 ≤ a) (h1 : 0 ≤ b) (h : lcm ty a b = ok l) :
    l = (Int.lcm a b : Int) := by
  have hp : ¬(¬ ty.In (a * b) ∨ (a = 0 ∧ b = 0)) := by
    rw [← C33_panics ha hb, h]
    intro h; cases h
  push Not at hp
  obtain ⟨l', e, _, hl⟩ := C33_lcm ha hb hp.1 (by by_cases h : a = 0; exacts [.inr (hp.2 h), .inl h])
  rw [h] at e
  cases e
  exact hl h0 h1

/-- C106: `gcd` times `lcm` is the product. -/
theorem C106_product (ha : ty.In a) (hb : ty.In b) (h0 : 0 ≤ a) (h1 : 0 ≤ b) (hp : gcd ty a b = ok p)
    (hl : lcm ty a b = ok l) : p * l = a * b := by
  rw [(gcd_nn ha hb h0 h1).1] at hp
  cases hp
  rw [lcm_nn ha hb h0 h1 hl, ← Int.natCast_mul, Int.gcd_mul_lcm, Int.natCast_mul, Int.natAbs_of_nonneg h0,
    Int.natAbs_of_nonneg h1]

/-- C106: `lcm` of non-negative values is commutative, panics included. -/
theorem C106_lcm_comm (ha : ty.In a) (hb : ty.In b) (h0 : 0 ≤ a) (h1 : 0 ≤ b) : lcm ty a b = lcm ty b a := by
  by_cases h : ¬ ty.In (a * b) ∨ (a = 0 ∧ b = 0)
  · rw [(C33_panics ha hb).2 h, (C33_panics hb ha).2 (by rw [mul_comm]; tauto)]
  · push Not at h
    obtain ⟨x, e1, _, f1⟩ := C33_lcm ha hb h.1 (by by_cases h' : a = 0; exacts [.inr (h.2 h'), .inl h'])
    obtain ⟨y, e2, _, f2⟩ := C33_lcm hb ha (by rw [mul_comm]; exact h.1)
      (by by_cases h' : a = 0; exacts [.inl (h.2 h'), .inr h'])
    rw [e1, e2, f1 h0 h1, f2 h1 h0, Int.lcm_comm]

/-- C106: both ways of taking the `lcm` of three non-negative values agree, when both return. -/
theorem C106_lcm_assoc {r' : Int} (ha : ty.In a) (hb : ty.In b) (hc : ty.In c) (h0 : 0 ≤ a)
    (h1 : 0 ≤ b) (h2 : 0 ≤ c) (hp : lcm ty a b = ok p) (hr : lcm ty p c = ok r) (hq : lcm ty b c = ok q)
    (hr' : lcm ty a q = ok r') : r = r' := by
  have hp' := lcm_in hp
  have hq' := lcm_in hq
  have e1 := lcm_nn ha hb h0 h1 hp
  have e2 := lcm_nn hb hc h1 h2 hq
  subst e1 e2
  rw [lcm_nn hp' hc (Int.natCast_nonneg _) h2 hr, lcm_nn ha hq' h0 (Int.natCast_nonneg _) hr', Int.lcm_assoc]

theorem nat_distrib {a b c : Nat} (ha : 0 < a) : Nat.gcd a (Nat.lcm b c) = Nat.lcm (Nat.gcd a b) (Nat.gcd a c) := by
  apply Nat.dvd_antisymm
  · have hg : 0 < Nat.gcd (Nat.gcd a b) (Nat.gcd a c) := Nat.gcd_pos_of_pos_left _ (Nat.gcd_pos_of_pos_left _ ha)
    refine Nat.dvd_of_mul_dvd_mul_right hg ?_
    rw [Nat.mul_comm (Nat.lcm _ _), Nat.gcd_mul_lcm]
    have g1 : Nat.gcd (Nat.gcd a b) (Nat.gcd a c) ∣ a := (Nat.gcd_dvd_left _ _).trans (Nat.gcd_dvd_left _ _)
    have g2 : Nat.gcd (Nat.gcd a b) (Nat.gcd a c) ∣ b := (Nat.gcd_dvd_left _ _).trans (Nat.gcd_dvd_right _ _)
    have g3 : Nat.gcd (Nat.gcd a b) (Nat.gcd a c) ∣ c := (Nat.gcd_dvd_right _ _).trans (Nat.gcd_dvd_right _ _)
    have x1 := Nat.gcd_dvd_left a (Nat.lcm b c)
    have x2 := Nat.gcd_dvd_right a (Nat.lcm b c)
    rw [show Nat.gcd a b * Nat.gcd a c = Nat.gcd (a * Nat.gcd a c) (b * Nat.gcd a c) from (Nat.gcd_mul_right ..).symm]
    refine Nat.dvd_gcd ?_ ?_
    · rw [show a * Nat.gcd a c = Nat.gcd (a * a) (a * c) from (Nat.gcd_mul_left ..).symm]
      exact Nat.dvd_gcd (Nat.mul_dvd_mul x1 g1) (Nat.mul_dvd_mul x1 g3)
    · rw [show b * Nat.gcd a c = Nat.gcd (b * a) (b * c) from (Nat.gcd_mul_left ..).symm]
      refine Nat.dvd_gcd ?_ ?_
      · rw [Nat.mul_comm b]; exact Nat.mul_dvd_mul x1 g2
      · have := Nat.mul_dvd_mul x2 (Nat.dvd_gcd g2 g3)
        rwa [Nat.mul_comm (Nat.lcm b c), Nat.gcd_mul_lcm] at this
  · exact Nat.lcm_dvd (Nat.gcd_dvd_gcd_of_dvd_right _ (Nat.dvd_lcm_left _ _))
      (Nat.gcd_dvd_gcd_of_dvd_right _ (Nat.dvd_lcm_right _ _))

/-- C106: `gcd` distributes over `lcm`: for positive values, if `lcm(b, c)` returns so does `lcm(gcd(a, b), gcd(a, c))`,
and it is `gcd(a, lcm(b, c))`. -/
theorem C106_distrib (ha : ty.In a) (hb : ty.In b) (hc : ty.In c) (h0 : 0 < a) (h1 : 0 < b) (h2 : 0 < c)
    (hl : lcm ty b c = ok l) :
    ∃ p q x, gcd ty a b = ok p ∧ gcd ty a c = ok q ∧ gcd ty a l = ok x ∧ lcm ty p q = ok x := by
  have el := lcm_nn hb hc h1.le h2.le hl
  have hl' := lcm_in hl
  obtain ⟨e1, i1⟩ := gcd_nn ha hb h0.le h1.le
  obtain ⟨e2, i2⟩ := gcd_nn ha hc h0.le h2.le
  have h3 : 0 ≤ l := by rw [el]; exact Int.natCast_nonneg _
  obtain ⟨e3, _⟩ := gcd_nn ha hl' h0.le h3
  have hbc : ty.In (b * c) := by
    by_contra h
    rw [(C33_panics hb hc).2 (.inl h)] at hl
    cases hl
  have p0 : (0 : Int) < Int.gcd a b := by exact_mod_cast Int.gcd_pos_of_ne_zero_left _ h0.ne'
  have q0 : (0 : Int) < Int.gcd a c := by exact_mod_cast Int.gcd_pos_of_ne_zero_left _ h0.ne'
  have pb : (Int.gcd a b : Int) ≤ b := Int.le_of_dvd h1 (Int.gcd_dvd_right ..)
  have qc : (Int.gcd a c : Int) ≤ c := Int.le_of_dvd h2 (Int.gcd_dvd_right ..)
  have hpq : ty.In ((Int.gcd a b : Int) * Int.gcd a c) := by
    have u : (Int.gcd a b : Int) * Int.gcd a c ≤ b * c := mul_le_mul pb qc q0.le h1.le
    have w : (0 : Int) ≤ (Int.gcd a b : Int) * Int.gcd a c := mul_nonneg p0.le q0.le
    exact IntTy.in_of_nonneg w (u.trans hbc.2)
  obtain ⟨x, e4, _, f⟩ := C33_lcm i1 i2 hpq (.inl p0.ne')
  refine ⟨_, _, _, e1, e2, e3, ?_⟩
  rw [e4, f p0.le q0.le, el]
  have : Int.lcm (Int.gcd a b : Int) (Int.gcd a c : Int) = Int.gcd a (Int.lcm b c : Int) :=
    (nat_distrib (a := a.natAbs) (b := b.natAbs) (c := c.natAbs) (by omega)).symm
  rw [this]

/-- C106: folding `gcd` over a list of non-negative values returns their greatest common divisor. -/
theorem C106_gcd_list : ∀ (L : List Int), (∀ x ∈ L, ty.In x ∧ 0 ≤ x) →
    ∃ d, L.foldlM (gcd ty) 0 = ok d ∧ 0 ≤ d ∧ ∀ c : Int, c ∣ d ↔ ∀ x ∈ L, c ∣ x := by
  have key : ∀ (L : List Int) (a : Int), ty.In a → 0 ≤ a → (∀ x ∈ L, ty.In x ∧ 0 ≤ x) →
      ∃ d, L.foldlM (gcd ty) a = ok d ∧ 0 ≤ d ∧ ∀ c : Int, c ∣ d ↔ c ∣ a ∧ ∀ x ∈ L, c ∣ x := by
    intro L
    induction L with
    | nil => intro a _ h0 _; exact ⟨a, rfl, h0, by simp⟩
    | cons x L ih =>
      intro a ha h0 hL
      obtain ⟨hx, hx0⟩ := hL x (by simp)
      obtain ⟨e, i⟩ := gcd_nn ha hx h0 hx0
      obtain ⟨d, h1, h2, h3⟩ := ih _ i (Int.natCast_nonneg _) fun y hy => hL y (by simp [hy])
      refine ⟨d, ?_, h2, fun c => ?_⟩
      · rw [List.foldlM_cons, e]; exact h1
      · rw [h3, Int.dvd_coe_gcd_iff]
        simp only [List.mem_cons, forall_eq_or_imp]
        tauto
  intro L hL
  obtain ⟨d, h1, h2, h3⟩ := key L 0 (IntTy.in_of_nonneg (le_refl _) ty.mx_nonneg) (le_refl _) hL
  exact ⟨d, h1, h2, fun c => by simpa using h3 c⟩

/-- C106: so the order and the repetitions in the list do not matter. -/
theorem C106_gcd_list_set {L L' : List Int} (hL : ∀ x ∈ L, ty.In x ∧ 0 ≤ x) (hs : ∀ x, x ∈ L ↔ x ∈ L') :
    L.foldlM (gcd ty) 0 = L'.foldlM (gcd ty) 0 := by
  obtain ⟨d, e, h0, h⟩ := C106_gcd_list L hL
  obtain ⟨d', e', h0', h'⟩ := C106_gcd_list L' fun x hx => hL x ((hs x).2 hx)
  have : d = d' := Int.dvd_antisymm h0 h0' ((h' d).2 fun x hx => (h d).1 (dvd_refl _) x ((hs x).2 hx))
    ((h d').2 fun x hx => (h' d').1 (dvd_refl _) x ((hs x).1 hx))
  rw [e, e', this]

/-- C106: `a u + b v = c` can be solved exactly when the third answer of `ex_gcd` divides `c`, and then by multiples of
the first two. -/
theorem C106_linear (hs : ty.signed = true) (hm : 1 ≤ ty.mx) (ha : ty.In a) (hb : ty.In b) {x y g : Int}
    (h : exGcd ty a b = ok (x, y, g)) (c : Int) :
    ((∃ u v, a * u + b * v = c) ↔ g ∣ c) ∧ (∀ k, c = g * k → a * (x * k) + b * (y * k) = c) := by
  have hn : ¬ ((a = ty.mn ∧ b = -1) ∨ (a = -1 ∧ b = ty.mn)) := by
    intro hc
    rw [C34_min_panics hs hc] at h
    cases h
  obtain ⟨x', y', g', e, h1, h2, _⟩ := C34_ex_gcd hs hm ha hb hn
  rw [h] at e
  cases e
  have hk : ∀ k, c = g * k → a * (x * k) + b * (y * k) = c := by
    rintro k rfl
    rw [← h1]; ring
  have ga : g ∣ a := by
    rw [← Int.natAbs_dvd, h2]; exact Int.gcd_dvd_left ..
  have gb : g ∣ b := by
    rw [← Int.natAbs_dvd, h2]; exact Int.gcd_dvd_right ..
  refine ⟨⟨?_, ?_⟩, hk⟩
  · rintro ⟨u, v, rfl⟩
    exact Int.dvd_add (Dvd.dvd.mul_right ga u) (Dvd.dvd.mul_right gb v)
  · rintro ⟨k, hc⟩
    exact ⟨_, _, hk k hc⟩

/-- The pair of the least non-negative solution and the period is determined by the set of solutions. -/
theorem progression_unique {S : Int → Prop} {x l x' l' : Int} (h0 : 0 ≤ x) (h1 : x < l) (h0' : 0 ≤ x') (h1' : x' < l')
    (h : ∀ z, S z ↔ ∃ k, z = x + k * l) (h' : ∀ z, S z ↔ ∃ k, z = x' + k * l') : x = x' ∧ l = l' := by
  have d : ∀ {x l x' l' : Int}, (∀ z, S z ↔ ∃ k, z = x + k * l) → (∀ z, S z ↔ ∃ k, z = x' + k * l') → l' ∣ l := by
    intro x l x' l' h h'
    obtain ⟨i, hi⟩ := (h' x).1 ((h x).2 ⟨0, by ring⟩)
    obtain ⟨j, hj⟩ := (h' (x + l)).1 ((h (x + l)).2 ⟨1, by ring⟩)
    exact ⟨j - i, by rw [mul_sub, mul_comm l' j, mul_comm l' i]; linarith⟩
  have e : l = l' := Int.dvd_antisymm (by omega) (by omega) (d h' h) (d h h')
  subst e
  obtain ⟨i, hi⟩ := (h' x).1 ((h x).2 ⟨0, by ring⟩)
  refine ⟨?_, rfl⟩
  have a := Int.emod_eq_of_lt h0 h1
  rw [hi, Int.add_mul_emod_self_right, Int.emod_eq_of_lt h0' h1'] at a
  omega

/-- C106: two systems with the same solutions get the same answer, when both calls return. -/
theorem C106_crt_same {a b m a' b' m' : List Int} {r r' : Option (Int × Int)} (hin : CongrInput a b m)
    (hin' : CongrInput a' b' m') (hS : ∀ z, CongrSol a b m z ↔ CongrSol a' b' m' z)
    (h : exCrt a b m = ok r) (h' : exCrt a' b' m' = ok r') : r = r' := by
  rcases C35_ex_crt hin with ⟨e, n⟩ | ⟨x, l, e, p⟩ | e <;> rw [h] at e <;> cases e <;>
    rcases C35_ex_crt hin' with ⟨e', n'⟩ | ⟨x', l', e', p'⟩ | e' <;> rw [h'] at e' <;> cases e'
  · rfl
  · exact absurd ((hS x').2 ((p'.2.2 x').2 ⟨0, by ring⟩)) (n x')
  · exact absurd ((hS x).1 ((p.2.2 x).2 ⟨0, by ring⟩)) (n' x)
  · obtain ⟨h1, h2⟩ := progression_unique p.1 p.2.1 p'.1 p'.2.1 p.2.2 fun z => (hS z).trans (p'.2.2 z)
    rw [h1, h2]

/-- The lists of coefficients, right sides and moduli of a list of congruences. -/
def crtOf (E : List (Int × Int × Int)) : Res (Option (Int × Int)) :=
  exCrt (E.map fun e => e.1) (E.map fun e => e.2.1) (E.map fun e => e.2.2)

/-- The entries are `i64`s with `a ≥ 0` and `m > 0`. -/
def CongrOk (E : List (Int × Int × Int)) : Prop :=
  ∀ e ∈ E, (0 ≤ e.1 ∧ e.1 < 2 ^ 63) ∧ (-2 ^ 63 ≤ e.2.1 ∧ e.2.1 < 2 ^ 63) ∧ (0 < e.2.2 ∧ e.2.2 < 2 ^ 63)

theorem congrOf {E : List (Int × Int × Int)} (h : CongrOk E) :
    CongrInput (E.map fun e => e.1) (E.map fun e => e.2.1) (E.map fun e => e.2.2) := by
  refine ⟨by simp, by simp, fun i hi => ?_⟩
  rw [List.length_map] at hi
  simpa [List.getD_eq_getElem?_getD, hi] using h E[i] (List.getElem_mem _)

theorem congrSolOf (E : List (Int × Int × Int)) (z : Int) :
    CongrSol (E.map fun e => e.1) (E.map fun e => e.2.1) (E.map fun e => e.2.2) z ↔
      ∀ e ∈ E, e.2.2 ∣ e.1 * z - e.2.1 := by
  unfold CongrSol
  constructor
  · intro h e he
    obtain ⟨i, hi, rfl⟩ := List.getElem_of_mem he
    simpa [List.getD_eq_getElem?_getD, hi] using h i (by simpa using hi)
  · intro h i hi
    rw [List.length_map] at hi
    simpa [List.getD_eq_getElem?_getD, hi] using h E[i] (List.getElem_mem _)

/-- C106: the order and the repetitions of the congruences do not matter, when both calls return. -/
theorem C106_crt_set {E E' : List (Int × Int × Int)} {r r' : Option (Int × Int)} (hE : CongrOk E)
    (hs : ∀ e, e ∈ E ↔ e ∈ E') (h : crtOf E = ok r) (h' : crtOf E' = ok r') : r = r' := by
  refine C106_crt_same (congrOf hE) (congrOf fun e he => hE e ((hs e).2 he)) (fun z => ?_) h h'
  rw [congrSolOf, congrSolOf]
  exact ⟨fun h e he => h e ((hs e).2 he), fun h e he => h e ((hs e).1 he)⟩

theorem crtLoop_lt {b m : List Int} : ∀ (as : List Int) (i : Nat) (x l x' l' : Int),
    crtLoop b m i as x l = ok (some (x', l')) → l < 2 ^ 63 → l' < 2 ^ 63
  | [], _, _, _, _, _, h, hl => by cases h; exact hl
  | a :: as, i, x, l, x', l', h, hl => by
    unfold crtLoop at h
    obtain ⟨bi, _, h⟩ := bind_ok_inv h
    obtain ⟨mi, _, h⟩ := bind_ok_inv h
    obtain ⟨o, ho, h⟩ := bind_ok_inv h
    match o, ho, h with
    | some (x1, l1), ho, h =>
      refine crtLoop_lt as (i + 1) x1 l1 x' l' h ?_
      unfold crtStep at ho
      obtain ⟨_, _, ho⟩ := bind_ok_inv ho
      obtain ⟨_, _, ho⟩ := bind_ok_inv ho
      obtain ⟨_, _, ho⟩ := bind_ok_inv ho
      obtain ⟨⟨_, _, _⟩, _, ho⟩ := bind_ok_inv ho
      obtain ⟨_, _, ho⟩ := bind_ok_inv ho
      split at ho
      · cases ho
      obtain ⟨_, _, ho⟩ := bind_ok_inv ho
      obtain ⟨_, _, ho⟩ := bind_ok_inv ho
      obtain ⟨_, _, ho⟩ := bind_ok_inv ho
      obtain ⟨_, _, ho⟩ := bind_ok_inv ho
      obtain ⟨_, _, ho⟩ := bind_ok_inv ho
      obtain ⟨_, _, ho⟩ := bind_ok_inv ho
      obtain ⟨l2, hl2, ho⟩ := bind_ok_inv ho
      cases ho
      unfold IntTy.ck at hl2
      split at hl2
      · rename_i hi
        cases hl2
        have h1 := hi.2
        have h2 : i64.mx = 2 ^ 63 - 1 := by decide +kernel
        omega
      · cases hl2

theorem crt_lt {E : List (Int × Int × Int)} {x l : Int} (h : crtOf E = ok (some (x, l))) : l < 2 ^ 63 := by
  unfold crtOf exCrt at h
  obtain ⟨o, ho, h⟩ := bind_ok_inv h
  match o, ho, h with
  | some (x1, l1), ho, h =>
    simp only at h
    obtain ⟨_, _, h⟩ := bind_ok_inv h
    obtain ⟨_, _, h⟩ := bind_ok_inv h
    cases h
    exact crtLoop_lt _ _ _ _ _ _ ho (by decide)

/-- C106: the answers for two parts of a system can be combined by a third call: it gives the answer for all of it, when
the calls return. -/
theorem C106_crt_parts {E E' : List (Int × Int × Int)} {x l x' l' : Int} {r r' : Option (Int × Int)} (hE : CongrOk E)
    (hE' : CongrOk E') (h1 : crtOf E = ok (some (x, l))) (h2 : crtOf E' = ok (some (x', l')))
    (h : crtOf (E ++ E') = ok r) (h' : crtOf [(1, x, l), (1, x', l')] = ok r') : r = r' := by
  have get : ∀ {E : List (Int × Int × Int)} {x l : Int}, CongrOk E → crtOf E = ok (some (x, l)) →
      0 ≤ x ∧ x < l ∧ ∀ z, (∀ e ∈ E, e.2.2 ∣ e.1 * z - e.2.1) ↔ ∃ k, z = x + k * l := by
    intro E x l hE h
    unfold crtOf at h
    rcases C35_ex_crt (congrOf hE) with ⟨e, n⟩ | ⟨x, l, e, p⟩ | e <;> rw [h] at e <;> cases e
    exact ⟨p.1, p.2.1, fun z => by rw [← congrSolOf]; exact p.2.2 z⟩
  have hl := crt_lt h1
  have hl' := crt_lt h2
  obtain ⟨p1, p2, p3⟩ := get hE h1
  obtain ⟨q1, q2, q3⟩ := get hE' h2
  refine C106_crt_same (congrOf (E := E ++ E') fun e he => (List.mem_append.1 he).elim (hE e) (hE' e))
    (congrOf (E := [(1, x, l), (1, x', l')]) ?_) (fun z => ?_) h h'
  · intro e he
    simp only [List.mem_cons, List.not_mem_nil, or_false] at he
    rcases he with rfl | rfl
    · exact ⟨⟨by simp, by simp⟩, ⟨by simp only; omega, by simp only; omega⟩, by simp only; omega, by simp only; omega⟩
    · exact ⟨⟨by simp, by simp⟩, ⟨by simp only; omega, by simp only; omega⟩, by simp only; omega, by simp only; omega⟩
  · have dv : ∀ {x l : Int}, (∃ k, z = x + k * l) ↔ l ∣ 1 * z - x := by
      intro x l
      constructor
      · rintro ⟨k, rfl⟩; exact ⟨k, by ring⟩
      · rintro ⟨k, hk⟩; exact ⟨k, by rw [mul_comm k]; linarith⟩
    rw [congrSolOf, congrSolOf]
    simp only [List.mem_append, List.mem_cons, List.not_mem_nil, or_false, forall_eq_or_imp, forall_eq]
    rw [← dv, ← dv, ← p3, ← q3]
    exact ⟨fun h => ⟨fun e he => h e (.inl he), fun e he => h e (.inr he)⟩, fun h e he => he.elim (h.1 e) (h.2 e)⟩

/-- `gcd(12, 18) = 6`, `gcd(12, lcm(18, 8)) = 12 = lcm(gcd(12, 18), gcd(12, 8))`, and a shift and a factor. -/
example : gcd i64 12 18 = ok 6 ∧ lcm i64 18 8 = ok 72 ∧ gcd i64 12 72 = ok 12 ∧ gcd i64 12 8 = ok 4 ∧
    lcm i64 6 4 = ok 12 ∧ gcd i64 (12 + 5 * 18) 18 = ok 6 ∧ gcd i64 (7 * 12) (7 * 18) = ok 42 ∧
    [12, 18, 8].foldlM (gcd i64) 0 = ok 2 ∧ [8, 18, 18, 12].foldlM (gcd i64) 0 = ok 2 := by decide +kernel

example : i64.In 12 ∧ i64.In 18 ∧ i64.In 8 ∧ i64.In 72 ∧ i64.In 0 ∧ i64.In (12 + 5 * 18) ∧ i64.signed = true ∧ 1 ≤ i64.mx := by
  unfold IntTy.In; decide +kernel

/-- Three congruences, in two orders, in two parts, and the parts combined; and a system without solutions. -/
example : CongrOk [(1, 2, 3), (2, 1, 5), (1, 2, 7)] ∧ crtOf [(1, 2, 3), (2, 1, 5), (1, 2, 7)] = ok (some (23, 105)) ∧
    crtOf [(1, 2, 7), (1, 2, 3), (2, 1, 5), (1, 2, 3)] = ok (some (23, 105)) ∧
    crtOf [(1, 2, 3), (2, 1, 5)] = ok (some (8, 15)) ∧ crtOf [(1, 2, 7)] = ok (some (2, 7)) ∧
    crtOf [(1, 8, 15), (1, 2, 7)] = ok (some (23, 105)) ∧ crtOf [(1, 0, 4), (1, 1, 6)] = ok none := by
  unfold CongrOk; decide +kernel

end Verif.Props
