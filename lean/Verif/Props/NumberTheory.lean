import Verif.Proof.ExCrt
/-! Theorems about `/repo/src/math/number_theory.rs` (C32–C35). -/
namespace Verif.Props
open Model Res Spec NTP

/-- **C32.** For all values `a`, `b` of a primitive integer type, other than the pair `MIN`, `-1` in
either order, `gcd` returns a value of the type whose magnitude is the greatest common divisor. It is
non-negative for non-negative arguments. -/
theorem C32_gcd {ty : IntTy} {a b : Int} (ha : ty.In a) (hb : ty.In b)
    (h : ¬ (ty.signed = true ∧ ((a = ty.mn ∧ b = -1) ∨ (a = -1 ∧ b = ty.mn)))) :
    ∃ g, gcd ty a b = ok g ∧ ty.In g ∧ g.natAbs = Int.gcd a b ∧ (0 ≤ a → 0 ≤ b → g = Int.gcd a b) := by
  obtain ⟨g, e, h1, h2, h3⟩ := gcd_sat ha hb h
  exact ⟨g, e, h1, h2, fun p q => by rw [← h2]; have := h3 p q; omega⟩

/-- The result of `gcd` divides both arguments and every common divisor divides it. -/
theorem C32_greatest {ty : IntTy} {a b g : Int} (ha : ty.In a) (hb : ty.In b) (hg : gcd ty a b = ok g) :
    g ∣ a ∧ g ∣ b ∧ ∀ d, d ∣ a → d ∣ b → d ∣ g := by
  by_cases h : MinNeg ty a b
  · rw [gcd_minNeg h] at hg; cases hg
  obtain ⟨g', e, h1, h2, h3⟩ := gcd_sat ha hb h
  rw [hg] at e
  injection e with e
  subst e
  refine ⟨?_, ?_, fun d h4 h5 => ?_⟩
  · rw [← Int.natAbs_dvd, h2]; exact Int.gcd_dvd_left ..
  · rw [← Int.natAbs_dvd, h2]; exact Int.gcd_dvd_right ..
  · rw [← Int.dvd_natAbs, h2]; exact Int.dvd_coe_gcd h4 h5

/-- **C32, the panic.** On `MIN`, `-1` (either order) of a signed type `gcd` panics. -/
theorem C32_min_panics {ty : IntTy} {a b : Int} (hs : ty.signed = true)
    (h : (a = ty.mn ∧ b = -1) ∨ (a = -1 ∧ b = ty.mn)) : gcd ty a b = .panic := gcd_minNeg ⟨hs, h⟩

example : gcd ⟨true, 8⟩ (-48) 36 = ok (-12) ∧ gcd ⟨true, 8⟩ (-128) 48 = ok 16 ∧ gcd ⟨true, 8⟩ 12 (-8) = ok 4 ∧
    gcd ⟨true, 8⟩ (-8) 0 = ok (-8) ∧ gcd ⟨false, 8⟩ 252 105 = ok 21 ∧ gcd ⟨true, 8⟩ (-128) (-1) = .panic := by
  decide +kernel

/-- **C33.** For all values `a`, `b`, not both `0`, whose product fits the type, `lcm` returns the least
common multiple (up to sign; exactly, for non-negative arguments). -/
theorem C33_lcm {ty : IntTy} {a b : Int} (ha : ty.In a) (hb : ty.In b) (hp : ty.In (a * b))
    (h0 : a ≠ 0 ∨ b ≠ 0) :
    ∃ l, lcm ty a b = ok l ∧ l.natAbs = Int.lcm a b ∧ (0 ≤ a → 0 ≤ b → l = Int.lcm a b) := by
  obtain ⟨l, e, h1, h2⟩ := lcm_sat ha hb hp h0
  exact ⟨l, e, h1, fun p q => by rw [← h1]; have := h2 p q; omega⟩

/-- **C33, the panics.** `lcm` panics exactly otherwise: when the product does not fit, or on `(0, 0)`. -/
theorem C33_panics {ty : IntTy} {a b : Int} (ha : ty.In a) (hb : ty.In b) :
    lcm ty a b = .panic ↔ ¬ ty.In (a * b) ∨ (a = 0 ∧ b = 0) := by
  refine ⟨fun h => ?_, lcm_panic⟩
  by_contra hc
  rw [not_or, not_not] at hc
  obtain ⟨l, e, -⟩ := lcm_sat ha hb hc.1 (by omega)
  rw [h] at e; cases e

/-- `lcm` panics although the least common multiple fits: for `i16`,
`lcm(200, 300) = 600` fits and `200 * 300` does not. -/
theorem C33_overflow_witness : lcm ⟨true, 16⟩ 200 300 = .panic ∧ IntTy.In ⟨true, 16⟩ (Int.lcm 200 300) := by
  decide +kernel

example : lcm ⟨true, 8⟩ 12 8 = ok 24 ∧ lcm ⟨true, 8⟩ (-128) 1 = ok (-128) ∧ lcm ⟨false, 8⟩ 0 5 = ok 0 := by
  decide +kernel

/-- **C34.** On a signed type, other than on the pair `MIN`, `-1`, `ex_gcd(a, b) = (x, y, g)` with
`a * x + b * y = g`, `g` the greatest common divisor up to sign, and nothing overflows. The coefficients
are the small ones: unless `b` divides `a` or is `0`, `2 g |x| ≤ |b|` and `2 g |y| ≤ |a|`. -/
theorem C34_ex_gcd {ty : IntTy} (hs : ty.signed = true) (h1 : 1 ≤ ty.mx) {a b : Int} (ha : ty.In a)
    (hb : ty.In b) (h : ¬ ((a = ty.mn ∧ b = -1) ∨ (a = -1 ∧ b = ty.mn))) :
    ∃ x y g, exGcd ty a b = ok (x, y, g) ∧ a * x + b * y = g ∧ g.natAbs = Int.gcd a b ∧
      (0 ≤ a → 0 ≤ b → 0 ≤ g) ∧
      (b ≠ 0 → ¬ b ∣ a → 2 * (Int.gcd a b * x.natAbs) ≤ b.natAbs ∧ 2 * (Int.gcd a b * y.natAbs) ≤ a.natAbs) := by
  obtain ⟨⟨x, y, g⟩, e, p1, p2, p3, p4, p5, p6⟩ := exGcd_sat hs h1 ha hb (fun e => h e.2)
  exact ⟨x, y, g, e, p1, p2, p6, fun hb0 hd => p5 hb0 fun hz => hd (Int.dvd_of_tmod_eq_zero hz)⟩

/-- **C34, the panic.** `MIN`, `-1` in either order panics. -/
theorem C34_min_panics {ty : IntTy} {a b : Int} (hs : ty.signed = true)
    (h : (a = ty.mn ∧ b = -1) ∨ (a = -1 ∧ b = ty.mn)) : exGcd ty a b = .panic := exGcd_minNeg ⟨hs, h⟩

/-- **C34, unsigned types.** The type signature admits unsigned types, where the coefficients may be
negative: `ex_gcd` returns a correct triple when one argument divides the other and panics otherwise. -/
theorem C34_unsigned {ty : IntTy} (hs : ty.signed = false) (h1 : 1 ≤ ty.mx) {a b : Int} (ha : ty.In a)
    (hb : ty.In b) :
    (a ∣ b ∨ b ∣ a → ∃ x y g, exGcd ty a b = ok (x, y, g) ∧ a * x + b * y = g ∧ g = Int.gcd a b) ∧
    (¬ (a ∣ b ∨ b ∣ a) → exGcd ty a b = .panic) := by
  refine ⟨fun h => ?_, exGcd_unsigned_panic hs h1 ha hb⟩
  obtain ⟨⟨x, y, g⟩, e, p1, p2, p3, p4, p5, p6⟩ := exGcd_unsigned_ok hs h1 ha hb h
  refine ⟨x, y, g, e, p1, ?_⟩
  have hz := mn_unsigned hs
  have h6 : 0 ≤ g := p6 (by have := ha.1; omega) (by have := hb.1; omega)
  have h2 : g.natAbs = Int.gcd a b := p2
  rw [← h2]; omega

example : exGcd ⟨true, 8⟩ 100 (-37) = ok (10, 27, 1) ∧ exGcd ⟨true, 8⟩ (-128) 127 = ok (1, 1, -1) ∧
    exGcd ⟨true, 8⟩ (-128) (-1) = .panic ∧ exGcd ⟨false, 32⟩ 6 4 = .panic ∧
    exGcd ⟨false, 32⟩ 4 12 = ok (1, 0, 4) := by
  decide +kernel

/-- **C35.** For `a[i] ≥ 0` and `m[i] > 0`, whenever `ex_crt` returns: `None` means that the system has no
integer solution, and `Some((ans, lcm))` means `0 ≤ ans < lcm` and the solutions are exactly
`ans + k * lcm`. The only alternative is an overflow panic. -/
theorem C35_ex_crt {a b m : List Int} (hin : CongrInput a b m) :
    (exCrt a b m = ok none ∧ ∀ z, ¬ CongrSol a b m z) ∨
    (∃ x l, exCrt a b m = ok (some (x, l)) ∧ 0 ≤ x ∧ x < l ∧ ∀ z, CongrSol a b m z ↔ ∃ k, z = x + k * l) ∨
    exCrt a b m = .panic := by
  rcases exCrt_sat (B := True) hin (fun h => absurd trivial h) with ⟨r, e, h⟩ | ⟨-, h⟩
  · rcases r with _ | ⟨x, l⟩
    · exact .inl ⟨e, h⟩
    · exact .inr (.inl ⟨x, l, e, h⟩)
  · exact .inr (.inr h)

/-- **C35, no overflow.** If the moduli have a common multiple `L` with `2 L ≤ 2^63`, `a[i] * L ≤ 2^62` and
`|b[i]| ≤ 2^62`, then `ex_crt` does not panic: it answers `None` iff the system has no solution. -/
theorem C35_no_overflow {a b m : List Int} {L : Int} (hin : CongrInput a b m) (hs : CongrSmall a b m L) :
    ∃ r, exCrt a b m = ok r ∧ (r = none ↔ ∀ z, ¬ CongrSol a b m z) ∧
      ∀ x l, r = some (x, l) → 0 ≤ x ∧ x < l ∧ ∀ z, CongrSol a b m z ↔ ∃ k, z = x + k * l := by
  obtain ⟨r, e, h⟩ := (exCrt_sat (B := False) hin fun _ => ⟨L, hs⟩).sat id
  refine ⟨r, e, ?_, ?_⟩
  · rcases r with _ | ⟨x, l⟩
    · exact ⟨fun _ => h, fun _ => rfl⟩
    · refine ⟨fun h => by simp at h, fun hz => ?_⟩
      exact absurd ((h.2.2 x).2 ⟨0, by ring⟩) (hz x)
  · rintro x l rfl
    exact h

/-- **C35, negative coefficients.** With `a[i] < 0` the answer can be negative with a negative `lcm`:
`-3 x = 3 (mod 6)` gives `(-1, -2)`. -/
theorem C35_negative_witness : exCrt [-3] [3] [6] = ok (some (-1, -2)) := by decide +kernel

/-- The documentation promises the smallest positive solution; `0` is returned when it is a solution. -/
theorem C35_zero_witness : exCrt [1] [0] [5] = ok (some (0, 5)) := by decide +kernel

/-- Moduli that are not coprime, non-unit coefficients, an unsolvable system. -/
example : exCrt [1, 3, 5] [2, 6, -10] [4, 9, 10] = ok (some (2, 12)) ∧ exCrt [1, 1] [1, 2] [4, 6] = ok none ∧
    exCrt [1, 4611686018427387904] [1, 1] [3, 5] = .panic := by
  decide +kernel

example : CongrInput [1, 3, 5] [2, 6, -10] [4, 9, 10] ∧ CongrSmall [1, 3, 5] [2, 6, -10] [4, 9, 10] 180 := by
  unfold CongrInput CongrSmall
  decide +kernel

end Verif.Props
