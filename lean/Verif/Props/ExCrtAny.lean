import Verif.Proof.ExCrtAny
/-! Property C78. -/
namespace Verif.Props
open Model Res Spec NTP

/-- **C78.** `ex_crt` on `i64` entries of any sign, zero moduli included: `None` means that no integer
solves the system, `Some((x, l))` means that the solutions are exactly `x + k * l`, where `x` is `0` or has
the sign of `l` and `|x| < |l|`, and no modulus is zero. The only alternative is a panic. -/
theorem C78_any_sign {a b m : List Int} (hin : CongrAny a b m) :
    (exCrt a b m = ok none ∧ ∀ z, ¬ CongrSol a b m z) ∨
    (∃ x l, exCrt a b m = ok (some (x, l)) ∧ ((0 ≤ x ∧ x < l) ∨ (l < x ∧ x ≤ 0)) ∧
      (∀ z, CongrSol a b m z ↔ ∃ k, z = x + k * l) ∧ ∀ i < a.length, m.getD i 0 ≠ 0) ∨
    exCrt a b m = .panic := by
  rcases exCrt_any (B := True) hin (fun h => absurd trivial h) with ⟨r, e, h⟩ | ⟨-, h⟩
  · rcases r with _ | ⟨x, l⟩
    · exact .inl ⟨e, h⟩
    · exact .inr (.inl ⟨x, l, e, h.2.1, h.2.2, h.1⟩)
  · exact .inr (.inr h)

/-- **C78, no overflow.** If the moduli have a common multiple `L > 0` with `2 L ≤ 2^63`,
`|a[i] * L| ≤ 2^62` and `|b[i]| ≤ 2^62`, then there is no panic, whatever the signs. -/
theorem C78_no_overflow {a b m : List Int} {L : Int} (hin : CongrAny a b m) (hs : CongrSmallAny a b m L) :
    ∃ r, exCrt a b m = ok r ∧ (r = none ↔ ∀ z, ¬ CongrSol a b m z) ∧
      ∀ x l, r = some (x, l) → ((0 ≤ x ∧ x < l) ∨ (l < x ∧ x ≤ 0)) ∧
        ∀ z, CongrSol a b m z ↔ ∃ k, z = x + k * l := by
  obtain ⟨r, e, h⟩ := (exCrt_any (B := False) hin fun _ => ⟨L, hs⟩).sat id
  refine ⟨r, e, ?_, ?_⟩
  · rcases r with _ | ⟨x, l⟩
    · exact ⟨fun _ => h, fun _ => rfl⟩
    · refine ⟨fun h => by simp at h, fun hz => ?_⟩
      exact absurd ((h.2.2 x).2 ⟨0, by ring⟩) (hz x)
  · rintro x l rfl
    exact ⟨h.2.1, h.2.2⟩

/-- **C78, the least non-negative solution.** Taking the remainder by `|l|` of a returned `x` gives the least
non-negative solution, whatever the sign of `l`. -/
theorem C78_least {a b m : List Int} {x l : Int} (hin : CongrAny a b m) (h : exCrt a b m = ok (some (x, l))) :
    CongrSol a b m (x % l) ∧ 0 ≤ x % l ∧ ∀ z, 0 ≤ z → CongrSol a b m z → x % l ≤ z := by
  rcases C78_any_sign hin with ⟨e, _⟩ | ⟨x', l', e, hr, hz, _⟩ | e
  · rw [h] at e; simp at e
  · rw [h] at e
    simp only [Res.ok.injEq, Option.some.injEq, Prod.mk.injEq] at e
    obtain ⟨rfl, rfl⟩ := e
    have hl : l ≠ 0 := by omega
    have he := Int.mul_ediv_add_emod x l
    refine ⟨(hz _).2 ⟨-(x / l), by linear_combination he⟩, Int.emod_nonneg _ hl, ?_⟩
    intro z h0 hs
    obtain ⟨k, rfl⟩ := (hz z).1 hs
    have e2 : (x + k * l) % l = x % l := by simp
    have h3 : (x + k * l) % l ≤ x + k * l := by
      have h4 := Int.mul_ediv_add_emod (x + k * l) l
      have h5 : 0 ≤ l * ((x + k * l) / l) := by
        rcases Int.lt_or_lt_of_ne hl with hn | hp
        · have := Int.ediv_nonpos_of_nonneg_of_nonpos h0 hn.le
          exact Int.mul_nonneg_of_nonpos_of_nonpos hn.le this
        · exact Int.mul_nonneg hp.le (Int.ediv_nonneg h0 hp.le)
      omega
    omega
  · rw [h] at e; simp at e

/-- **C78, a zero modulus.** One congruence `a x = b (mod 0)`, that is `a x = b`: `None` if `a ∤ b`, and a
panic otherwise (the solution exists but the code divides by zero), also for `a = 0`. -/
theorem C78_zero_modulus {a b : Int} (ha : -2 ^ 63 ≤ a ∧ a < 2 ^ 63) (hb : -2 ^ 63 ≤ b ∧ b < 2 ^ 63) :
    exCrt [a] [b] [0] = if a ∣ b ∨ a = 0 then .panic else ok none := by
  have hai : i64.In a := i64_in.2 (by omega)
  have hbi : i64.In b := i64_in.2 (by omega)
  have hg : exGcd i64 a 0 = ok (1, 0, a) := by unfold exGcd; simp [exGcdAux]
  have hstep : crtStep a b 0 0 1 = if a ∣ b ∨ a = 0 then .panic else ok none := by
    unfold crtStep
    rw [Int.mul_one, IntTy.ck_of hai, ok_bind, Int.mul_zero, IntTy.ck_of (by decide), ok_bind, Int.sub_zero,
      IntTy.ck_of hbi, ok_bind, hg, ok_bind]
    simp only
    by_cases h0 : a = 0
    · subst h0
      rw [if_pos (.inr rfl)]
      rfl
    by_cases hmn : b = i64.mn ∧ a = -1
    · rw [if_pos (.inl (by rw [hmn.2]; exact Int.neg_dvd.2 (Int.one_dvd _)))]
      rw [hmn.1, hmn.2]; decide
    rw [rem_ok h0 (fun h => hmn h.2), ok_bind]
    by_cases hd : a ∣ b
    · rw [if_pos (c := a ∣ b ∨ a = 0) (.inl hd), Int.tmod_eq_zero_of_dvd hd]
      simp only [ne_eq, not_true, if_false]
      rw [div_ok hbi hai h0 (fun h => hmn h.2), ok_bind,
        div_ok (by decide) hai h0 (fun h => absurd h.2.1 (by decide)), ok_bind]
      have hq : i128.In (1 * b.tdiv a) := by
        have := Int.natAbs_tdiv_le_natAbs b a
        rw [i128_in]; omega
      rw [IntTy.ck_of hq, ok_bind, Int.zero_tdiv]
      rfl
    · rw [if_neg (c := a ∣ b ∨ a = 0) (by simp [hd, h0]), if_pos]
      intro h
      exact hd (Int.dvd_of_tmod_eq_zero h)
  unfold exCrt crtLoop
  simp only [idx_of_some (l := [b]) (i := 0) rfl, idx_of_some (l := [(0 : Int)]) (i := 0) rfl, ok_bind, hstep]
  split <;> rfl

/-- **C78, short arguments.** If `b` or `m` has only `k < a.len()` entries then `ex_crt` panics unless the
system of the first `k` congruences was answered with `None`; it never returns `Some`. -/
theorem C78_short {a b m : List Int} {k : Nat} (hm : ∀ v ∈ m, -2 ^ 63 ≤ v ∧ v < 2 ^ 63)
    (hk : k < a.length) (hs : b.length = k ∨ m.length = k) :
    exCrt a b m = .panic ∨ (exCrt a b m = ok none ∧ exCrt (a.take k) b m = ok none) := by
  unfold exCrt
  rcases crtLoop_short (b := b) (m := m) (fun v hv => i64_in.2 (by have := hm v hv; omega)) a 0 k 0 1 hk
    (by omega) with h | ⟨h, h'⟩
  · rw [h]; exact .inl rfl
  · rw [h, h']; exact .inr ⟨rfl, rfl⟩

/-- Negative coefficients and moduli; the sign of the returned modulus follows the gcd. -/
example : exCrt [-3, 5] [3, -1] [6, -7] = ok (some (-3, -14)) ∧ exCrt [1, 1] [2, 3] [-5, 7] = ok (some (17, 35)) ∧
    exCrt [-2] [1] [4] = ok none ∧ exCrt [3] [7] [0] = ok none ∧ exCrt [3] [6] [0] = .panic ∧
    exCrt [1, 1] [1] [2] = .panic ∧ exCrt [2, 1] [1] [2] = ok none := by
  decide +kernel

example : CongrAny [-3, 5] [3, -1] [6, -7] ∧ CongrSmallAny [-3, 5] [3, -1] [6, -7] 42 := by
  unfold CongrAny CongrSmallAny
  decide +kernel

end Verif.Props
