import Verif.Proof.Factorial
import Mathlib.Data.Nat.Prime.Factorial
/-! Theorems about `/repo/src/math/factorial.rs` (C49). -/
namespace Verif.Props
open Model Res Spec NTP IMP MIP FACP
open scoped Nat

/-- A static kind whose prime hint, if set, is true. -/
def HintTrue (m : Nat) (h : Bool) : Prop := h = true → m.Prime ∧ m < 2 ^ 31

theorem inv_static {m : Nat} {h : Bool} (hm2 : m < 2 ^ 32) (hh : HintTrue m h) : ∀ a < m,
    (Nat.gcd a m = 1 → ∃ y, miInv (.stat m h) a = ok y ∧ y < m ∧ a * y % m = 1 % m) ∧
      (Nat.gcd a m ≠ 1 → miInv (.stat m h) a = panic) :=
  fun _ ha => C45_inv_all (.inl ⟨h, rfl⟩) hm2 (fun e => by injection e with _ e; exact hh e) ha

/-- **C49, any modulus.** For every `u32` modulus `m ≥ 1`: if `n!` is invertible modulo `m`, `new(n)` succeeds, and
then for `r ≤ a ≤ n` `choose(a, r)` is the binomial coefficient and `perm(a, r)` the falling factorial, reduced
mod `m`. If `n!` is not invertible, `new(n)` panics. -/
theorem C49_any_modulus {m n : Nat} {h : Bool} (hm : 1 ≤ m) (hm2 : m < 2 ^ 32) (hn : n + 1 < 2 ^ 64) (hh : HintTrue m h) :
    (Nat.Coprime (n !) m → ∃ t, factorialNew (.stat m h) n = ok t ∧ ∀ a r, r ≤ a → a ≤ n →
      t.choose (.stat m h) a r = ok (a.choose r % m) ∧ t.perm (.stat m h) a r = ok (a.descFactorial r % m)) ∧
    (¬ Nat.Coprime (n !) m → factorialNew (.stat m h) n = panic) := by
  have hmul := mul_stat (h := h) hm2
  obtain ⟨h1, h2⟩ := new_sat (k := .stat m h) rfl hmul hm hm2 hn (inv_static hm2 hh)
  refine ⟨fun hc => ?_, h2⟩
  obtain ⟨t, e, ht⟩ := h1 hc
  exact ⟨t, e, fun a r hra ha => ⟨choose_eq hmul hm ht hra ha, perm_eq hmul hm ht hra ha⟩⟩

/-- **C49.** For a prime modulus `p` and `n < p`, `new(n)` succeeds and for `r ≤ a ≤ n`, `choose(a, r)` is
`C(a, r) mod p` and `perm(a, r)` is `a!/(a-r)! mod p`. -/
theorem C49_factorial {p n : Nat} {h : Bool} (hp : p.Prime) (hp2 : p < 2 ^ 32) (hh : h = true → p < 2 ^ 31) (hn : n < p) :
    ∃ t, factorialNew (.stat p h) n = ok t ∧ ∀ a r, r ≤ a → a ≤ n →
      t.choose (.stat p h) a r = ok (a.choose r % p) ∧ t.perm (.stat p h) a r = ok (a ! / (a - r)! % p) := by
  have hc : Nat.Coprime (n !) p := ((Nat.Prime.coprime_iff_not_dvd hp).2 (fun h => absurd (hp.dvd_factorial.1 h) (by omega))).symm
  obtain ⟨t, e, ht⟩ := (C49_any_modulus (h := h) hp.one_le hp2 (by omega) (fun e => ⟨hp, hh e⟩)).1 hc
  refine ⟨t, e, fun a r hra ha => ?_⟩
  rw [← Nat.descFactorial_eq_div hra]
  exact ht a r hra ha

/-- **C49, too large a table.** For a prime `p` and `n ≥ p`, `new(n)` panics. -/
theorem C49_too_large {p n : Nat} {h : Bool} (hp : p.Prime) (hp2 : p < 2 ^ 32) (hh : h = true → p < 2 ^ 31) (hn : p ≤ n)
    (hn2 : n + 1 < 2 ^ 64) : factorialNew (.stat p h) n = panic := by
  refine (C49_any_modulus (h := h) hp.one_le hp2 hn2 (fun e => ⟨hp, hh e⟩)).2 fun hc => ?_
  have := Nat.Coprime.eq_one_of_dvd hc.symm (Nat.dvd_factorial hp.pos hn)
  exact hp.one_lt.ne' this

/-- **C49, arguments out of range.** `choose(a, r)` and `perm(a, r)` panic when `r > a`, and when `a > n`. -/
theorem C49_out_of_range {m n : Nat} {h : Bool} (hm : 1 ≤ m) (hm2 : m < 2 ^ 32) (hn : n + 1 < 2 ^ 64) (hh : HintTrue m h)
    {t : Factorial} (ht : factorialNew (.stat m h) n = ok t) {a r : Nat} (ho : a < r ∨ n < a) :
    t.choose (.stat m h) a r = panic ∧ t.perm (.stat m h) a r = panic := by
  have hmul := mul_stat (h := h) hm2
  obtain ⟨h1, h2⟩ := new_sat (k := .stat m h) rfl hmul hm hm2 hn (inv_static hm2 hh)
  have hc : Nat.Coprime (n !) m := by
    by_contra hc
    rw [h2 hc] at ht; cases ht
  obtain ⟨t', e, hr⟩ := h1 hc
  rw [ht] at e
  injection e with e
  subst e
  have hl := hr.len
  unfold Factorial.choose Factorial.perm assert
  by_cases hra : r ≤ a
  · rw [if_pos hra, ok_bind, if_neg (by omega), ok_bind]
    exact ⟨rfl, rfl⟩
  · rw [if_neg hra]
    exact ⟨rfl, rfl⟩

/-- Does `choose(a, r)` on a fresh table of size `n` return `v`? -/
def chooseIs (k : MKind) (n a r v : Nat) : Bool :=
  match factorialNew k n with
  | .ok t => t.choose k a r = ok v
  | _ => false

example : chooseIs (.stat 998244353 true) 50 50 25 927528656 = true ∧ chooseIs (.stat 11 false) 10 10 3 10 = true ∧
    chooseIs (.stat 1 false) 3 3 1 0 = true ∧ factorialNew (.stat 11 true) 11 = panic ∧
    factorialNew (.stat 7 true) 3 = ok ⟨[1, 1, 2, 6], [1, 1, 4, 6]⟩ ∧ factorialNew (.stat 4 false) 2 = panic := by
  decide +kernel

end Verif.Props
