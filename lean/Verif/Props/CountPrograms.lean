import Verif.Props.ModRuns
import Mathlib.Combinatorics.Enumerative.DyckWord
import Mathlib.Combinatorics.Derangements.Finite
import Mathlib.Data.Sym.Card
/-! C125: programs that count with `Factorial` and modular integers: balanced words, selections with repetition, derangements. -/
namespace Verif.Props
open Res Model Spec MIP

/-! The programs are a user's, around `choose` and `perm` of /repo/src/math/factorial.rs:26-36 and `+`, `-` of the modular
integers. -/

/-- `f.choose(2 * n, n) - f.choose(2 * n, n + 1)`. -/
def catalanMod (k : MKind) (t : Factorial) (n : Nat) : Res Nat := do
  let u ← t.choose k (2 * n) n
  let v ← t.choose k (2 * n) (n + 1)
  miSub k u v

/-- `f.choose(n + r - 1, r)`. -/
def multisetsMod (k : MKind) (t : Factorial) (n r : Nat) : Res Nat := t.choose k (n + r - 1) r

/-- `for i in 0..=n { if i % 2 == 0 { acc += f.perm(n, n - i) } else { acc -= f.perm(n, n - i) } }`. -/
def derangementsMod (k : MKind) (t : Factorial) (n : Nat) : Res Nat :=
  forRange 0 (n + 1) 0 fun i acc => do
    let x ← t.perm k n (n - i)
    if i % 2 = 0 then miAdd k acc x else miSub k acc x

theorem catalan_choose (n : Nat) : (2 * n).choose (n + 1) + catalan n = (2 * n).choose n := by
  have h1 := succ_mul_catalan_eq_centralBinom n
  have h2 := Nat.choose_succ_right_eq (2 * n) n
  rw [Nat.centralBinom] at h1
  rw [show 2 * n - n = n by omega] at h2
  refine Nat.eq_of_mul_eq_mul_left (Nat.succ_pos n) ?_
  rw [Nat.mul_add, Nat.succ_eq_add_one, h1, Nat.mul_comm, h2]
  ring

theorem asc_eq_desc {n k : Nat} (h : k ≤ n) : (k + 1).ascFactorial (n - k) = n.descFactorial (n - k) := by
  refine Nat.eq_of_mul_eq_mul_left (Nat.factorial_pos k) ?_
  have h1 := Nat.factorial_mul_ascFactorial k (n - k)
  have h2 := Nat.factorial_mul_descFactorial (n := n) (k := n - k) (by omega)
  rw [show n - (n - k) = k by omega] at h2
  rw [h1, h2, show k + (n - k) = n by omega]

theorem eq_mod_of_zmod {p r c : Nat} (hr : r < p) (h : (r : ZMod p) = (c : ZMod p)) : r = c % p := by
  rw [ZMod.natCast_eq_natCast_iff'] at h
  rwa [Nat.mod_eq_of_lt hr] at h

variable {p N : Nat} {h : Bool} {t : Factorial}

/-- **C125, balanced words.** With a table up to `2 * n`, the difference of two binomial coefficients is the number of balanced
words of `n` opening and `n` closing brackets, modulo `p`. -/
theorem C125_balanced (hp : p.Prime) (hp2 : p < 2 ^ 31) (hN : N < p) (ht : factorialNew (.stat p h) N = ok t) {n : Nat}
    (hn : 1 ≤ n) (hn2 : 2 * n ≤ N) :
    catalanMod (.stat p h) t n = ok (Fintype.card { w : DyckWord // w.semilength = n } % p) := by
  have hc := choose_of_new hp hp2 hN ht
  have hk : KOk (.stat p h) p := .inl ⟨h, rfl⟩
  rw [catalanMod, (hc (2 * n) n (by omega) hn2).1, ok_bind, (hc (2 * n) (n + 1) (by omega) hn2).1, ok_bind,
    DyckWord.card_dyckWord_semilength_eq_catalan]
  obtain ⟨r, e, hr, hz⟩ := (C43_zmod hk (by omega) (Nat.mod_lt ((2 * n).choose n) hp.pos)
    (Nat.mod_lt ((2 * n).choose (n + 1)) hp.pos)).2.1
  rw [e]
  congr 1
  refine eq_mod_of_zmod hr ?_
  rw [hz, ZMod.natCast_mod, ZMod.natCast_mod, ← catalan_choose n, Nat.cast_add]
  ring

/-- **C125, selections with repetition.** `choose(n + r - 1, r)` is the number of multisets of `r` things out of `n`. -/
theorem C125_multisets (hp : p.Prime) (hp2 : p < 2 ^ 31) (hN : N < p) (ht : factorialNew (.stat p h) N = ok t) {n r : Nat}
    (hn : 1 ≤ n) (hn2 : n + r - 1 ≤ N) :
    multisetsMod (.stat p h) t n r = ok (Fintype.card (Sym (Fin n) r) % p) := by
  have hc := choose_of_new hp hp2 hN ht
  rw [multisetsMod, (hc (n + r - 1) r (by omega) hn2).1, Sym.card_sym_eq_choose, Fintype.card_fin]

/-- **C125, derangements.** The alternating sum of `perm(n, n - i)` is the number of permutations of `n` things without a fixed
point, modulo `p`. -/
theorem C125_derangements (hp : p.Prime) (hp2 : p < 2 ^ 31) (hN : N < p) (ht : factorialNew (.stat p h) N = ok t) {n : Nat}
    (hn : n ≤ N) :
    derangementsMod (.stat p h) t n = ok (Fintype.card (derangements (Fin n)) % p) := by
  have hc := choose_of_new hp hp2 hN ht
  have hk : KOk (.stat p h) p := .inl ⟨h, rfl⟩
  have : Sat (derangementsMod (.stat p h) t n) (fun acc => acc < p ∧
      (acc : ZMod p) = ∑ i ∈ Finset.range (n + 1), (-1) ^ i * (n.descFactorial (n - i) : ZMod p)) := by
    refine forRange_sat (fun j acc => acc < p ∧
      (acc : ZMod p) = ∑ i ∈ Finset.range j, (-1) ^ i * (n.descFactorial (n - i) : ZMod p)) (Nat.zero_le _)
      ⟨hp.pos, by simp⟩ ?_
    rintro i acc - hi ⟨h1, h2⟩
    rw [(hc n (n - i) (by omega) hn).2, ok_bind]
    obtain ⟨⟨r, e, hr, hz⟩, ⟨r', e', hr', hz'⟩, -⟩ := C43_zmod hk (by omega) h1
      (Nat.mod_lt (n.descFactorial (n - i)) hp.pos)
    rw [ZMod.natCast_mod] at hz hz'
    by_cases hpar : i % 2 = 0
    · rw [if_pos hpar, e, sat_ok]
      refine ⟨hr, ?_⟩
      rw [hz, h2, Finset.sum_range_succ, (Nat.even_iff.2 hpar).neg_one_pow, one_mul]
    · rw [if_neg hpar, e', sat_ok]
      refine ⟨hr', ?_⟩
      rw [hz', h2, Finset.sum_range_succ, (Nat.odd_iff.2 (by omega)).neg_one_pow]
      ring
  obtain ⟨acc, e, h1, h2⟩ := this
  rw [e]
  congr 1
  refine eq_mod_of_zmod h1 ?_
  rw [h2, card_derangements_fin_eq_numDerangements]
  have h3 := congrArg (Int.cast : Int → ZMod p) (numDerangements_sum n)
  push_cast at h3
  rw [h3]
  refine Finset.sum_congr rfl fun i hi => ?_
  rw [Finset.mem_range] at hi
  rw [asc_eq_desc (by omega)]

/-- A prime that is larger than the table but smaller than some of the counts. -/
example : Nat.Prime 11 ∧
    (do let t ← factorialNew (.stat 11 true) 10; catalanMod (.stat 11 true) t 5) = ok (42 % 11) ∧
    (do let t ← factorialNew (.stat 11 true) 10; multisetsMod (.stat 11 true) t 4 3) = ok (20 % 11) ∧
    (do let t ← factorialNew (.stat 11 true) 10; derangementsMod (.stat 11 true) t 5) = ok (44 % 11) ∧
    (do let t ← factorialNew (.stat 11 true) 10; derangementsMod (.stat 11 true) t 6) = ok (265 % 11) :=
  ⟨by decide, by decide +kernel, by decide +kernel, by decide +kernel, by decide +kernel⟩

end Verif.Props
