import Verif.Proof.ReleaseMod
import Verif.Props.NumberTheory
import Verif.Props.Factorial
/-! C88, C91: number theory and modular integers in a release build. -/
namespace Verif.Props
open Model Spec Res ReleaseP NTP
open scoped Nat

/-- **C88.** `ex_gcd` in a release build, on every integer type, signed or not: it returns the greatest common divisor up
to sign (exactly, for non-negative arguments) with coefficients that satisfy Bézout's identity modulo `2^bits`. Only
`MIN`, `-1` in either order is excluded. -/
theorem C88_ex_gcd {ty : IntTy} (h1 : 1 ≤ ty.mx) {a b : Int} (ha : ty.In a) (hb : ty.In b)
    (h : ¬ (ty.signed = true ∧ ((a = ty.mn ∧ b = -1) ∨ (a = -1 ∧ b = ty.mn)))) :
    ∃ x y g, Release.exGcd ty a b = ok (x, y, g) ∧ ty.In x ∧ ty.In y ∧ g.natAbs = Int.gcd a b ∧
      (0 ≤ a → 0 ≤ b → g = Int.gcd a b) ∧ (2 : Int) ^ ty.bits ∣ a * x + b * y - g := by
  obtain ⟨x, y, g, e, hx, hy, -, hg, hg0, hd⟩ := exGcdAux_mod ty (b.natAbs + 2) a b ha hb h
    (IntTy.in_of_nonneg (by decide) h1) (by omega)
  refine ⟨x, y, g, e, hx, hy, hg, fun p q => by have := hg0 p q; rw [← hg]; omega, ?_⟩
  rwa [← md_eq]
  by_contra hc
  have : ty.bits = 0 := by omega
  unfold IntTy.mx at h1
  rw [this] at h1
  split at h1 <;> norm_num at h1

/-- C88: on a signed type the two profiles agree, also on the pair that panics. -/
theorem C88_ex_gcd_signed {ty : IntTy} (hs : ty.signed = true) (h1 : 1 ≤ ty.mx) {a b : Int} (ha : ty.In a)
    (hb : ty.In b) : Release.exGcd ty a b = exGcd ty a b := by
  by_cases h : MinNeg ty a b
  · rw [exGcd_release_minNeg h, exGcd_minNeg h]
  · obtain ⟨x, y, g, e, -⟩ := C34_ex_gcd hs h1 ha hb fun h' => h ⟨hs, h'⟩
    rw [e, (exGcd_rls ty a b).run e]

/-- C88: `lcm` of non-negative numbers in a release build panics on `(0, 0)` only, and is the least common multiple
exactly if the product of the arguments fits. So whenever the debug build panics by overflow, the release build returns a
wrong number, also if the least common multiple itself fits. -/
theorem C88_lcm {ty : IntTy} {a b : Int} (ha : ty.In a) (hb : ty.In b) (ha0 : 0 ≤ a) (hb0 : 0 ≤ b) :
    (a ≠ 0 ∨ b ≠ 0 → ∃ l, Release.lcm ty a b = ok l ∧ (l = Int.lcm a b ↔ ty.In (a * b))) ∧
    Release.lcm ty 0 0 = .panic := by
  refine ⟨lcm_wrapped ha hb ha0 hb0, ?_⟩
  unfold Release.lcm Release.ck Model.gcd
  simp [loop, IntTy.div]

/-- C88: where the debug build of `ex_crt` panics, the release build may return a number that solves nothing, `None` for a
system that has solutions, or a solution with a modulus that is not a period of the solutions. -/
theorem C88_ex_crt_wrong :
    (CongrInput [1, 2 ^ 62] [1, 1] [3, 5] ∧ exCrt [1, 2 ^ 62] [1, 1] [3, 5] = .panic ∧
      CongrSol [1, 2 ^ 62] [1, 1] [3, 5] 4 ∧
      Release.exCrt [1, 2 ^ 62] [1, 1] [3, 5] = ok (some (7, 15)) ∧ ¬ CongrSol [1, 2 ^ 62] [1, 1] [3, 5] 7) ∧
    (CongrInput [1, 2 ^ 63 - 1] [1, 1] [3, 5] ∧ exCrt [1, 2 ^ 63 - 1] [1, 1] [3, 5] = .panic ∧
      CongrSol [1, 2 ^ 63 - 1] [1, 1] [3, 5] 13 ∧ Release.exCrt [1, 2 ^ 63 - 1] [1, 1] [3, 5] = ok none) ∧
    (CongrInput [1, 1] [1, 1] [2 ^ 32, 2 ^ 32 + 1] ∧ exCrt [1, 1] [1, 1] [2 ^ 32, 2 ^ 32 + 1] = .panic ∧
      Release.exCrt [1, 1] [1, 1] [2 ^ 32, 2 ^ 32 + 1] = ok (some (1, 2 ^ 32)) ∧
      CongrSol [1, 1] [1, 1] [2 ^ 32, 2 ^ 32 + 1] 1 ∧ ¬ CongrSol [1, 1] [1, 1] [2 ^ 32, 2 ^ 32 + 1] (1 + 2 ^ 32)) := by
  unfold CongrInput CongrSol
  exact ⟨by decide +kernel, by decide +kernel, by decide +kernel⟩

/-- Unsigned: the debug build panics on `(6, 4)`; the release build gives `6 * 1 + 4 * 255 = 1026`, which is `2` modulo
`256`. -/
example : exGcd ⟨false, 8⟩ 6 4 = .panic ∧ Release.exGcd ⟨false, 8⟩ 6 4 = ok (1, 255, 2) ∧
    (2 : Int) ^ 8 ∣ 6 * 1 + 4 * 255 - 2 := by decide +kernel
/-- `lcm(200, 300) = 600` fits an `i16`; the release build returns `-55`. -/
example : Release.lcm ⟨true, 16⟩ 200 300 = ok (-55) ∧ Release.lcm i32 65536 65536 = ok 0 ∧
    Release.lcm ⟨true, 16⟩ 12 18 = ok 36 := by decide +kernel

/-- **C91.** `+` on modular integers in a release build, for every modulus below `2^32`: the right residue exactly if the
sum of the two representatives fits a `u32`; otherwise the result is still a residue below `m`, but the wrong one. -/
theorem C91_add {k : MKind} {m a b : Nat} (hk : k.modulus = m) (hm : m < 2 ^ 32) (ha : a < m) (hb : b < m) :
    ∃ c, Release.miAdd k a b = ok c ∧ c < m ∧ (c = (a + b) % m ↔ a + b < 2 ^ 32) := by
  refine ⟨_, miAdd_release hk hm ha hb, ?_⟩
  split
  · rename_i h
    exact ⟨Nat.mod_lt _ (by omega), iff_of_true rfl h⟩
  · rename_i h
    refine ⟨by omega, ?_⟩
    rw [Nat.mod_eq_sub_mod (by omega), Nat.mod_eq_of_lt (by omega)]
    omega

/-- C91: products and powers of static modular integers are right for every modulus. -/
theorem C91_mul_pow {m a b e : Nat} {h : Bool} (hm : m < 2 ^ 32) (ha : a < m) (hb : b < m) (he : e < 2 ^ 64) :
    Release.miMul (.stat m h) a b = ok (a * b % m) ∧ (2 ≤ m → Release.miPow (.stat m h) a e = ok (a ^ e % m)) :=
  ⟨(miMul_rls ..).run (MIP.mul_stat hm a b ha hb), fun h2 => miPow_release hm h2 ha he⟩

/-- C91: the inverse of a type that claims a prime modulus. For every prime below `2^32`, also those from `2^31` on,
which a debug build rejects, the release build returns the inverse of every `a ≠ 0`. -/
theorem C91_inv_hint {m a : Nat} (hp : m.Prime) (hm : m < 2 ^ 32) (ha0 : a ≠ 0) (ha : a < m) :
    ∃ y, Release.miInv (.stat m true) a = ok y ∧ y < m ∧ a * y % m = 1 :=
  ⟨_, miInv_release hm hp.two_le ha0 ha, Nat.mod_lt _ hp.pos, by rw [mul_pow_mod hp.two_le, fermat hp ha0 ha]⟩

/-- C91: if the claim is false, nothing is checked: the result is the inverse exactly if `a` passes Fermat's test. -/
theorem C91_inv_false_hint {m a : Nat} (h2 : 2 ≤ m) (hm : m < 2 ^ 32) (ha0 : a ≠ 0) (ha : a < m) :
    ∃ y, Release.miInv (.stat m true) a = ok y ∧ (a * y % m = 1 ↔ a ^ (m - 1) % m = 1) :=
  ⟨_, miInv_release hm h2 ha0 ha, by rw [mul_pow_mod h2]⟩

/-- C91: tables of factorials never add, so they are right for every prime modulus below `2^32`. -/
theorem C91_factorial {p n : Nat} {h : Bool} (hp : p.Prime) (hp2 : p < 2 ^ 32) (hn : n < p) :
    ∃ t, Release.factorialNew (.stat p h) n = ok t ∧ ∀ a r, r ≤ a → a ≤ n →
      Release.Factorial.choose t (.stat p h) a r = ok (a.choose r % p) ∧
      Release.Factorial.perm t (.stat p h) a r = ok (a.descFactorial r % p) := by
  obtain ⟨t, e, ht⟩ := factorialNew_release (h := h) hp hp2 hn
  have hmul := MIP.mul_stat (h := h) hp2
  exact ⟨t, e, fun a r hra ha => ⟨(choose_rls ..).run (FACP.choose_eq hmul hp.one_le ht hra ha),
    (perm_rls ..).run (FACP.perm_eq hmul hp.one_le ht hra ha)⟩⟩

/-- With the prime `4294967291`, the debug build panics on `4294967290 + 10` and on the inverse of `2`. -/
example : miAdd (.stat 4294967291 true) 4294967290 10 = .panic ∧
    Release.miAdd (.stat 4294967291 true) 4294967290 10 = ok 4 ∧ (4294967290 + 10) % 4294967291 = 9 ∧
    miInv (.stat 4294967291 true) 2 = .panic ∧ Release.miInv (.stat 4294967291 true) 2 = ok 2147483646 ∧
    2 * 2147483646 % 4294967291 = 1 := by
  refine ⟨by decide +kernel, by decide +kernel, by decide +kernel, by decide +kernel, by decide +kernel, by decide +kernel⟩
/-- A composite modulus that claims to be prime: `2` has the inverse `5` modulo `9`, and the release build returns `2`.
Modulo the Carmichael number `561` the inverse is right. -/
example : Release.miInv (.stat 9 true) 2 = ok 2 ∧ miInv (.stat 9 true) 2 = .panic ∧
    Release.miInv (.stat 561 true) 2 = ok 281 ∧ 2 * 281 % 561 = 1 := by decide +kernel
end Verif.Props
