import Verif.Proof.ModintText
import Verif.Proof.ModintConc
import Mathlib.Data.ZMod.Basic
/-! Theorems about `/repo/src/misc/modint.rs` (C42–C48). `MIP.KOk k m`: `k` is a static kind with modulus `m`,
with or without the prime hint, or a dynamic one after `set_modulus(m)`. -/
namespace Verif.Props
open Model Res Spec NTP IMP MIP

/-- **C42.** For every primitive integer type and every value `v` of it, `new(v)` is the representative of `v`
in `[0, m)`, for every modulus that is a non-zero `u32`. -/
theorem C42_new {k : MKind} {m : Nat} (hk : KOk k m) (hm : 1 ≤ m) (hm2 : m < 2 ^ 32) {ty : IntTy}
    (hty : ty ∈ IntTy.all) {v : Int} (hv : ty.In v) :
    ∃ r : Nat, miNew k ty v = ok r ∧ r < m ∧ (m : Int) ∣ v - r := by
  have h1 := Int.emod_nonneg v (b := (m : Int)) (by omega)
  have h2 := Int.emod_lt_of_pos v (b := (m : Int)) (by omega)
  refine ⟨(v % m).toNat, ?_, by omega, ?_⟩
  · unfold miNew
    rw [hk.modulus hm]
    exact remEuclidU32_eq hty hv hm hm2
  · rw [Int.toNat_of_nonneg h1]
    exact Int.dvd_self_sub_emod

/-- **C42, modulus 0.** `set_modulus(0)` panics, and so does `new` for a static modulus `0`. -/
theorem C42_zero (h : Bool) {ty : IntTy} (v : Int) : setModulus 0 = panic ∧ miNew (.stat 0 h) ty v = panic := by
  refine ⟨rfl, ?_⟩
  simp only [miNew, remEuclidU32, MKind.modulus, remEuclid, IntTy.rem, remU]
  split
  · split <;> rfl
  · split <;> rfl

example : miNew (.stat 998244353 true) ⟨true, 128⟩ (-170141183460469231731687303715884105728) = ok 848464321 ∧
    miNew (.stat 4294967295 false) ⟨false, 8⟩ 255 = ok 255 ∧ miNew (.stat 7 false) ⟨true, 8⟩ (-128) = ok 5 ∧
    (setModulus 10 >>= fun b => miNew (.dyn b) ⟨false, 64⟩ 18446744073709551615) = ok 5 := by decide +kernel

/-- **C43.** For `1 ≤ m ≤ 2^31` and canonical operands, `+`, `-`, unary `-` and `*` give the canonical
representative of the integer result; nothing panics. -/
theorem C43_ring_ops {k : MKind} {m : Nat} (hk : KOk k m) (hm2 : m ≤ 2 ^ 31) {a b : Nat} (ha : a < m) (hb : b < m) :
    miAdd k a b = ok ((a + b) % m) ∧
    (∃ r : Nat, miSub k a b = ok r ∧ r < m ∧ (m : Int) ∣ ((a : Int) - b) - r) ∧
    (∃ r : Nat, miNeg k a = ok r ∧ r < m ∧ (m : Int) ∣ (-(a : Int)) - r) ∧
    miMul k a b = ok (a * b % m) := by
  have e := hk.modulus (by omega)
  have hs : ∀ x y : Nat, x < m → y < m →
      ∃ r : Nat, miSub k x y = ok r ∧ r < m ∧ (m : Int) ∣ ((x : Int) - y) - r := by
    intro x y hx hy
    refine ⟨_, sub_eq e (by omega) hx hy (by omega), Nat.mod_lt _ (by omega), ?_⟩
    have h1 : (x : Int) - y - (((x + (m - y)) % m : Nat) : Int) =
        ((x + (m - y) : Nat) : Int) - (((x + (m - y) : Nat) : Int)) % (m : Int) - m := by
      push_cast [Nat.le_of_lt hy]; ring
    rw [h1]
    exact Dvd.dvd.sub Int.dvd_self_sub_emod (Int.dvd_refl _)
  refine ⟨add_eq e ha hb (by omega), hs a b ha hb, ?_, mul_ok hk hm2 a b ha hb⟩
  obtain ⟨r, h1, h2, h3⟩ := hs 0 a (by omega) ha
  refine ⟨r, h1, h2, ?_⟩
  simpa using h3

/-- **C43, the ring ℤ/m.** The operations are those of `ZMod m`, canonical values standing for its elements one
to one; so every ring law holds for them. -/
theorem C43_zmod {k : MKind} {m : Nat} (hk : KOk k m) (hm2 : m ≤ 2 ^ 31) {a b : Nat} (ha : a < m) (hb : b < m) :
    (∃ r, miAdd k a b = ok r ∧ r < m ∧ (r : ZMod m) = a + b) ∧
    (∃ r, miSub k a b = ok r ∧ r < m ∧ (r : ZMod m) = a - b) ∧
    (∃ r, miNeg k a = ok r ∧ r < m ∧ (r : ZMod m) = -a) ∧
    (∃ r, miMul k a b = ok r ∧ r < m ∧ (r : ZMod m) = a * b) ∧
    ((a : ZMod m) = b → a = b) := by
  obtain ⟨h1, ⟨s, h2, h3, h4⟩, ⟨n, h5, h6, h7⟩, h8⟩ := C43_ring_ops hk hm2 ha hb
  have key : ∀ (z : Int) (r : Nat), (m : Int) ∣ z - r → (r : ZMod m) = (z : ZMod m) := by
    intro z r h
    have := (ZMod.intCast_zmod_eq_zero_iff_dvd (z - r) m).2 h
    push_cast at this
    exact (sub_eq_zero.1 this).symm
  refine ⟨⟨_, h1, Nat.mod_lt _ (by omega), by simp⟩, ⟨s, h2, h3, ?_⟩, ⟨n, h5, h6, ?_⟩,
    ⟨_, h8, Nat.mod_lt _ (by omega), by simp⟩, fun h => ?_⟩
  · have := key _ _ h4; push_cast at this; exact this
  · have := key _ _ h7; push_cast at this; exact this
  · have := (ZMod.natCast_eq_natCast_iff' a b m).1 h
    rwa [Nat.mod_eq_of_lt ha, Nat.mod_eq_of_lt hb] at this

/-- **C43, large moduli.** For every `u32` modulus, `+` on canonical operands is exact when the sum fits `u32`
and panics otherwise; `-` is exact when `b - a ≤ 2^32 - m` and returns a canonical but wrong value otherwise;
`*` of a static kind is exact. -/
theorem C43_any_modulus {k : MKind} {m : Nat} (hk : KOk k m) (hm2 : m < 2 ^ 32) {a b : Nat} (ha : a < m) (hb : b < m) :
    (a + b < 2 ^ 32 → miAdd k a b = ok ((a + b) % m)) ∧ (2 ^ 32 ≤ a + b → miAdd k a b = panic) ∧
    (b ≤ a + (2 ^ 32 - m) → miSub k a b = ok ((a + (m - b)) % m)) ∧
    (a + (2 ^ 32 - m) < b → miSub k a b = ok (a + (2 ^ 32 - b)) ∧ a + (2 ^ 32 - b) < m ∧
      a + (2 ^ 32 - b) ≠ (a + (m - b)) % m) ∧
    (∀ h, k = .stat m h → miMul k a b = ok (a * b % m)) := by
  have e := hk.modulus (by omega)
  refine ⟨add_eq e ha hb, fun h => ?_, sub_eq e hm2 ha hb, fun h => ⟨?_, by omega, ?_⟩, fun h hk => ?_⟩
  · unfold miAdd addU
    rw [if_neg (by omega)]
    rfl
  · unfold miSub wsubU
    rw [e]
    simp only []
    rw [Nat.mod_eq_of_lt (a := b) (by omega), Nat.mod_eq_of_lt (a := a + (2 ^ 32 - b)) (by omega), if_neg (by omega)]
  · rw [Nat.mod_eq_of_lt (by omega)]
    omega
  · rw [hk]
    exact mul_stat hm2 a b ha hb

example : KOk (.stat 998244353 true) 998244353 ∧ KOk (.dyn barrettDefault) 998244353 ∧
    (setModulus 2147483648 >>= fun b => miAdd (.dyn b) 2147483647 2147483647) = ok 2147483646 ∧
    (setModulus 2147483648 >>= fun b => miSub (.dyn b) 0 2147483647) = ok 1 ∧
    (setModulus 2147483648 >>= fun b => miMul (.dyn b) 2147483647 2147483647) = ok 1 ∧
    miNeg (.stat 7 false) 0 = ok 0 ∧ miNeg (.stat 7 false) 3 = ok 4 ∧
    (setModulus 4294967291 >>= fun b => miAdd (.dyn b) 4294967290 6) = panic ∧
    (setModulus 4294967291 >>= fun b => miSub (.dyn b) 0 6) = ok 4294967290 ∧
    (0 + (4294967291 - 6)) % 4294967291 = 4294967285 := by
  exact ⟨.inl ⟨true, rfl⟩, .inr ⟨barrettDefault, by decide +kernel, rfl⟩, by decide +kernel⟩

/-- **C44 (full statement, false of the code).** `pow(x, n)` is `x^n mod m` for every `n : u64` and
`1 ≤ m ≤ 2^31`. -/
def C44_statement : Prop := ∀ (k : MKind) (m x n : Nat), KOk k m → 1 ≤ m → m ≤ 2 ^ 31 → x < m → n < 2 ^ 64 →
  miPow k x n = ok (x ^ n % m)

/-- **C44 is false**: modulo `1`, `pow(0)` returns `raw(1)`, which is not canonical. -/
theorem C44_false : ¬ C44_statement := by
  intro h
  exact absurd (h (.stat 1 false) 1 0 0 (.inl ⟨false, rfl⟩) (by omega) (by omega) (by omega) (by omega)) (by decide +kernel)

/-- **C44 (partial: `m = 1` with `n = 0` left out, where the result is `1`).** In all other cases `pow(x, n)` is
`x^n mod m`. -/
theorem C44_pow_partial {k : MKind} {m x n : Nat} (hk : KOk k m) (hm2 : m ≤ 2 ^ 31) (hx : x < m) (hn : n < 2 ^ 64) :
    (2 ≤ m ∨ n ≠ 0 → miPow k x n = ok (x ^ n % m)) ∧ (m = 1 → n = 0 → miPow k x n = ok 1) := by
  have key : m = 1 → miPow k x n = ok (if n = 0 then 1 else 0) := by
    intro h
    subst h
    have : x = 0 := by omega
    subst this
    exact powLoop_one (mul_ok hk hm2) (mul_one_zero hk) 64 n 1 hn (by omega)
  constructor
  · intro h
    by_cases hm : 2 ≤ m
    · exact pow_eq (mul_ok hk hm2) hm hx hn
    · have hm1 : m = 1 := by omega
      rw [key hm1, if_neg (by omega), hm1, Nat.mod_one]
  · intro h h2
    rw [key h, if_pos h2]

example : miPow (.stat 998244353 true) 3 18446744073709551615 = ok 199532545 ∧
    (setModulus 2147483648 >>= fun b => miPow (.dyn b) 5 12345678901) = ok 184759413 ∧
    miPow (.stat 10 false) 0 0 = ok 1 ∧ miPow (.stat 1 false) 0 0 = ok 1 ∧ miPow (.stat 1 false) 0 1 = ok 0 := by
  decide +kernel

/-- Kinds whose `inv` takes the gcd path: no prime hint, or dynamic. -/
def GcdPath : MKind → Prop
  | .stat _ h => h = false
  | .dyn _ => True

/-- **C45, gcd path.** For every `u32` modulus `m ≥ 1` and canonical `a`: `inv` returns the canonical inverse
when `gcd(a, m) = 1` and panics otherwise. -/
theorem C45_inv {k : MKind} {m a : Nat} (hk : KOk k m) (hg : GcdPath k) (hm2 : m < 2 ^ 32) (ha : a < m) :
    (Nat.gcd a m = 1 → ∃ y, miInv k a = ok y ∧ y < m ∧ a * y % m = 1 % m) ∧ (Nat.gcd a m ≠ 1 → miInv k a = panic) := by
  have e : miInv k a = miInvGcd k a := by
    rcases k with ⟨v, h⟩ | bt
    · have : h = false := hg
      subst this
      rfl
    · rfl
  rw [e]
  exact invGcd_path (hk.modulus (by omega)) (by omega) hm2 (by omega)

/-- **C45, prime-hinted static moduli.** With the hint set truthfully (`m` a prime below `2^31`), `inv` returns the
canonical inverse of every `a ≠ 0` and panics for `0`. For any other `m` it panics. -/
theorem C45_inv_hint {m a : Nat} (ha : a < m) :
    (m.Prime → m < 2 ^ 31 → a ≠ 0 → ∃ y, miInv (.stat m true) a = ok y ∧ y < m ∧ a * y % m = 1) ∧
    miInv (.stat m true) 0 = panic ∧ (¬ (m.Prime ∧ m < 2 ^ 31) → miInv (.stat m true) a = panic) :=
  ⟨fun hp h1 h2 => inv_hint hp h1 h2 ha, rfl, inv_hint_composite⟩

/-- **C45, both paths together.** For every `u32` modulus, and the prime hint only on primes below `2^31`: `inv(a)`
returns the canonical inverse when `gcd(a, m) = 1`, and panics otherwise. -/
theorem C45_inv_all {k : MKind} {m a : Nat} (hk : KOk k m) (hm2 : m < 2 ^ 32)
    (hh : k = .stat m true → m.Prime ∧ m < 2 ^ 31) (ha : a < m) :
    (Nat.gcd a m = 1 → ∃ y, miInv k a = ok y ∧ y < m ∧ a * y % m = 1 % m) ∧ (Nat.gcd a m ≠ 1 → miInv k a = panic) := by
  by_cases hkt : k = .stat m true
  · obtain ⟨hp, hlt⟩ := hh hkt
    subst hkt
    by_cases ha0 : a = 0
    · subst ha0
      exact ⟨fun h => absurd h (by rw [Nat.gcd_zero_left]; exact hp.one_lt.ne'), fun _ => rfl⟩
    · obtain ⟨y, h1, h2, h3⟩ := inv_hint hp hlt ha0 ha
      refine ⟨fun _ => ⟨y, h1, h2, by rw [h3, Nat.mod_eq_of_lt hp.one_lt]⟩, fun h => absurd ?_ h⟩
      exact (Nat.Coprime.symm ((Nat.Prime.coprime_iff_not_dvd hp).2 (Nat.not_dvd_of_pos_of_lt (by omega) ha)))
  · refine C45_inv hk ?_ hm2 ha
    rcases hk with ⟨h, rfl⟩ | ⟨bt, _, rfl⟩
    · cases h
      · rfl
      · exact absurd rfl hkt
    · trivial

/-- **C45, division.** When `b` is invertible, `a / b` is the canonical `q` with `q * b = a`; otherwise `/` panics. -/
theorem C45_div {k : MKind} {m a b : Nat} (hk : KOk k m) (hm2 : m ≤ 2 ^ 31)
    (hh : k = .stat m true → m.Prime ∧ m < 2 ^ 31) (ha : a < m) (hb : b < m) :
    (Nat.gcd b m = 1 → ∃ q, miDiv k a b = ok q ∧ q < m ∧ miMul k q b = ok a) ∧
    (Nat.gcd b m ≠ 1 → miDiv k a b = panic) := by
  obtain ⟨h1, h2⟩ := C45_inv_all hk (by omega) hh hb
  constructor
  · intro hg
    obtain ⟨y, e, hy, hy2⟩ := h1 hg
    refine ⟨a * y % m, ?_, Nat.mod_lt _ (by omega), ?_⟩
    · unfold miDiv
      rw [e, ok_bind, mul_ok hk hm2 a y ha hy]
    · rw [mul_ok hk hm2 _ b (Nat.mod_lt _ (by omega)) hb]
      congr 1
      rw [Nat.mul_mod, Nat.mod_mod, ← Nat.mul_mod, Nat.mul_assoc, Nat.mul_comm y b, Nat.mul_mod, hy2,
        ← Nat.mul_mod, Nat.mul_one, Nat.mod_eq_of_lt ha]
  · intro hg
    unfold miDiv
    rw [h2 hg]
    rfl

example : miInv (.stat 998244353 true) 3 = ok 332748118 ∧ miInv (.stat 998244353 false) 3 = ok 332748118 ∧
    miInv (.stat 10 false) 4 = panic ∧ miInv (.stat 10 true) 3 = panic ∧
    (setModulus 2147483648 >>= fun b => miInv (.dyn b) 3) = ok 715827883 ∧
    (setModulus 10 >>= fun b => miDiv (.dyn b) 4 7) = ok 2 ∧ miDiv (.stat 10 false) 4 5 = panic := by decide +kernel

/-- **C46 (full statement, false of the code).** `sum` and `product` of canonical values are the integer sum and
product reduced mod `m`. -/
def C46_statement : Prop := ∀ (k : MKind) (m : Nat) (l : List Nat), KOk k m → 1 ≤ m → m ≤ 2 ^ 31 → (∀ x ∈ l, x < m) →
  miSum k l = ok (l.sum % m) ∧ miProduct k l = ok (l.prod % m)

/-- **C46 is false**: modulo `1`, the empty product is `raw(1)`. -/
theorem C46_false : ¬ C46_statement := by
  intro h
  have := (h (.stat 1 false) 1 [] (.inl ⟨false, rfl⟩) (by omega) (by omega) (by simp)).2
  exact absurd this (by decide +kernel)

/-- **C46, `sum`.** -/
theorem C46_sum {k : MKind} {m : Nat} {l : List Nat} (hk : KOk k m) (hm : 1 ≤ m) (hm2 : m ≤ 2 ^ 31)
    (hl : ∀ x ∈ l, x < m) : miSum k l = ok (l.sum % m) := by
  unfold miSum
  rw [sum_eq (hk.modulus hm) hm2 l 0 (by omega) hl, Nat.zero_add]

/-- **C46, `product` (partial: the empty product modulo `1` left out).** -/
theorem C46_product_partial {k : MKind} {m : Nat} {l : List Nat} (hk : KOk k m) (hm : 1 ≤ m) (hm2 : m ≤ 2 ^ 31)
    (hl : ∀ x ∈ l, x < m) (h1 : 2 ≤ m ∨ l ≠ []) : miProduct k l = ok (l.prod % m) := by
  unfold miProduct
  by_cases h2 : 2 ≤ m
  · rw [prod_eq (mul_ok hk hm2) l 1 (by omega) hl, Nat.one_mul]
  · have hm1 : m = 1 := by omega
    subst hm1
    rcases l with _ | ⟨x, l⟩
    · simp at h1
    · have hx : x = 0 := by have := hl x (by simp); omega
      subst hx
      simp only [foldRes]
      rw [mul_one_zero hk, ok_bind, prod_eq (mul_ok hk hm2) l 0 (by omega) (fun y hy => hl y (by simp [hy]))]
      simp

example : miSum (.stat 10 false) [9, 9, 9, 4] = ok 1 ∧ miProduct (.stat 10 false) [9, 9, 9, 4] = ok 6 ∧
    (setModulus 2147483648 >>= fun b => miSum (.dyn b) [2147483647, 2147483647, 2147483647]) = ok 2147483645 ∧
    miSum (.stat 1 false) [] = ok 0 ∧ miProduct (.stat 1 false) [] = ok 1 := by decide +kernel

/-- The memory of a `Barrett` set up for modulus `m`. -/
abbrev barrettFor (m : Nat) : Barrett := ⟨m, waddU 64 ((2 ^ 64 - 1) / m) 1⟩

/-- **C47 (full statement, false of the code).** If every `set_modulus` call has completed before a
multiplication starts, then every product is exact for the modulus in force, under every schedule. -/
def C47_statement : Prop := ∀ (m₀ : Nat) (progs : List (List MOp)) (sched : List Nat), 1 ≤ m₀ →
  SetsBeforeProducts (MSys.start (barrettFor m₀) progs) sched →
  ProductsExact m₀ ((MSys.start (barrettFor m₀) progs).run sched).log

/-- The log of a run in which two `set_modulus` calls overlap and both end before a product begins: the product
`6 * 6` comes out as `43`, which is right neither modulo `7` nor modulo `1000000007`. -/
theorem C47_overlapping_sets :
    ((MSys.start (barrettFor 998244353) [[.set 1000000007], [.set 7], [.mul 6 6]]).run [0, 1, 1, 0, 2, 2]).log =
      [.mul 6 6 (ok 43), .set 1000000007, .set 7] := by decide +kernel

/-- **C47 is false**: two `set_modulus` calls overlap, both end, and a product computed after that is wrong:
`m` is that of the one call and the reciprocal that of the other. -/
theorem C47_false : ¬ C47_statement := by
  intro h
  have h := h 998244353 [[.set 1000000007], [.set 7], [.mul 6 6]] [0, 1, 1, 0, 2, 2] (by omega) (by
    simp [SetsBeforeProducts, MSys.start, MSys.step, NoSetRunning])
  rw [C47_overlapping_sets] at h
  have := h [] 6 6 (ok 43) [.set 1000000007, .set 7] rfl (by decide) (by decide) (by decide)
  exact absurd this (by decide +kernel)

/-- **C47 (partial: `set_modulus` calls must not overlap one another either).** Whatever the threads do: if a
`set_modulus` begins only while no call is running and a multiplication only while no `set_modulus` is running,
then under every schedule of the single loads and stores every product is exact for the modulus in force. -/
theorem C47_sets_apart_partial {m₀ : Nat} {progs : List (List MOp)} {sched : List Nat}
    (h : SetsApart (MSys.start (barrettFor m₀) progs) sched) :
    ProductsExact m₀ ((MSys.start (barrettFor m₀) progs).run sched).log :=
  (MCP.run_inv sched _ MCP.start_inv h).exact

/-- **C47, the documented use.** One thread alone has set the modulus, as often as it likes; after that any
number of threads multiply, in any interleaving: every product is exact for the modulus in force. -/
theorem C47_set_then_multiply {m₀ i n : Nat} {progs : List (List MOp)} {sched : List Nat}
    (h : ∀ t ∈ ((MSys.start (barrettFor m₀) progs).run (List.replicate n i)).threads,
      (∀ m, t.pc ≠ .stored m) ∧ ∀ m, MOp.set m ∉ t.todo) :
    ProductsExact m₀ ((MSys.start (barrettFor m₀) progs).run (List.replicate n i ++ sched)).log := by
  have h1 : SetsApart (MSys.start (barrettFor m₀) progs) (List.replicate n i) :=
    MCP.alone_apart i n _ (fun j t ht _ => MCP.start_idle t (List.mem_of_getElem? ht))
  have h2 := MCP.run_inv _ _ (MCP.start_inv (m₀ := m₀) (progs := progs)) h1
  have h3 := MCP.run_inv sched _ h2 (MCP.noSets_apart sched _ h)
  have e : (MSys.start (barrettFor m₀) progs).run (List.replicate n i ++ sched) =
      ((MSys.start (barrettFor m₀) progs).run (List.replicate n i)).run sched := List.foldl_append ..
  rw [e]
  exact h3.exact

/-- **C47, before any `set_modulus`.** The initial contents of the cells are those for `998244353`, so that all the
theorems on a modulus that has been set hold for a program that never calls `set_modulus`. -/
theorem C47_default : barrettDefault = barrettFor 998244353 ∧ KOk (.dyn barrettDefault) 998244353 ∧
    ∀ (progs : List (List MOp)) (sched : List Nat), SetsApart (MSys.start barrettDefault progs) sched →
      ProductsExact 998244353 ((MSys.start barrettDefault progs).run sched).log :=
  ⟨rfl, .inr ⟨_, by decide +kernel, rfl⟩, fun _ _ h => C47_sets_apart_partial (m₀ := 998244353) h⟩

theorem alone_aux (prog : List MOp) (mem : Barrett) (log : List MEvent) (k : Nat) (hk : 2 * prog.length ≤ k) :
    ((⟨mem, [⟨.idle, prog⟩], log⟩ : MSys).run (List.replicate k 0)).log = (aloneRun mem prog).1.reverse ++ log ∧
    ((⟨mem, [⟨.idle, prog⟩], log⟩ : MSys).run (List.replicate k 0)).mem = (aloneRun mem prog).2 := by
  have stop : ∀ (mem : Barrett) (log : List MEvent) (k : Nat),
      (⟨mem, [⟨.idle, []⟩], log⟩ : MSys).run (List.replicate k 0) = ⟨mem, [⟨.idle, []⟩], log⟩ := by
    intro mem log k
    induction k with
    | zero => rfl
    | succ k ih => rw [List.replicate_succ]; exact ih
  induction prog generalizing mem log k with
  | nil => rw [stop]; simp [aloneRun]
  | cons op ops ih =>
    simp only [List.length_cons] at hk
    obtain ⟨k, rfl⟩ : ∃ j, k = j + 2 := ⟨k - 2, by omega⟩
    cases op with
    | set m =>
      by_cases hm : m = 0
      · subst hm
        have e : (⟨mem, [⟨.idle, .set 0 :: ops⟩], log⟩ : MSys).run (List.replicate (k + 2) 0) =
            (⟨mem, [⟨.idle, []⟩], log⟩ : MSys).run (List.replicate (k + 1) 0) := rfl
        rw [e, stop]
        simp [aloneRun, setModulus]
      · have e : (⟨mem, [⟨.idle, .set m :: ops⟩], log⟩ : MSys).run (List.replicate (k + 2) 0) =
            (⟨barrettFor m, [⟨.idle, ops⟩], .set m :: log⟩ : MSys).run (List.replicate k 0) := by
          simp [MSys.run, List.replicate_succ, MSys.step, hm, barrettFor]
        have h := ih (barrettFor m) (.set m :: log) k (by omega)
        have es : setModulus m = ok (barrettFor m) := by
          simp [setModulus, barrettUpdate, hm, barrettFor]
        rw [e, h.1, h.2]
        simp [aloneRun, es]
    | mul a b =>
      have e : (⟨mem, [⟨.idle, .mul a b :: ops⟩], log⟩ : MSys).run (List.replicate (k + 2) 0) =
          (⟨mem, [⟨.idle, ops⟩], .mul a b (miMul (.dyn mem) a b) :: log⟩ : MSys).run (List.replicate k 0) := rfl
      have h := ih mem (.mul a b (miMul (.dyn mem) a b) :: log) k (by omega)
      rw [e, h.1, h.2]
      simp [aloneRun]

/-- **C47, one thread.** A thread alone does what the sequential `set_modulus` and `mul` do: every call ends within
two steps, `set_modulus(0)` ends the thread without a store, and no other call does. -/
theorem C47_alone (mem : Barrett) (prog : List MOp) (k : Nat) (hk : 2 * prog.length ≤ k) :
    ((MSys.start mem [prog]).run (List.replicate k 0)).log = (aloneRun mem prog).1.reverse ∧
    ((MSys.start mem [prog]).run (List.replicate k 0)).mem = (aloneRun mem prog).2 := by
  have := alone_aux prog mem [] k hk
  simpa [MSys.start] using this

example : aloneRun barrettDefault [.set 1, .mul 0 0, .set 7, .mul 6 6, .set 0, .mul 6 6] =
    ([.set 1, .mul 0 0 (ok 0), .set 7, .mul 6 6 (ok 1)], barrettFor 7) := by decide +kernel

/-- **C47, without the constraint.** A multiplication between the two stores of a `set_modulus` pairs the new `m`
with the old reciprocal and returns a value that is wrong for the new and for the old modulus. -/
theorem C47_torn_read :
    ((MSys.start barrettDefault [[.set 7], [.mul 6 6]]).run [0, 1, 1, 0]).log = [.set 7, .mul 6 6 (ok 43)] ∧
      6 * 6 % 7 = 1 ∧ 6 * 6 % 998244353 = 36 := by decide +kernel

example : SetsApart (MSys.start barrettDefault [[.set 10, .set 1000000007, .mul 123456789 987654321], [.mul 1000000006 1000000006]])
      ([0, 0, 0, 0] ++ [1, 0, 0, 1]) ∧
    ((MSys.start barrettDefault [[.set 10, .set 1000000007, .mul 123456789 987654321], [.mul 1000000006 1000000006]]).run
      ([0, 0, 0, 0] ++ [1, 0, 0, 1])).log =
      [.mul 1000000006 1000000006 (ok 1), .mul 123456789 987654321 (ok 259106859), .set 1000000007, .set 10] := by
  constructor
  · simp [SetsApart, MSys.start, MSys.step, NoSetRunning, AllIdle]
  · decide +kernel

/-- **C48.** Parsing accepts exactly the signed decimal texts of `i64` values, and gives `new` of the value;
any other text panics. -/
theorem C48_parse {k : MKind} {m : Nat} (hk : KOk k m) (hm : 1 ≤ m) (hm2 : m < 2 ^ 32) (s : List Char) :
    (∀ v, IntText true s v → i64.In v →
      ∃ r : Nat, miFromStr k s = ok r ∧ miNew k i64 v = ok r ∧ r < m ∧ (m : Int) ∣ v - r) ∧
    ((∀ v, IntText true s v → ¬ i64.In v) → miFromStr k s = panic) := by
  constructor
  · intro v h1 h2
    obtain ⟨r, h3, h4, h5⟩ := C42_new hk hm hm2 (ty := i64) (by decide) h2
    refine ⟨r, ?_, h3, h4, h5⟩
    unfold miFromStr
    rw [(parseInt_iff i64 s v).2 ⟨h1, h2⟩]
    exact h3
  · intro h
    unfold miFromStr
    cases e : parseInt i64 s with
    | none => rfl
    | some v => exact absurd ((parseInt_iff i64 s v).1 e).2 (h v ((parseInt_iff i64 s v).1 e).1)

/-- **C48, round trip.** The text of a canonical value is its decimal numeral, and parsing it gives the value
back. -/
theorem C48_round_trip {k : MKind} {m a : Nat} (hk : KOk k m) (hm2 : m < 2 ^ 32) (ha : a < m) :
    DecimalText (miDisplay a) a ∧ miFromStr k (miDisplay a) = ok a := by
  have ht : DecimalText (miDisplay a) a := toDigits_text a
  refine ⟨ht, ?_⟩
  obtain ⟨r, h1, _, h2, h3⟩ := (C48_parse hk (by omega) hm2 (miDisplay a)).1 a (.inl ⟨a, ht, rfl⟩) (i64_in.2 (by omega))
  rw [h1]
  congr 1
  have h4 : (r : Int) % m = (a : Int) % m := Int.modEq_iff_dvd.2 h3
  rw [Int.emod_eq_of_lt (by omega) (by omega), Int.emod_eq_of_lt (by omega) (by omega)] at h4
  omega

example : miFromStr (.stat 998244353 true) "-1".toList = ok 998244352 ∧
    miFromStr (.stat 10 false) "+0012".toList = ok 2 ∧
    miFromStr (.stat 10 false) "-9223372036854775808".toList = ok 2 ∧
    miFromStr (.stat 10 false) "9223372036854775808".toList = panic ∧
    miFromStr (.stat 10 false) "".toList = panic ∧ miFromStr (.stat 10 false) "-".toList = panic ∧
    miFromStr (.stat 10 false) "1 ".toList = panic ∧ miDisplay 998244352 = "998244352".toList := by decide +kernel

end Verif.Props
