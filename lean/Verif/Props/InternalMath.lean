import Verif.Proof.MathMin
import Verif.Proof.Sprp.Main
/-! Theorems about `/repo/src/math/internal_math.rs` (C36–C41). -/
namespace Verif.Props
open Model Res Spec NTP IMP

/-- **C36.** For every `i64` `x` and `m ≥ 1`, `safe_mod(x, m)` is the Euclidean remainder; nothing overflows. -/
theorem C36_safe_mod {x m : Int} (hx : i64.In x) (hm : 1 ≤ m) (hmi : i64.In m) :
    ∃ r, safeMod x m = ok r ∧ 0 ≤ r ∧ r < m ∧ m ∣ x - r :=
  ⟨x % m, safeMod_eq hx hm hmi, Int.emod_nonneg _ (by omega), Int.emod_lt_of_pos _ (by omega),
    Int.dvd_self_sub_emod⟩

example : safeMod (-7170500492396019511) 777567337 = ok 333221848 ∧
    safeMod (-9223372036854775808) 9223372036854775807 = ok 9223372036854775806 ∧
    safeMod 5 0 = .panic := by decide +kernel

/-- **C36, outside the domain.** `safe_mod(x, 0)` panics. For a negative `i64` `m`, with `r = x % m` the
remainder of Rust's `%` (the sign of `x`): the result is `r` if `r ≥ 0`, otherwise `r + m`, which is even more
negative, and the addition panics if it leaves `i64`; `i64::MIN % -1` panics. -/
theorem C36_nonpositive_modulus {x m : Int} (hx : i64.In x) (hmi : i64.In m) (hm : m ≤ 0) :
    safeMod x m =
      if m = 0 ∨ (x = -2 ^ 63 ∧ m = -1) then Res.panic
      else if 0 ≤ x.tmod m then ok (x.tmod m)
      else if -2 ^ 63 ≤ x.tmod m + m then ok (x.tmod m + m) else Res.panic := by
  by_cases h0 : m = 0
  · subst h0; rw [if_pos (.inl rfl), safeMod_zero]
  by_cases h1 : x = -2 ^ 63 ∧ m = -1
  · rw [if_pos (.inr h1), h1.1, h1.2]; exact safeMod_min
  · rw [if_neg (by omega), safeMod_neg hx (by omega) hmi h1]

example : safeMod 7 (-5) = ok 2 ∧ safeMod (-7) (-5) = ok (-7) ∧ safeMod (-10) (-5) = ok 0 ∧
    safeMod (-1) (-9223372036854775808) = .panic ∧ safeMod (-9223372036854775808) (-1) = .panic := by decide +kernel

/-- **C37.** For `1 ≤ m ≤ 2^31` and `a, b < m`, `Barrett::mul` returns exactly `a * b mod m`. -/
theorem C37_barrett_mul {a b m : Nat} (hm2 : m ≤ 2 ^ 31) (ha : a < m) (hb : b < m) :
    ∃ bt, Barrett.new m = ok bt ∧ bt.umod = m ∧ bt.mul a b = ok (a * b % m) := by
  unfold Barrett.new
  rw [if_neg (by omega)]
  exact ⟨_, rfl, rfl, barrett_mul hm2 ha hb rfl⟩

/-- **C37, modulus 0.** `Barrett::new(0)` panics. -/
theorem C37_modulus_zero : Barrett.new 0 = .panic := rfl

/-- **C37, above the bound.** For `2^31 < m < 2^32` and `a, b < m`, `Barrett::mul` returns `a * b mod m` unless the
estimate `a * b * ceil(2^64 / m) / 2^64` of the quotient is too high and the remainder is below `2 m - 2^32`; in
that case it returns the remainder plus `2^32 - m`. -/
theorem C37_above_bound {a b m : Nat} (hm1 : 2 ^ 31 < m) (hm2 : m < 2 ^ 32) (ha : a < m) (hb : b < m) :
    ∃ bt, Barrett.new m = ok bt ∧ bt.umod = m ∧ bt.mul a b = ok (
      if a * b / m < a * b * ((2 ^ 64 - 1) / m + 1) / 2 ^ 64 ∧ a * b % m + 2 ^ 32 < 2 * m
      then a * b % m + (2 ^ 32 - m) else a * b % m) := by
  unfold Barrett.new
  rw [if_neg (by omega)]
  have h : waddU 64 ((2 ^ 64 - 1) / m) 1 = (2 ^ 64 - 1) / m + 1 := by
    have : (2 ^ 64 - 1) / m ≤ (2 ^ 64 - 1) / 2 := Nat.div_le_div_left (by omega) (by decide)
    unfold waddU
    exact Nat.mod_eq_of_lt (by omega)
  refine ⟨_, rfl, rfl, ?_⟩
  rw [h]
  exact barrett_mul_big hm1 hm2 ha hb rfl

/-- **C37, outside the bound.** The bound `m ≤ 2^31`, stated in the comments as undocumented in the original
library, is needed: for `m = 2^32 - 1` a product of residues comes out wrong. -/
theorem C37_large_modulus_wrong :
    (Barrett.new 4294967295 >>= fun bt => bt.mul 4294967292 4294967292) = ok 10 ∧
      4294967292 * 4294967292 % 4294967295 = 9 := by
  decide +kernel

example : (Barrett.new 4294967295 >>= fun bt => bt.mul 3 5) = ok 15 ∧
    (Barrett.new 3000000000 >>= fun bt => bt.mul 2999999999 2999999999) = ok 1 := by decide +kernel

example : (Barrett.new 2147483647 >>= fun bt => bt.mul 1073741824 2147483645) = ok 2147483646 ∧
    (Barrett.new 2147483648 >>= fun bt => bt.mul 2147483647 2147483647) = ok 1 := by decide +kernel

/-- **C38.** For every `i64` `x`, `0 ≤ n < 2^63` and `1 ≤ m < 2^31`, `pow_mod(x, n, m) = x^n mod m`, in
`[0, m)`, without overflow. -/
theorem C38_pow_mod {x : Int} {n m : Nat} (hx : i64.In x) (hn : n < 2 ^ 63) (hm : 1 ≤ m) (hm2 : m < 2 ^ 31) :
    powMod x n m = ok (x ^ n % m) := powMod_eq hx hn hm hm2

/-- **C38, negative exponents.** For `n < 0` (and `m ≥ 2`) the loop of `pow_mod` does not terminate, with
any amount of fuel. -/
theorem C38_negative_diverges {x n : Int} {m : Nat} (hx : i64.In x) (hn : n < 0) (hm : 2 ≤ m) (hm2 : m < 2 ^ 31)
    (fuel : Nat) :
    (safeMod x m >>= fun y =>
      loop fuel ((n, 1, (y % 2 ^ 64).toNat) : Int × Nat × Nat) (powModStep ((m : Int) % 2 ^ 32).toNat)) = .diverge ∧
    powMod x n m = .diverge := by
  have h : ∀ fuel, (safeMod x m >>= fun y =>
      loop fuel ((n, 1, (y % 2 ^ 64).toNat) : Int × Nat × Nat) (powModStep ((m : Int) % 2 ^ 32).toNat)) = .diverge := by
    intro fuel
    rw [safeMod_eq hx (by omega) (i64_in.2 (by omega)), ok_bind]
    have h2 := Int.emod_nonneg x (b := (m : Int)) (by omega)
    have h3 := Int.emod_lt_of_pos x (b := (m : Int)) (by omega)
    have e2 : ((m : Int) % 2 ^ 32).toNat = m := by omega
    rw [e2]
    exact powLoop_neg (by omega) (by omega) fuel n 1 _ hn (by omega) (by omega)
  refine ⟨h fuel, ?_⟩
  unfold powMod
  rw [if_neg (by omega)]
  exact h 65

example : powMod 9223372036854775807 9223372036854775807 998244353 = ok 683296792 ∧
    powMod (-3) 5 7 = ok 2 ∧ powMod 0 0 1 = ok 0 ∧ powMod 2 (-1) 5 = .diverge := by decide +kernel

/-- **C38, modulus 1.** The answer is `0` for every `x` and `n`, negative ones included. -/
theorem C38_modulus_one (x n : Int) : powMod x n 1 = ok 0 := rfl

/-- **C38, modulus 0.** `pow_mod(x, n, 0)` panics for every `x` and `n`. -/
theorem C38_modulus_zero (x n : Int) : powMod x n 0 = .panic := by
  unfold powMod
  rw [if_neg (by omega), safeMod_zero]; rfl

/-- **C38, negative moduli.** For an `i32` `m < 0` the base is reduced modulo `|m|` but the powers are taken
modulo `m as u32 = 2^32 + m`. For `n ≥ 0` and `r = x % m` (with the sign of `x`): if `r ≥ 0` the result is
`r^n mod (2^32 + m)`; if `r < 0` it is `1` for `n = 0` and a panic (overflow of `y * y`) otherwise;
`i64::MIN % -1` panics. -/
theorem C38_negative_modulus {x : Int} {n : Nat} {m : Int} (hx : i64.In x) (hn : n < 2 ^ 63) (hm : m < 0)
    (hm2 : i32.In m) :
    powMod x n m =
      if x = -2 ^ 63 ∧ m = -1 then Res.panic
      else if 0 ≤ x.tmod m then ok ((x.tmod m) ^ n % (2 ^ 32 + m))
      else if n = 0 then ok 1 else Res.panic := by
  rw [i32_in] at hm2
  by_cases h : x = -2 ^ 63 ∧ m = -1
  · rw [if_pos h, h.1, h.2]
    unfold powMod
    rw [if_neg (by omega), safeMod_min]; rfl
  · rw [if_neg h, powMod_negmod hx hn hm (by omega) h]

/-- **C38, negative moduli and exponents.** For `m < 0` and `n < 0` the loop does not terminate, with any amount
of fuel, if `x % m ≥ 0`, and panics in its first round if `x % m < 0`. -/
theorem C38_negative_both {x n m : Int} (hx : i64.In x) (hn : n < 0) (hm : m < 0) (hm2 : i32.In m)
    (h : ¬ (x = -2 ^ 63 ∧ m = -1)) (fuel : Nat) :
    (safeMod x m >>= fun y =>
      loop (fuel + 1) ((n, 1, (y % 2 ^ 64).toNat) : Int × Nat × Nat) (powModStep (m % 2 ^ 32).toNat)) =
      (if 0 ≤ x.tmod m then .diverge else Res.panic) ∧
    powMod x n m = (if 0 ≤ x.tmod m then .diverge else Res.panic) := by
  rw [i32_in] at hm2
  refine ⟨powLoop_negneg hx hn hm (by omega) h fuel, ?_⟩
  unfold powMod
  rw [if_neg (by omega)]
  exact powLoop_negneg hx hn hm (by omega) h 64

example : powMod 9 3 (-7) = ok 8 ∧ powMod 2147483647 2 (-2147483648) = ok 1 ∧ powMod (-9) 3 (-7) = .panic ∧
    powMod (-9) 0 (-7) = ok 1 ∧ powMod (-14) 3 (-7) = ok 0 ∧ powMod 9 (-3) (-7) = .diverge ∧
    powMod 65535 3 (-70000) = ok (65535 ^ 3 % (2 ^ 32 - 70000)) := by decide +kernel

/-- **C39, what is computed.** For every `n < 2^31`, `is_prime(n)` terminates without overflow, and answers
`true` exactly for 2, 7, 61 and the odd `n ≥ 3` that are strong probable primes to the bases 2, 7 and 61. -/
theorem C39_strong_test (n : Nat) (hn : n < 2 ^ 31) :
    ∃ b, isPrime n = ok b ∧ (b = true ↔ (n = 2 ∨ n = 7 ∨ n = 61 ∨
      (3 ≤ n ∧ n % 2 = 1 ∧ StrongProbablePrime n 2 ∧ StrongProbablePrime n 7 ∧ StrongProbablePrime n 61))) :=
  isPrime_eq n hn

/-- **C39, negative arguments.** `is_prime(n)` is `false` for `n ≤ 1`. -/
theorem C39_nonpositive (n : Int) (hn : n ≤ 1) : isPrime n = ok false := by
  unfold isPrime
  rw [if_pos hn]

/-- **C39, primes.** Every prime below `2^31` is accepted. -/
theorem C39_primes_accepted {p : Nat} (hp : p.Prime) (h : p < 2 ^ 31) : isPrime p = ok true := by
  obtain ⟨b, e, hb⟩ := isPrime_eq p h
  rw [e]
  have : b = true := by
    rw [hb]
    by_cases h2 : p = 2
    · exact .inl h2
    by_cases h7 : p = 7
    · exact .inr (.inl h7)
    by_cases h61 : p = 61
    · exact .inr (.inr (.inl h61))
    have hnd : ∀ a, a.Prime → p ≠ a → ¬ p ∣ a := fun a ha hne hd => hne ((Nat.prime_dvd_prime_iff_eq hp ha).1 hd)
    exact .inr (.inr (.inr ⟨by have := hp.two_le; omega, by have := hp.eq_two_or_odd; omega,
      prime_strong hp h2 (hnd 2 (by decide) h2), prime_strong hp h2 (hnd 7 (by decide) h7),
      prime_strong hp h2 (hnd 61 (by decide) h61)⟩))
  rw [this]

example : isPrime 2147483647 = ok true ∧ isPrime 2047 = ok false ∧ isPrime 314821 = ok false ∧
    isPrime (-5) = ok false ∧ isPrime 1000000007 = ok true := by decide +kernel

/-- **C39.** For every `i32` `n`, `is_prime(n)` terminates without overflow and answers `true` exactly if `n` is
prime. That no composite below `2^31` passes the strong test to the bases 2, 7, 61 is
`Verif.Sprp.prime_of_pass`, a search evaluated by the kernel. -/
theorem C39_is_prime (n : Int) (hn : i32.In n) : ∃ b, isPrime n = ok b ∧ (b = true ↔ 0 ≤ n ∧ n.toNat.Prime) := by
  rw [i32_in] at hn
  by_cases h1 : n ≤ 1
  · refine ⟨false, C39_nonpositive n h1, ?_⟩
    constructor
    · intro h; simp at h
    · rintro ⟨_, h⟩
      have := h.two_le
      omega
  obtain ⟨k, rfl⟩ : ∃ k : Nat, n = k := ⟨n.toNat, by omega⟩
  obtain ⟨b, e, hb⟩ := C39_strong_test k (by omega)
  refine ⟨b, e, ?_⟩
  rw [Int.toNat_natCast]
  constructor
  · intro h
    refine ⟨by omega, ?_⟩
    rcases hb.1 h with h | h | h | ⟨h3, ho, hp⟩
    · rw [h]; norm_num
    · rw [h]; norm_num
    · rw [h]; norm_num
    · exact Sprp.prime_of_pass h3 ho (by omega) hp
  · rintro ⟨_, hp⟩
    have h := C39_primes_accepted hp (by omega)
    rw [e] at h
    injection h

example : i32.In 2147483647 ∧ i32.In (-2147483648) ∧ isPrime 2147483647 = ok true ∧
    isPrime (-2147483648) = ok false := by decide +kernel

/-- **C40.** For every `i64` `a` and `b ≥ 1`, `inv_gcd(a, b) = (g, x)` with `g = gcd(a, b)`, `x * a = g (mod b)`
and `0 ≤ x < b / g`; nothing overflows. -/
theorem C40_inv_gcd {a b : Int} (ha : i64.In a) (hb : 1 ≤ b) (hbi : i64.In b) :
    ∃ g x, invGcd a b = ok (g, x) ∧ g = Int.gcd a b ∧ b ∣ x * a - g ∧ 0 ≤ x ∧ x < b / g := by
  obtain ⟨⟨g, x⟩, e, h1, h2, h3, h4⟩ := invGcd_sat ha hb hbi
  simp only at h1 h2 h3 h4
  refine ⟨g, x, e, h1, h2, h3, ?_⟩
  have hg : 0 < g := by
    rw [h1]
    have : Int.gcd a b ≠ 0 := fun h => by have := (Int.gcd_eq_zero_iff.1 h).2; omega
    omega
  have hd : g ∣ b := by rw [h1]; exact Int.gcd_dvd_right ..
  obtain ⟨q, rfl⟩ := hd
  rw [Int.mul_ediv_cancel_left _ hg.ne']
  rw [Int.mul_comm g q] at h4
  exact Int.lt_of_mul_lt_mul_right h4 hg.le

example : invGcd (-9223372036854775808) 9223372036854775807 = ok (1, 9223372036854775806) ∧
    invGcd 12345 67890 = ok (15, 11) ∧ invGcd (-4) 6 = ok (2, 1) ∧ invGcd 0 4 = ok (4, 0) := by decide +kernel

/-- **C40, modulus 0.** `inv_gcd(a, 0)` panics for every `a`. -/
theorem C40_modulus_zero (a : Int) : invGcd a 0 = .panic := by
  unfold invGcd
  rw [safeMod_zero]; rfl

/-- **C40, negative moduli.** For `i64::MIN < b < 0`, `inv_gcd(a, b)` panics exactly if `safe_mod(a, b)` does;
otherwise it returns `(s, x)` with `s` the greatest common divisor up to sign, `x * a = s (mod b)` and
`0 ≤ x < |b| / gcd(a, b)`. -/
theorem C40_negative_modulus {a b : Int} (ha : i64.In a) (hb : b < 0) (hbi : -2 ^ 63 < b) :
    ((a.tmod b < 0 ∧ a.tmod b + b < -2 ^ 63) ∨ (a = -2 ^ 63 ∧ b = -1) → invGcd a b = .panic) ∧
    (¬ ((a.tmod b < 0 ∧ a.tmod b + b < -2 ^ 63) ∨ (a = -2 ^ 63 ∧ b = -1)) →
      ∃ s x, invGcd a b = ok (s, x) ∧ s.natAbs = Int.gcd a b ∧ b ∣ x * a - s ∧ 0 ≤ x ∧
        x * Int.gcd a b < b.natAbs) := by
  constructor
  · intro h
    unfold invGcd
    have : safeMod a b = .panic := by
      rw [C36_nonpositive_modulus ha (i64_in.2 (by omega)) hb.le]
      rcases h with h | h
      · by_cases hc : b = 0 ∨ (a = -2 ^ 63 ∧ b = -1)
        · rw [if_pos hc]
        · rw [if_neg hc, if_neg (by omega), if_neg (by omega)]
      · rw [if_pos (.inr h)]
    rw [this]; rfl
  · intro h
    obtain ⟨⟨s, x⟩, e, h1, h2, h3, h4⟩ := invGcd_negmod ha hb hbi (by omega) (by omega)
    exact ⟨s, x, e, h1, h2, h3, by simp only at h4; omega⟩

example : invGcd 3 (-7) = ok (-1, 2) ∧ invGcd 5 (-7) = ok (1, 3) ∧ invGcd 4 (-6) = ok (-2, 1) ∧ invGcd (-4) (-6) = ok (-2, 2) ∧
    invGcd 6 (-3) = ok (-3, 0) ∧ invGcd (-5) (-9223372036854775807) = .panic ∧
    invGcd 1 (-9223372036854775808) = .panic := by decide +kernel

/-- **C40, modulus `i64::MIN`.** `inv_gcd(a, i64::MIN)` is `(i64::MIN, 0)` for `a = 0` and `a = i64::MIN`. It
panics for every other negative `a`, and for every odd positive `a`: the last coefficient of the Euclidean
algorithm is `2^63`. For even positive `a` it returns what it returns for the other negative moduli. -/
theorem C40_min_modulus {a : Int} (ha : i64.In a) :
    (a = 0 ∨ a = -2 ^ 63 → invGcd a (-2 ^ 63) = ok (-2 ^ 63, 0)) ∧
    (a < 0 ∧ a ≠ -2 ^ 63 ∨ 0 < a ∧ a % 2 = 1 → invGcd a (-2 ^ 63) = .panic) ∧
    (0 < a ∧ a % 2 = 0 → ∃ s x, invGcd a (-2 ^ 63) = ok (s, x) ∧ s.natAbs = Int.gcd a (-2 ^ 63) ∧
      (-2 ^ 63 : Int) ∣ x * a - s ∧ 0 ≤ x ∧ x * Int.gcd a (-2 ^ 63) < 2 ^ 63) := by
  have hb := i64_in.1 ha
  refine ⟨?_, ?_, ?_⟩
  · rintro (rfl | rfl) <;> decide +kernel
  · rintro (⟨h1, h2⟩ | ⟨h1, h2⟩)
    · unfold invGcd
      have hm : a.tmod (-2 ^ 63) = a := by
        rw [show (-2 ^ 63 : Int) = -(2 ^ 63) from rfl, Int.tmod_neg]
        have := Int.tmod_eq_of_lt (a := -a) (b := 2 ^ 63) (by omega) (by omega)
        rw [Int.neg_tmod] at this; omega
      rw [safeMod_neg ha (by decide) (i64_in.2 (by decide)) (fun h => absurd h.2 (by decide)), hm,
        if_neg (by omega), if_neg (by omega)]
      rfl
    · refine (invGcd_min_pos h1 ha).1 ?_
      have hc : Nat.Coprime a.natAbs (2 ^ 63) :=
        Nat.Coprime.pow_right 63 ((Nat.Prime.coprime_iff_not_dvd Nat.prime_two).2 (by omega)).symm
      exact hc
  · rintro ⟨h1, h2⟩
    have h2d : 2 ∣ Int.gcd a (-2 ^ 63) := Nat.dvd_gcd (by omega) (by decide)
    obtain ⟨⟨s, x⟩, e, k1, k2, k3, k4⟩ := (invGcd_min_pos h1 ha).2 (fun h => by rw [h] at h2d; omega)
    refine ⟨s, x, e, k1, k2, k3, ?_⟩
    simp only at k4
    rw [Int.mul_comm x]
    omega

example : invGcd (-9223372036854775808) (-9223372036854775808) = ok (-9223372036854775808, 0) ∧
    invGcd 3 (-9223372036854775808) = .panic ∧ invGcd (-6) (-9223372036854775808) = .panic ∧
    invGcd 6 (-9223372036854775808) = ok (-2, 1537228672809129301) ∧
    invGcd 1000000 (-9223372036854775808) = ok (-64, 67634987146256071) := by decide +kernel

/-- **C41.** For every prime `m` below `2^31`, `primitive_root(m)` terminates without overflow or array
overrun and returns the least `g ≥ 1` whose powers are all the non-zero residues modulo `m`. -/
theorem C41_primitive_root {m : Nat} (hm : m.Prime) (hm2 : m < 2 ^ 31) :
    ∃ g : Nat, primitiveRoot m = ok (g : Int) ∧ 1 ≤ g ∧ g < m ∧ IsPrimitiveRootMod m g ∧
      ∀ g', 1 ≤ g' → g' < g → ¬ IsPrimitiveRootMod m g' := by
  obtain ⟨r, e, g, rfl, h⟩ := primitiveRoot_sat hm hm2
  exact ⟨g, e, h⟩

example : primitiveRoot 2 = ok 1 ∧ primitiveRoot 41 = ok 6 ∧ primitiveRoot 191 = ok 19 ∧
    primitiveRoot 200003 = ok 2 ∧ primitiveRoot 754974721 = ok 11 := by decide +kernel

/-- **C41, composite numbers.** For every composite `m` below `2^31`, `primitive_root(m)` still terminates,
without overflow or array overrun. It returns the least `g ≥ 2` that passes the test of the search loop, and `g`
is at most the smallest prime factor of `m`. -/
theorem C41_composite {m : Nat} (hm3 : 3 ≤ m) (hnp : ¬ m.Prime) (hm2 : m < 2 ^ 31) :
    ∃ g : Nat, primitiveRoot m = ok (g : Int) ∧ 2 ≤ g ∧ g ≤ m.minFac ∧ PassesRootTest m g ∧
      ∀ g', 2 ≤ g' → g' < g → ¬ PassesRootTest m g' := by
  rw [primitiveRoot_eq_search (by omega)]
  obtain ⟨r, e, g, rfl, h⟩ := rootSearch_composite hm3 hm2 hnp
  exact ⟨g, e, h⟩

/-- **C41, numbers below 2.** `primitive_root(m)` never returns for `i32::MIN < m ≤ 1`: for `m = 0, 1` the loop
that halves `(m - 1) / 2 = 0` runs forever, with any amount of fuel; for `m < 0` the first `pow_mod` gets a
negative exponent (`C38_negative_both`). `m - 1` overflows for `m = i32::MIN`. -/
theorem C41_no_root_diverges :
    (∀ fuel, loop fuel (0 : Int) (divOutStep 2) = .diverge) ∧
    (∀ m : Int, -2 ^ 31 < m → m ≤ 1 → primitiveRoot m = .diverge) ∧
    primitiveRoot (-2 ^ 31) = .panic := by
  refine ⟨divOut_zero, ?_, by decide +kernel⟩
  intro m h1 h2
  rw [primitiveRoot_eq_search (by omega)]
  by_cases hm : m < 0
  · exact rootSearch_neg hm h1
  · rcases (by omega : m = 0 ∨ m = 1) with rfl | rfl <;> decide +kernel

example : primitiveRoot 4 = ok 2 ∧ primitiveRoot 9 = ok 2 ∧ primitiveRoot 561 = ok 3 ∧ primitiveRoot 1105 = ok 5 ∧
    primitiveRoot 1729 = ok 7 ∧
    primitiveRoot 1 = .diverge ∧ primitiveRoot (-7) = .diverge := by decide +kernel

end Verif.Props
