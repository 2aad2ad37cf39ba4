import Verif.Props.Modint
import Verif.Proof.ModintRaw
/-!
C61: modint operations on values that are not reduced, as `raw` makes them, and as a value is after `set_modulus` to a
smaller modulus.
-/
namespace Verif.Props
open Model Res Spec NTP IMP MIP MRP

/-- **C61, `*`.** The product of any two `u32` values is reduced and right, for `2 ≤ m ≤ 2^31`; for static kinds for
every `u32` modulus `m ≥ 1`. -/
theorem C61_mul {k : MKind} {m : Nat} (hk : KOk k m) (hm : (2 ≤ m ∧ m ≤ 2 ^ 31) ∨ (1 ≤ m ∧ m < 2 ^ 32 ∧ ∃ h, k = .stat m h))
    {a b : Nat} (ha : a < 2 ^ 32) (hb : b < 2 ^ 32) : miMul k a b = ok (a * b % m) := by
  rcases hm with ⟨h1, h2⟩ | ⟨h1, h2, h, rfl⟩
  · exact mulAll hk h1 h2 a b ha hb
  · exact mulAll_stat h1 h2 a b ha hb

/-- **C61, `*` modulo 1.** For `set_modulus(1)` the reciprocal wraps to 0, and a product is not reduced at all: it is
`a * b` in `u32`, plus 1 unless that is 0. -/
theorem C61_mul_mod_one {bt : Barrett} (hs : setModulus 1 = ok bt) {a b : Nat} (ha : a < 2 ^ 32) (hb : b < 2 ^ 32) :
    miMul (.dyn bt) a b = ok (if a * b % 2 ^ 32 = 0 then 0 else (a * b + 1) % 2 ^ 32) := by
  rw [setModulus_eq (by omega)] at hs
  injection hs with hs
  subst hs
  have hab : a * b ≤ (2 ^ 32 - 1) * (2 ^ 32 - 1) := Nat.mul_le_mul (by omega) (by omega)
  simp only [miMul, mulMod]
  have e : waddU 64 ((2 ^ 64 - 1) / 1) 1 = 0 := by decide
  rw [mulU_of_lt (by omega), ok_bind, e, mulU_of_lt (by omega), ok_bind]
  congr 1
  unfold wsubU wmulU waddU
  generalize a * b = z at *
  simp only [Nat.mul_zero, Nat.zero_shiftRight, Nat.zero_mod, Nat.zero_mul, Nat.sub_zero]
  by_cases hz : z % 2 ^ 32 = 0
  · rw [if_neg (by omega), if_pos hz]; omega
  · rw [if_pos (by omega), if_neg hz]; omega

/-- **C61, `+`.** The sum panics when it leaves `u32`; otherwise it is congruent to `a + b`, and reduced exactly when
`a + b < 2 m`. -/
theorem C61_add {k : MKind} {m : Nat} (hk : KOk k m) (hm : 1 ≤ m) {a b : Nat} :
    (2 ^ 32 ≤ a + b → miAdd k a b = panic) ∧
    (a + b < 2 ^ 32 → ∃ r, miAdd k a b = ok r ∧ r % m = (a + b) % m ∧ (r < m ↔ a + b < 2 * m)) := by
  have e := hk.modulus hm
  unfold miAdd addU
  rw [e]
  constructor
  · intro h; rw [if_neg (by omega)]; rfl
  · intro h
    rw [if_pos h, ok_bind]
    by_cases h1 : m ≤ a + b
    · rw [if_pos h1, subU_of_le h1]
      refine ⟨_, rfl, ?_, by omega⟩
      conv_rhs => rw [show a + b = (a + b - m) + m by omega, Nat.add_mod_right]
    · rw [if_neg h1]
      exact ⟨_, rfl, rfl, by omega⟩

/-- **C61, `-`.** The difference never panics; it is congruent to `a - b` exactly when `-m ≤ a - b < 2^32 - m` or
`m` divides `2^32`. -/
theorem C61_sub {k : MKind} {m : Nat} (hk : KOk k m) (hm : 1 ≤ m) (hm2 : m ≤ 2 ^ 31) {a b : Nat} (ha : a < 2 ^ 32)
    (hb : b < 2 ^ 32) :
    ∃ r : Nat, miSub k a b = ok r ∧ r < 2 ^ 32 ∧
      ((m : Int) ∣ ((a : Int) - b) - r ↔ (b ≤ a + m ∧ a + m < b + 2 ^ 32) ∨ m ∣ 2 ^ 32) := by
  have e := hk.modulus hm
  unfold miSub wsubU waddU
  simp only [e]
  rw [Nat.mod_eq_of_lt hb]
  have h32 : (m ∣ 2 ^ 32) ↔ (m : Int) ∣ 2 ^ 32 := by
    rw [← Int.natCast_dvd_natCast]; rfl
  rw [h32]
  have key : ∀ (r : Nat) (j i : Int), ((a : Int) - b) - r = j * m + i * 2 ^ 32 → (i = 0 ∨ i = 1 ∨ i = -1) →
      ((m : Int) ∣ ((a : Int) - b) - r ↔ i = 0 ∨ (m : Int) ∣ 2 ^ 32) := by
    intro r j i h hi
    rw [h, Int.dvd_add_right (Int.dvd_mul_left ..)]
    rcases hi with rfl | rfl | rfl <;> simp
  by_cases hab : b ≤ a
  · rw [show (a + (2 ^ 32 - b)) % 2 ^ 32 = a - b by omega]
    by_cases h1 : m ≤ a - b
    · rw [if_pos h1]
      by_cases h2 : a - b + m < 2 ^ 32
      · rw [Nat.mod_eq_of_lt h2]
        refine ⟨_, rfl, h2, (key _ (-1) 0 (by omega) (by omega)).trans ?_⟩
        simp; omega
      · rw [show (a - b + m) % 2 ^ 32 = a - b + m - 2 ^ 32 by omega]
        refine ⟨_, rfl, by omega, (key _ (-1) 1 (by omega) (by omega)).trans ?_⟩
        rw [or_iff_right (by omega), or_iff_right (by omega)]
    · rw [if_neg h1]
      refine ⟨_, rfl, by omega, (key _ 0 0 (by omega) (by omega)).trans ?_⟩
      rw [iff_true_left (.inl rfl)]; left; omega
  · rw [show (a + (2 ^ 32 - b)) % 2 ^ 32 = a + 2 ^ 32 - b by omega]
    by_cases h1 : m ≤ a + 2 ^ 32 - b
    · rw [if_pos h1]
      by_cases h2 : a + 2 ^ 32 - b + m < 2 ^ 32
      · rw [Nat.mod_eq_of_lt h2]
        refine ⟨_, rfl, h2, (key _ (-1) (-1) (by omega) (by omega)).trans ?_⟩
        rw [or_iff_right (by omega), or_iff_right (by omega)]
      · rw [show (a + 2 ^ 32 - b + m) % 2 ^ 32 = a + m - b by omega]
        refine ⟨_, rfl, by omega, (key _ (-1) 0 (by omega) (by omega)).trans ?_⟩
        rw [iff_true_left (.inl rfl)]; left; omega
    · rw [if_neg h1]
      refine ⟨_, rfl, by omega, (key _ 0 (-1) (by omega) (by omega)).trans ?_⟩
      rw [or_iff_right (by omega), or_iff_right (by omega)]

/-- **C61, unary `-`.** Right exactly for `a ≤ m`, or when `m` divides `2^32`. -/
theorem C61_neg {k : MKind} {m : Nat} (hk : KOk k m) (hm : 1 ≤ m) (hm2 : m ≤ 2 ^ 31) {a : Nat} (ha : a < 2 ^ 32) :
    ∃ r : Nat, miNeg k a = ok r ∧ r < 2 ^ 32 ∧ ((m : Int) ∣ -(a : Int) - r ↔ a ≤ m ∨ m ∣ 2 ^ 32) := by
  obtain ⟨r, h1, h2, h3⟩ := C61_sub hk hm hm2 (a := 0) (b := a) (by omega) ha
  refine ⟨r, h1, h2, ?_⟩
  rw [show -(a : Int) = ((0 : Nat) : Int) - a by omega, h3]
  exact or_congr ⟨fun h => by omega, fun h => by omega⟩ Iff.rfl

/-- **C61, `pow`.** Any `u32` value may be raised to a power `n ≥ 1`: the result is reduced and right. -/
theorem C61_pow {k : MKind} {m : Nat} (hk : KOk k m) (hm : (2 ≤ m ∧ m ≤ 2 ^ 31) ∨ (1 ≤ m ∧ m < 2 ^ 32 ∧ ∃ h, k = .stat m h))
    {x n : Nat} (hx : x < 2 ^ 32) (hn : n < 2 ^ 64) : miPow k x n = ok (if n = 0 then 1 else x ^ n % m) :=
  pow_raw (fun _ _ ha hb => C61_mul hk hm ha hb) (by omega) (by omega) hx hn

/-- **C61, `inv` by gcd.** Right for every `u32` value, with a reduced result. -/
theorem C61_inv {k : MKind} {m a : Nat} (hk : KOk k m) (hg : GcdPath k) (hm : 1 ≤ m) (hm2 : m < 2 ^ 32) (ha : a < 2 ^ 32) :
    (Nat.gcd a m = 1 → ∃ y, miInv k a = ok y ∧ y < m ∧ a * y % m = 1 % m) ∧ (Nat.gcd a m ≠ 1 → miInv k a = panic) := by
  have e : miInv k a = miInvGcd k a := by
    rcases k with ⟨v, h⟩ | bt
    · have : h = false := hg
      subst this
      rfl
    · rfl
  rw [e]
  exact invGcd_path (hk.modulus hm) hm hm2 ha

/-- **C61, `inv` with the prime hint.** Right when the prime `m` does not divide `a`. A multiple of `m` other than 0
itself is not recognised: instead of a panic the result is 0, for `m = 2` it is 1. -/
theorem C61_inv_hint {m a : Nat} (hp : m.Prime) (hm : m < 2 ^ 31) (ha0 : a ≠ 0) (ha : a < 2 ^ 32) :
    (¬ m ∣ a → ∃ y, miInv (.stat m true) a = ok y ∧ y < m ∧ a * y % m = 1) ∧
    (m ∣ a → miInv (.stat m true) a = ok (if m = 2 then 1 else 0)) := by
  have h2 := hp.two_le
  have e : miInv (.stat m true) a = ok (if m - 2 = 0 then 1 else a ^ (m - 2) % m) := by
    simp only [miInv]
    rw [if_neg ha0, if_neg (not_not.2 (i32_in.2 (by omega))), C39_primes_accepted hp hm, ok_bind, if_pos rfl,
      subU_of_le h2, ok_bind, pow_raw (mulAll_stat (by omega) (by omega)) (by omega) (by omega) ha (by omega)]
  have e' : (if m - 2 = 0 then 1 else a ^ (m - 2) % m) = a ^ (m - 2) % m := by
    split
    · rename_i h; rw [h, Nat.pow_zero, Nat.mod_eq_of_lt (by omega)]
    · rfl
  constructor
  · intro hd
    rw [e, e']
    refine ⟨_, rfl, Nat.mod_lt _ (by omega), ?_⟩
    rw [Nat.mul_mod, Nat.mod_mod, ← Nat.mul_mod, ← Nat.pow_succ', show (m - 2).succ = m - 1 by omega]
    haveI := Fact.mk hp
    have h := ZMod.pow_card_sub_one_eq_one (p := m) (a := (a : ZMod m)) (by
      intro h0
      rw [ZMod.natCast_eq_zero_iff] at h0
      exact hd h0)
    rw [← Sprp.pow_eq_one_iff h2] at h
    exact h
  · intro hd
    rw [e]
    congr 1
    by_cases h : m = 2
    · rw [if_pos (by omega), if_pos h]
    · rw [if_neg (by omega), if_neg h]
      exact Nat.mod_eq_zero_of_dvd (Dvd.dvd.pow hd (by omega))

/-- Values of modulus 1000000007 after `set_modulus(7)`; and wrong results of `-` and of `inv`. -/
example : (setModulus 7 >>= fun b => miMul (.dyn b) 1000000006 999999999) = ok (1000000006 * 999999999 % 7) ∧
    (setModulus 7 >>= fun b => miAdd (.dyn b) 1000000006 3) = ok 1000000002 ∧
    (setModulus 7 >>= fun b => miSub (.dyn b) 3 1000000006) = ok 3294967300 ∧
    (setModulus 7 >>= fun b => miPow (.dyn b) 1000000006 5) = ok (1000000006 ^ 5 % 7) ∧
    (setModulus 1 >>= fun b => miMul (.dyn b) 1 1) = ok 2 ∧
    miInv (.stat 7 true) 14 = ok 0 ∧ miInv (.stat 7 false) 14 = panic := by decide +kernel

end Verif.Props
