import Verif.Props.Factorial
import Verif.Props.InternalMath
import Mathlib.NumberTheory.LegendreSymbol.Basic
import Mathlib.NumberTheory.Wilson
import Mathlib.Data.Nat.Choose.Vandermonde
import Mathlib.Data.Nat.Choose.Sum
/-! C109: identities between several calls of the modular integers, `primitive_root` and `Factorial`. -/
namespace Verif.Props
open Model Res Spec NTP IMP MIP FACP
open scoped Nat

/-- C109: the laws of powers, between calls of `pow` and `*`. -/
theorem C109_pow_laws {k : MKind} {m x y a b : Nat} (hk : KOk k m) (hm : 2 ≤ m) (hm2 : m ≤ 2 ^ 31) (hx : x < m) (hy : y < m)
    (ha : a < 2 ^ 64) (hb : b < 2 ^ 64) :
    ∃ u v w z, miPow k x a = ok u ∧ miPow k x b = ok v ∧ miPow k y a = ok w ∧ miMul k x y = ok z ∧
      miPow k z a = miMul k u w ∧
      (a + b < 2 ^ 64 → miPow k x (a + b) = miMul k u v) ∧
      (a * b < 2 ^ 64 → miPow k x (a * b) = miPow k u b) := by
  have hp : ∀ {x n}, x < m → n < 2 ^ 64 → miPow k x n = ok (x ^ n % m) := fun hx hn =>
    (C44_pow_partial hk hm2 hx hn).1 (.inl hm)
  have hmod : ∀ n, n % m < m := fun n => Nat.mod_lt _ (by omega)
  have hmul : ∀ {x y}, x < m → y < m → miMul k x y = ok (x * y % m) := fun hx hy => (C43_ring_ops hk hm2 hx hy).2.2.2
  refine ⟨_, _, _, _, hp hx ha, hp hx hb, hp hy ha, hmul hx hy, ?_, fun h => ?_, fun h => ?_⟩
  · rw [hp (hmod _) ha, hmul (hmod _) (hmod _), ← Nat.pow_mod, ← Nat.mul_mod, Nat.mul_pow]
  · rw [hp hx h, hmul (hmod _) (hmod _), ← Nat.mul_mod, Nat.pow_add]
  · rw [hp hx h, hp (hmod _) hb, ← Nat.pow_mod, Nat.pow_mul]

example : miPow (.stat 13 true) 7 5 = ok 11 ∧ miPow (.stat 13 true) 7 3 = ok 5 ∧ miPow (.stat 13 true) 7 8 = ok 3 ∧
    miMul (.stat 13 true) 11 5 = ok 3 ∧ miPow (.stat 13 true) 7 15 = ok 5 ∧ miPow (.stat 13 true) 11 3 = ok 5 := by
  decide +kernel

theorem coprime_of_lt_prime {p a : Nat} (hp : p.Prime) (ha : a < p) (h0 : a ≠ 0) : Nat.gcd a p = 1 :=
  (Nat.coprime_comm.1 ((Nat.Prime.coprime_iff_not_dvd hp).2 (Nat.not_dvd_of_pos_of_lt (by omega) ha)))

theorem cast_eq_of_lt {p a b : Nat} (ha : a < p) (hb : b < p) : (a : ZMod p) = b ↔ a = b := by
  rw [ZMod.natCast_eq_natCast_iff']
  rw [Nat.mod_eq_of_lt ha, Nat.mod_eq_of_lt hb]

/-- C109: Fermat's theorem and inverses. For a prime modulus and `a ≠ 0`, `pow(a, p - 1)` is 1, and `pow(a, p - 2)`
is what `inv(a)` answers. -/
theorem C109_fermat {k : MKind} {p a : Nat} (hk : KOk k p) (hp : p.Prime) (hp2 : p < 2 ^ 31) (ha : a < p) (h0 : a ≠ 0) :
    miPow k a (p - 1) = ok 1 ∧ miPow k a (p - 2) = miInv k a := by
  have := Fact.mk hp
  have h2 := hp.two_le
  have hpw : ∀ {n}, n < 2 ^ 64 → miPow k a n = ok (a ^ n % p) := fun hn =>
    (C44_pow_partial hk (by omega) ha hn).1 (.inl h2)
  have ha0 : (a : ZMod p) ≠ 0 := fun h => h0 ((cast_eq_of_lt ha hp.pos).1 (by simpa using h))
  have hf : a ^ (p - 1) % p = 1 := by
    rw [← cast_eq_of_lt (Nat.mod_lt _ hp.pos) (by omega), ZMod.natCast_mod]
    push_cast
    exact ZMod.pow_card_sub_one_eq_one ha0
  refine ⟨by rw [hpw (by omega), hf], ?_⟩
  obtain ⟨y, e, hy, hay⟩ := (C45_inv_all hk (by omega) (fun _ => ⟨hp, hp2⟩) ha).1 (coprime_of_lt_prime hp ha h0)
  rw [e, hpw (by omega)]
  congr 1
  rw [← cast_eq_of_lt (Nat.mod_lt _ hp.pos) hy, ZMod.natCast_mod]
  apply mul_left_cancel₀ ha0
  have h1 : (a : ZMod p) * y = 1 := by
    have := (ZMod.natCast_eq_natCast_iff' (a * y) 1 p).2 hay
    push_cast at this
    exact this
  rw [h1]
  push_cast
  rw [← pow_succ', show p - 2 + 1 = p - 1 by omega]
  exact ZMod.pow_card_sub_one_eq_one ha0

example : miPow (.stat 13 true) 7 12 = ok 1 ∧ miPow (.stat 13 true) 7 11 = ok 2 ∧ miInv (.stat 13 true) 7 = ok 2 := by
  decide +kernel

/-- C109: Euler's criterion. For an odd prime modulus and `a ≠ 0`, `pow(a, (p - 1) / 2)` is 1 when `a` is the square
`b * b` of a modular integer, and `-1` otherwise. -/
theorem C109_euler {k : MKind} {p a : Nat} (hk : KOk k p) (hp : p.Prime) (hp3 : 3 ≤ p) (hp2 : p < 2 ^ 31) (ha : a < p)
    (h0 : a ≠ 0) :
    (miPow k a ((p - 1) / 2) = ok 1 ↔ ∃ b < p, miMul k b b = ok a) ∧
    (miPow k a ((p - 1) / 2) = ok (p - 1) ↔ ¬ ∃ b < p, miMul k b b = ok a) := by
  have := Fact.mk hp
  have hodd : p % 2 = 1 := (hp.eq_two_or_odd.resolve_left (by omega))
  have hpw : miPow k a ((p - 1) / 2) = ok (a ^ ((p - 1) / 2) % p) :=
    (C44_pow_partial hk (by omega) ha (by omega)).1 (.inl (by omega))
  have ha0 : (a : ZMod p) ≠ 0 := fun h => h0 ((cast_eq_of_lt ha hp.pos).1 (by simpa using h))
  have hsq : (∃ b < p, miMul k b b = ok a) ↔ IsSquare (a : ZMod p) := by
    constructor
    · rintro ⟨b, hb, e⟩
      rw [(C43_ring_ops hk (by omega) hb hb).2.2.2] at e
      injection e with e
      exact ⟨b, by rw [← e, ZMod.natCast_mod]; push_cast; rfl⟩
    · rintro ⟨z, hz⟩
      refine ⟨z.val, ZMod.val_lt z, ?_⟩
      rw [(C43_ring_ops hk (by omega) (ZMod.val_lt z) (ZMod.val_lt z)).2.2.2]
      congr 1
      rw [← cast_eq_of_lt (Nat.mod_lt _ hp.pos) ha, ZMod.natCast_mod, hz]
      simp
  have hhalf : (p - 1) / 2 = p / 2 := by omega
  have hone : a ^ ((p - 1) / 2) % p = 1 ↔ (a : ZMod p) ^ (p / 2) = 1 := by
    rw [← cast_eq_of_lt (Nat.mod_lt _ hp.pos) (by omega), ZMod.natCast_mod, hhalf]
    push_cast
    rfl
  have hneg : a ^ ((p - 1) / 2) % p = p - 1 ↔ (a : ZMod p) ^ (p / 2) = -1 := by
    rw [← cast_eq_of_lt (Nat.mod_lt _ hp.pos) (by omega), ZMod.natCast_mod, hhalf, Nat.cast_sub (by omega)]
    push_cast
    rw [ZMod.natCast_self, zero_sub]
  have e1 := ZMod.euler_criterion p ha0
  have e2 := ZMod.pow_div_two_eq_neg_one_or_one p ha0
  have e3 : (1 : ZMod p) ≠ -1 := by
    intro h
    have h1 : ((1 : Nat) : ZMod p) = ((p - 1 : Nat) : ZMod p) := by
      rw [Nat.cast_sub (by omega), ZMod.natCast_self, zero_sub]; simpa using h
    have := (cast_eq_of_lt (by omega) (by omega)).1 h1
    omega
  rw [hsq, e1, hpw]
  constructor
  · rw [← hone]
    exact ⟨fun h => by injection h, fun h => by rw [h]⟩
  · constructor
    · intro h
      injection h with h
      rw [hneg.1 h]
      exact fun h => e3 h.symm
    · intro h
      rw [hneg.2 (e2.resolve_left h)]

example : miPow (.stat 13 true) 3 6 = ok 1 ∧ miMul (.stat 13 true) 4 4 = ok 3 ∧ miPow (.stat 13 true) 2 6 = ok 12 ∧
    ∀ b < 13, miMul (.stat 13 true) b b ≠ ok 2 := by
  decide +kernel

/-- C109: logarithms. With `g = primitive_root(p)`, every non-zero modular integer is `pow(g, e)` for exactly one
`e < p - 1`. -/
theorem C109_log {k : MKind} {p : Nat} (hk : KOk k p) (hp : p.Prime) (hp2 : p < 2 ^ 31) :
    ∃ g : Nat, primitiveRoot p = ok (g : Int) ∧ ∀ a, 1 ≤ a → a < p → ∃! e, e < p - 1 ∧ miPow k g e = ok a := by
  have := Fact.mk hp
  have h2 := hp.two_le
  obtain ⟨g, e, hg1, hgp, hroot, -⟩ := C41_primitive_root hp hp2
  refine ⟨g, e, ?_⟩
  have hpw : ∀ {n}, n < 2 ^ 64 → miPow k g n = ok (g ^ n % p) := fun hn =>
    (C44_pow_partial hk (by omega) hgp hn).1 (.inl h2)
  have hg0 : (g : ZMod p) ≠ 0 := fun h => by
    have := (cast_eq_of_lt hgp hp.pos).1 (by simpa using h)
    omega
  have hred : ∀ n, g ^ n % p = g ^ (n % (p - 1)) % p := by
    intro n
    rw [← ZMod.natCast_eq_natCast_iff']
    push_cast
    conv_lhs => rw [← Nat.mod_add_div n (p - 1), pow_add, pow_mul, ZMod.pow_card_sub_one_eq_one hg0, one_pow, mul_one]
  -- the map from exponents to residues is onto a set of the same size
  have hsurj : Set.SurjOn (fun n => g ^ n % p) (Finset.range (p - 1) : Set Nat) (Finset.Ico 1 p : Set Nat) := by
    intro a ha
    simp only [Finset.coe_Ico, Set.mem_Ico] at ha
    obtain ⟨n, hn⟩ := hroot a ha.1 ha.2
    refine ⟨n % (p - 1), by simpa using Nat.mod_lt _ (by omega), ?_⟩
    simp only []
    rw [← hred, hn]
  have hinj := Finset.injOn_of_surjOn_of_card_le (s := Finset.range (p - 1)) (t := Finset.Ico 1 p)
    (fun n => g ^ n % p) (by
      intro n _
      simp only [Finset.coe_Ico, Set.mem_Ico]
      refine ⟨?_, Nat.mod_lt _ hp.pos⟩
      apply Nat.pos_of_ne_zero
      intro h
      apply pow_ne_zero n hg0
      have := (ZMod.natCast_eq_natCast_iff' (g ^ n) 0 p).2 (by simpa using h)
      simpa using this) hsurj (by simp)
  intro a ha1 hap
  obtain ⟨n, hn, hna⟩ := hsurj (show a ∈ (Finset.Ico 1 p : Set Nat) by simp; omega)
  simp only [Finset.coe_range, Set.mem_Iio] at hn
  simp only [] at hna
  refine ⟨n, ⟨hn, by rw [hpw (by omega), hna]⟩, ?_⟩
  rintro n' ⟨hn', e'⟩
  rw [hpw (by omega)] at e'
  injection e' with e'
  exact hinj (by simpa using hn') (by simpa using hn) (by simp only []; rw [e', hna])

example : primitiveRoot 13 = ok 2 ∧ (List.range 12).map (miPow (.stat 13 true) 2) =
    [1, 2, 4, 8, 3, 6, 12, 11, 9, 5, 10, 7].map ok := by
  decide +kernel

/-! ### Binomials -/

theorem mapM_ok {f : Nat → Res Nat} {g : Nat → Nat} : ∀ {l : List Nat}, (∀ x ∈ l, f x = ok (g x)) →
    l.mapM f = ok (l.map g)
  | [], _ => rfl
  | x :: l, h => by
    rw [List.mapM_cons, h x (by simp), ok_bind, mapM_ok (fun y hy => h y (List.mem_cons_of_mem _ hy)), ok_bind]
    rfl

theorem list_sum_mod (m : Nat) (f : Nat → Nat) : ∀ l : List Nat,
    (l.map fun i => f i % m).sum % m = (l.map f).sum % m
  | [] => rfl
  | x :: l => by
    rw [List.map_cons, List.map_cons, List.sum_cons, List.sum_cons, Nat.add_mod, Nat.mod_mod, list_sum_mod m f l,
      ← Nat.add_mod]

theorem list_sum_range (f : Nat → Nat) : ∀ n, ((List.range n).map f).sum = ∑ i ∈ Finset.range n, f i
  | 0 => rfl
  | n + 1 => by
    rw [List.range_succ, List.map_append, List.sum_append, Finset.sum_range_succ, list_sum_range f n]
    simp

section
variable {p n : Nat} {h : Bool} {t : Factorial}

theorem choose_of_new (hp : p.Prime) (hp2 : p < 2 ^ 31) (hn : n < p) (ht : factorialNew (.stat p h) n = ok t) :
    ∀ a r, r ≤ a → a ≤ n → t.choose (.stat p h) a r = ok (a.choose r % p) ∧
      t.perm (.stat p h) a r = ok (a.descFactorial r % p) := by
  have hnf : n + 1 < 2 ^ 64 := by omega
  have hc : Nat.Coprime (n !) p := (hp.coprime_iff_not_dvd.2 fun hd => by
    have := (Nat.Prime.dvd_factorial hp).1 hd; omega).symm
  obtain ⟨t', e, ht'⟩ := (C49_any_modulus (h := h) hp.one_le (by omega) hnf (fun _ => ⟨hp, hp2⟩)).1 hc
  rw [ht] at e
  cases e
  exact ht'

/-- C109: Pascal's triangle and its symmetry. -/
theorem C109_pascal (hp : p.Prime) (hp2 : p < 2 ^ 31) (hn : n < p) (ht : factorialNew (.stat p h) n = ok t) {a r : Nat}
    (hr : r < a) (ha : a < n) :
    ∃ u v, t.choose (.stat p h) a r = ok u ∧ t.choose (.stat p h) a (r + 1) = ok v ∧
      t.choose (.stat p h) (a + 1) (r + 1) = miAdd (.stat p h) u v ∧ t.choose (.stat p h) a (a - r) = ok u := by
  have hc := choose_of_new hp hp2 hn ht
  have hk : KOk (.stat p h) p := .inl ⟨h, rfl⟩
  refine ⟨_, _, (hc a r (by omega) (by omega)).1, (hc a (r + 1) (by omega) (by omega)).1, ?_, ?_⟩
  · rw [(hc (a + 1) (r + 1) (by omega) (by omega)).1,
      (C43_ring_ops hk (by omega) (Nat.mod_lt _ hp.pos) (Nat.mod_lt _ hp.pos)).1, ← Nat.add_mod, Nat.choose_succ_succ]
  · rw [(hc a (a - r) (by omega) (by omega)).1, Nat.choose_symm (by omega)]

/-- C109: `choose(a, r)` times `perm(r, r)` is `perm(a, r)`. -/
theorem C109_perm (hp : p.Prime) (hp2 : p < 2 ^ 31) (hn : n < p) (ht : factorialNew (.stat p h) n = ok t) {a r : Nat}
    (hr : r ≤ a) (ha : a ≤ n) :
    ∃ u v, t.choose (.stat p h) a r = ok u ∧ t.perm (.stat p h) r r = ok v ∧
      t.perm (.stat p h) a r = miMul (.stat p h) u v := by
  have hc := choose_of_new hp hp2 hn ht
  have hk : KOk (.stat p h) p := .inl ⟨h, rfl⟩
  refine ⟨_, _, (hc a r hr ha).1, (hc r r (Nat.le_refl _) (by omega)).2, ?_⟩
  rw [(hc a r hr ha).2, (C43_ring_ops hk (by omega) (Nat.mod_lt _ hp.pos) (Nat.mod_lt _ hp.pos)).2.2.2,
    ← Nat.mul_mod, Nat.descFactorial_self, Nat.descFactorial_eq_factorial_mul_choose, Nat.mul_comm]

/-- C109: the sum of a row is a power of two. -/
theorem C109_row (hp : p.Prime) (hp3 : 3 ≤ p) (hp2 : p < 2 ^ 31) (hn : n < p) (ht : factorialNew (.stat p h) n = ok t)
    {a : Nat} (ha : a ≤ n) :
    ∃ L, (List.range (a + 1)).mapM (t.choose (.stat p h) a) = ok L ∧
      miSum (.stat p h) L = miPow (.stat p h) 2 a := by
  have hc := choose_of_new hp hp2 hn ht
  have hk : KOk (.stat p h) p := .inl ⟨h, rfl⟩
  refine ⟨_, mapM_ok (g := fun r => a.choose r % p) fun r hr =>
    (hc a r (by rw [List.mem_range] at hr; omega) ha).1, ?_⟩
  rw [C46_sum hk hp.one_le (by omega) (by
      intro x hx
      obtain ⟨r, -, rfl⟩ := List.mem_map.1 hx
      exact Nat.mod_lt _ hp.pos),
    (C44_pow_partial hk (by omega) (by omega) (by omega)).1 (.inl (by omega)), list_sum_mod, ← Nat.sum_range_choose,
    list_sum_range]

/-- C109: Vandermonde's identity. -/
theorem C109_vandermonde (hp : p.Prime) (hp2 : p < 2 ^ 31) (hn : n < p) (ht : factorialNew (.stat p h) n = ok t)
    {a b r : Nat} (hra : r ≤ a) (hrb : r ≤ b) (hab : a + b ≤ n) :
    ∃ L, (List.range (r + 1)).mapM (fun i => do
        let u ← t.choose (.stat p h) a i
        let v ← t.choose (.stat p h) b (r - i)
        miMul (.stat p h) u v) = ok L ∧
      t.choose (.stat p h) (a + b) r = miSum (.stat p h) L := by
  have hc := choose_of_new hp hp2 hn ht
  have hk : KOk (.stat p h) p := .inl ⟨h, rfl⟩
  refine ⟨_, mapM_ok (g := fun i => a.choose i * b.choose (r - i) % p) fun i hi => ?_, ?_⟩
  · rw [List.mem_range] at hi
    rw [(hc a i (by omega) (by omega)).1, ok_bind, (hc b (r - i) (by omega) (by omega)).1, ok_bind,
      (C43_ring_ops hk (by omega) (Nat.mod_lt _ hp.pos) (Nat.mod_lt _ hp.pos)).2.2.2, ← Nat.mul_mod]
  · rw [C46_sum hk hp.one_le (by omega) (by
      intro x hx
      obtain ⟨r, -, rfl⟩ := List.mem_map.1 hx
      exact Nat.mod_lt _ hp.pos),
      (hc (a + b) r (by omega) (by omega)).1, list_sum_mod, Nat.add_choose_eq,
      Finset.Nat.sum_antidiagonal_eq_sum_range_succ_mk, list_sum_range]

/-- C109: Wilson's theorem: in the largest table, `perm(p - 1, p - 1)` is `-1`. -/
theorem C109_wilson (hp : p.Prime) (hp2 : p < 2 ^ 31) (ht : factorialNew (.stat p h) (p - 1) = ok t) :
    t.perm (.stat p h) (p - 1) (p - 1) = ok (p - 1) := by
  have := Fact.mk hp
  have h2 := hp.two_le
  rw [(choose_of_new hp hp2 (by omega) ht (p - 1) (p - 1) (Nat.le_refl _) (Nat.le_refl _)).2, Nat.descFactorial_self]
  congr 1
  rw [← cast_eq_of_lt (p := p) (Nat.mod_lt _ hp.pos) (by omega), ZMod.natCast_mod, ZMod.wilsons_lemma,
    Nat.cast_sub (by omega), ZMod.natCast_self]
  simp

end

-- modulus 7, the largest table
example : (do
    let t ← factorialNew (.stat 7 true) 6
    let a ← t.choose (.stat 7 true) 5 2
    let b ← t.choose (.stat 7 true) 5 3
    let c ← t.choose (.stat 7 true) 6 3
    let d ← t.perm (.stat 7 true) 6 6
    ok [a, b, c, d]) = ok [3, 3, 6, 6] := by
  decide +kernel

end Verif.Props
