import Verif.Props.NumberTheory
import Verif.Props.CountPrograms
import Mathlib.GroupTheory.GroupAction.Quotient
import Mathlib.GroupTheory.Index
import Mathlib.Data.Nat.Totient
import Mathlib.Data.ZMod.QuotientGroup
/-! C126: programs that use `gcd`: counting the numbers prime to `n`, necklaces with modular integers, and lattice points. -/
namespace Verif.Props
open Model Res Spec NTP IMP MIP FACP

/-! The programs are a user's, around `gcd` of /repo/src/math/number_theory.rs and `new`, `pow`, `+`, `/` of the modular
integers. -/

/-- `for i in 0..n { if gcd(i, n) == 1 { c += 1 } }`. -/
def countCoprime (n : Nat) : Res Nat :=
  forRange 0 n 0 fun i c => do
    let g ← gcd usizeTy i n
    if g = 1 then addU 64 c 1 else ok c

/-- `for i in 0..n { acc += M::new(c).pow(gcd(i, n)) }; acc / M::new(n)`. -/
def necklacesMod (k : MKind) (n c : Nat) : Res Nat := do
  let x ← miNew k usizeTy c
  let s ← forRange 0 n 0 fun i acc => do
    let g ← gcd usizeTy i n
    let y ← miPow k x g.toNat
    miAdd k acc y
  let d ← miNew k usizeTy n
  miDiv k s d

/-- Two colourings of `n` beads on a circle are the same necklace if one is a rotation of the other. -/
def rotSetoid (n c : Nat) : Setoid (ZMod n → Fin c) where
  r f g := ∃ s : ZMod n, ∀ x, f x = g (x + s)
  iseqv :=
    { refl := fun f => ⟨0, fun x => by rw [add_zero]⟩
      symm := fun {f g} ⟨s, h⟩ => ⟨-s, fun x => by rw [h, neg_add_cancel_right]⟩
      trans := fun {f g k} ⟨s, h⟩ ⟨t, h'⟩ => ⟨s + t, fun x => by rw [h, h', add_assoc]⟩ }

/-- The number of necklaces of `n` beads in `c` colours. -/
noncomputable def necklaces (n c : Nat) : Nat := Nat.card (Quotient (rotSetoid n c))

/-- Colourings, on which the rotations act. -/
def Beads (n c : Nat) : Type := ZMod n → Fin c

instance (n c : Nat) : AddAction (ZMod n) (Beads n c) where
  vadd s f := fun x => f (x + s)
  zero_vadd f := funext fun x => congrArg f (add_zero x)
  add_vadd s t f := funext fun x => congrArg f (by rw [add_assoc])

theorem beads_vadd {n c : Nat} (s : ZMod n) (f : Beads n c) (x : ZMod n) : (s +ᵥ f) x = f (x + s) := rfl

theorem index_zmultiples {n : Nat} (hn : 1 ≤ n) (i : Nat) :
    (AddSubgroup.zmultiples (i : ZMod n)).index = n.gcd i := by
  have h1 := AddSubgroup.index_mul_card (AddSubgroup.zmultiples (i : ZMod n))
  rw [Nat.card_zmultiples, Nat.card_zmod, ZMod.addOrderOf_coe i (by omega)] at h1
  have hg : 0 < n.gcd i := Nat.gcd_pos_of_pos_left _ hn
  have h2 := Nat.mul_div_cancel' (Nat.gcd_dvd_left n i)
  have h3 : 0 < n / n.gcd i := Nat.div_pos (Nat.gcd_le_left _ hn) hg
  exact Nat.eq_of_mul_eq_mul_right h3 (h1.trans h2.symm)

theorem fixed_coset {n c : Nat} {s : ZMod n} {f : Beads n c} (h : s +ᵥ f = f) (x : ZMod n) (z : Int) :
    f (x + z • s) = f x := by
  have h1 : ∀ y, f (y + s) = f y := fun y => congrFun h y
  induction z using Int.induction_on with
  | zero => rw [zero_smul, add_zero]
  | succ z ih => rw [add_smul, one_smul, ← add_assoc, h1, ih]
  | pred z ih =>
    rw [← ih, ← h1 (x + (-(z : Int) - 1) • s), sub_smul, one_smul, add_assoc, sub_add_cancel]

/-- Colourings unchanged by a rotation are colourings of its cosets. -/
def fixedEquiv (n c : Nat) (s : ZMod n) :
    AddAction.fixedBy (Beads n c) s ≃ ((ZMod n ⧸ AddSubgroup.zmultiples s) → Fin c) where
  toFun f := fun q => Quotient.liftOn' q f.1 (by
    intro a b hab
    rw [QuotientAddGroup.leftRel_apply] at hab
    obtain ⟨z, hz⟩ := AddSubgroup.mem_zmultiples_iff.1 hab
    have := fixed_coset f.2 a z
    rw [hz, add_neg_cancel_left] at this
    exact this.symm)
  invFun g := ⟨fun x => g (QuotientAddGroup.mk x), by
    refine funext fun x => congrArg g ?_
    rw [QuotientAddGroup.eq]
    refine AddSubgroup.mem_zmultiples_iff.2 ⟨-1, ?_⟩
    rw [neg_smul, one_smul, neg_add_rev, neg_add_cancel_right]⟩
  left_inv f := rfl
  right_inv g := funext fun q => Quotient.inductionOn' q fun _ => rfl

theorem card_fixed {n c : Nat} (hn : 1 ≤ n) (i : Nat) :
    Nat.card (AddAction.fixedBy (Beads n c) (i : ZMod n)) = c ^ n.gcd i := by
  have : NeZero n := ⟨by omega⟩
  rw [Nat.card_congr (fixedEquiv n c i), Nat.card_fun, Nat.card_fin]
  congr 1
  exact index_zmultiples hn i

theorem necklaces_mul {n c : Nat} (hn : 1 ≤ n) :
    ∑ i ∈ Finset.range n, c ^ n.gcd i = necklaces n c * n := by
  classical
  obtain ⟨m, rfl⟩ : ∃ m, n = m + 1 := ⟨n - 1, by omega⟩
  have : Fintype (Beads (m + 1) c) := inferInstanceAs (Fintype (ZMod (m + 1) → Fin c))
  have : Fintype (Quotient (AddAction.orbitRel (ZMod (m + 1)) (Beads (m + 1) c))) := Fintype.ofFinite _
  have hb := AddAction.sum_card_fixedBy_eq_card_orbits_mul_card_addGroup (ZMod (m + 1)) (Beads (m + 1) c)
  rw [ZMod.card, ← Nat.card_eq_fintype_card] at hb
  have he : necklaces (m + 1) c = Nat.card (Quotient (AddAction.orbitRel (ZMod (m + 1)) (Beads (m + 1) c))) := by
    refine Nat.card_congr (Quotient.congr (Equiv.refl _) fun f g => ?_)
    constructor
    · rintro ⟨s, h⟩
      exact ⟨s, (funext h).symm⟩
    · rintro ⟨s, h⟩
      exact ⟨s, fun x => (congrFun h x).symm⟩
  rw [he, ← hb, ← Fin.sum_univ_eq_sum_range (fun i => c ^ (m + 1).gcd i)]
  refine Finset.sum_congr rfl fun g _ => ?_
  rw [← Nat.card_eq_fintype_card, ← card_fixed hn]
  congr 3
  exact ZMod.natCast_zmod_val (n := m + 1) g

theorem gcd_nat {a b : Nat} (ha : a < 2 ^ 64) (hb : b < 2 ^ 64) : gcd usizeTy a b = ok ((a.gcd b : Nat) : Int) := by
  have h1 : ∀ x : Nat, x < 2 ^ 64 → usizeTy.In (x : Int) := by
    intro x hx
    simp only [usizeTy, IntTy.In, IntTy.mn, IntTy.mx]
    norm_num
    omega
  obtain ⟨g, e, -, -, h⟩ := C32_gcd (h1 a ha) (h1 b hb) (fun h => by simp [usizeTy] at h)
  rw [e, h (by omega) (by omega), Int.gcd_natCast_natCast]

theorem new_nat {k : MKind} {p v : Nat} (hk : KOk k p) (hp : 1 ≤ p) (hp2 : p < 2 ^ 32) (hv : v < 2 ^ 64) :
    miNew k usizeTy v = ok (v % p) := by
  have h1 : usizeTy.In (v : Int) := by
    simp only [usizeTy, IntTy.In, IntTy.mn, IntTy.mx]
    norm_num
    omega
  obtain ⟨r, e, hr, hd⟩ := C42_new hk hp hp2 (ty := usizeTy) (by decide) h1
  rw [e]
  congr 1
  have := (Nat.modEq_iff_dvd (a := r) (b := v) (n := p)).2 hd
  rw [← Nat.mod_eq_of_lt hr]
  exact this

/-- **C126, numbers prime to `n`.** The loop counts `φ(n)`. -/
theorem C126_coprime {n : Nat} (hn : n < 2 ^ 64) : countCoprime n = ok n.totient := by
  have : Sat (countCoprime n) (fun c => c = ((Finset.range n).filter n.Coprime).card) := by
    refine forRange_sat (fun j c => c = ((Finset.range j).filter n.Coprime).card) (Nat.zero_le _) (by simp) ?_
    rintro i c - hi rfl
    have hle : ((Finset.range i).filter n.Coprime).card ≤ i :=
      (Finset.card_filter_le _ _).trans (Finset.card_range i).le
    rw [gcd_nat (by omega) hn, ok_bind, Finset.range_add_one, Finset.filter_insert]
    by_cases h : n.Coprime i
    · have h' : ((i.gcd n : Nat) : Int) = 1 := by rw [Nat.gcd_comm]; exact_mod_cast h
      rw [if_pos h', if_pos h, addU_of_lt (by omega), sat_ok, Finset.card_insert_of_notMem (by simp)]
    · have h' : ¬ ((i.gcd n : Nat) : Int) = 1 := by
        intro h2; rw [Nat.gcd_comm] at h2; exact h (by exact_mod_cast h2)
      rw [if_neg h', if_neg h, sat_ok]
  obtain ⟨c, e, rfl⟩ := this
  rw [e]
  rfl

theorem necklace_sum {p : Nat} {h : Bool} (hp : p.Prime) (hp2 : p < 2 ^ 31) {n c : Nat} (hn : 1 ≤ n) (hn2 : n < 2 ^ 64) :
    Sat (forRange 0 n 0 fun i acc => do
      let g ← gcd usizeTy i n
      let y ← miPow (.stat p h) (c % p) g.toNat
      miAdd (.stat p h) acc y) (fun acc => acc < p ∧
      (acc : ZMod p) = ((∑ i ∈ Finset.range n, c ^ n.gcd i : Nat) : ZMod p)) := by
  have hk : KOk (.stat p h) p := .inl ⟨h, rfl⟩
  refine forRange_sat (fun j (acc : Nat) => acc < p ∧
    (acc : ZMod p) = ((∑ i ∈ Finset.range j, c ^ n.gcd i : Nat) : ZMod p)) (Nat.zero_le _) ⟨hp.pos, by simp⟩ ?_
  rintro i acc - hi ⟨h1, h2⟩
  have hg : i.gcd n < 2 ^ 64 := lt_of_le_of_lt (Nat.gcd_le_right _ hn) hn2
  rw [gcd_nat (by omega) hn2, ok_bind, Int.toNat_natCast,
    (C44_pow_partial hk (by omega) (Nat.mod_lt c hp.pos) hg).1 (.inl hp.two_le), ok_bind]
  obtain ⟨⟨r, e, hr, hz⟩, -⟩ := C43_zmod hk (by omega) h1 (Nat.mod_lt ((c % p) ^ i.gcd n) hp.pos)
  rw [e, sat_ok]
  refine ⟨hr, ?_⟩
  rw [hz, h2, Finset.sum_range_succ, Nat.cast_add, ZMod.natCast_mod, Nat.cast_pow, ZMod.natCast_mod, Nat.gcd_comm,
    Nat.cast_pow]

/-- **C126, necklaces.** For a prime modulus that does not divide `n`, the sum of the powers `c ^ gcd(i, n)` divided by `n` is
the number of necklaces of `n` beads in `c` colours, modulo `p`. -/
theorem C126_necklaces {p : Nat} {h : Bool} (hp : p.Prime) (hp2 : p < 2 ^ 31) {n c : Nat} (hn : 1 ≤ n) (hn2 : n < 2 ^ 64)
    (hc : c < 2 ^ 64) (hpn : ¬ p ∣ n) : necklacesMod (.stat p h) n c = ok (necklaces n c % p) := by
  have hk : KOk (.stat p h) p := .inl ⟨h, rfl⟩
  have : Fact p.Prime := ⟨hp⟩
  have hs := necklace_sum (h := h) (c := c) hp hp2 hn hn2
  obtain ⟨s, e, h1, h2⟩ := hs
  rw [necklacesMod, new_nat hk hp.one_le (by omega) hc, ok_bind, e, ok_bind, new_nat hk hp.one_le (by omega) hn2, ok_bind]
  have hcop : Nat.gcd (n % p) p = 1 := by
    rw [← Nat.gcd_rec, Nat.gcd_comm]
    exact ((hp.coprime_iff_not_dvd).2 hpn).symm
  obtain ⟨q, e2, hq, hm⟩ := (C45_div hk (by omega) (fun _ => ⟨hp, hp2⟩) h1 (Nat.mod_lt n hp.pos)).1 hcop
  rw [e2]
  congr 1
  refine eq_mod_of_zmod hq ?_
  obtain ⟨r, e3, -, hz⟩ := (C43_zmod hk (by omega) hq (Nat.mod_lt n hp.pos)).2.2.2.1
  rw [hm] at e3
  cases e3
  rw [h2, necklaces_mul hn, ZMod.natCast_mod, Nat.cast_mul] at hz
  have hn0 : (n : ZMod p) ≠ 0 := fun h0 => hpn ((ZMod.natCast_eq_zero_iff n p).1 h0)
  exact (mul_right_cancel₀ hn0 hz).symm

/-- **C126, necklaces, the panic.** If the modulus divides the number of beads, the division panics. -/
theorem C126_panics {p : Nat} {h : Bool} (hp : p.Prime) (hp2 : p < 2 ^ 31) {n c : Nat} (hn : 1 ≤ n) (hn2 : n < 2 ^ 64)
    (hc : c < 2 ^ 64) (hpn : p ∣ n) : necklacesMod (.stat p h) n c = .panic := by
  have hk : KOk (.stat p h) p := .inl ⟨h, rfl⟩
  obtain ⟨s, e, h1, -⟩ := necklace_sum (h := h) (c := c) hp hp2 hn hn2
  rw [necklacesMod, new_nat hk hp.one_le (by omega) hc, ok_bind, e, ok_bind, new_nat hk hp.one_le (by omega) hn2, ok_bind]
  refine (C45_div hk (by omega) (fun _ => ⟨hp, hp2⟩) h1 (Nat.mod_lt n hp.pos)).2 ?_
  rw [Nat.mod_eq_zero_of_dvd hpn, Nat.gcd_zero_left]
  exact hp.one_lt.ne'

/-- `gcd(a, b) + 1`. -/
def latticePoints (a b : Nat) : Res Nat := do
  let g ← gcd usizeTy a b
  addU 64 g.toNat 1

theorem card_lattice {a b : Nat} (hab : 0 < a ∨ 0 < b) :
    (((Finset.range (a + 1)) ×ˢ (Finset.range (b + 1))).filter fun q => q.1 * b = q.2 * a).card = a.gcd b + 1 := by
  have hg : 0 < a.gcd b := Nat.gcd_pos_iff.2 hab
  obtain ⟨u, v, hc, ha, hb⟩ := Nat.exists_coprime a b
  generalize a.gcd b = g at hg ha hb
  subst ha hb
  have huv : 0 < u ∨ 0 < v := by
    rcases hab with h | h
    · exact .inl (Nat.pos_of_mul_pos_right h)
    · exact .inr (Nat.pos_of_mul_pos_right h)
  have : ((Finset.range (u * g + 1)) ×ˢ (Finset.range (v * g + 1))).filter (fun q => q.1 * (v * g) = q.2 * (u * g)) =
      (Finset.range (g + 1)).image fun t => (u * t, v * t) := by
    ext ⟨x, y⟩
    simp only [Finset.mem_filter, Finset.mem_product, Finset.mem_range, Finset.mem_image, Prod.mk.injEq]
    constructor
    · rintro ⟨⟨h1, h2⟩, h3⟩
      have h4 : x * v = y * u := by
        refine Nat.eq_of_mul_eq_mul_right hg ?_
        rw [Nat.mul_assoc, h3, Nat.mul_assoc]
      rcases huv with h | h
      · obtain ⟨t, rfl⟩ := hc.dvd_of_dvd_mul_right (Dvd.intro_left y h4.symm)
        refine ⟨t, ?_, rfl, ?_⟩
        · have := Nat.le_of_mul_le_mul_left (show u * t ≤ u * g by omega) h
          omega
        · refine Nat.eq_of_mul_eq_mul_right h ?_
          rw [← h4]; ring
      · obtain ⟨t, rfl⟩ := hc.symm.dvd_of_dvd_mul_right (Dvd.intro_left x h4)
        refine ⟨t, ?_, ?_, rfl⟩
        · have := Nat.le_of_mul_le_mul_left (show v * t ≤ v * g by omega) h
          omega
        · refine Nat.eq_of_mul_eq_mul_right h ?_
          rw [h4]; ring
    · rintro ⟨t, ht, rfl, rfl⟩
      have h1 := Nat.mul_le_mul_left u (show t ≤ g by omega)
      have h2 := Nat.mul_le_mul_left v (show t ≤ g by omega)
      exact ⟨⟨by omega, by omega⟩, by ring⟩
  rw [this, Finset.card_image_of_injective, Finset.card_range]
  intro t t' h
  simp only [Prod.mk.injEq] at h
  rcases huv with h' | h'
  · exact Nat.eq_of_mul_eq_mul_left h' h.1
  · exact Nat.eq_of_mul_eq_mul_left h' h.2

/-- **C126, lattice points.** `gcd(a, b) + 1` is the number of points with integer coordinates on the segment from `(0, 0)` to
`(a, b)`, if these are two points. -/
theorem C126_lattice {a b : Nat} (hab : 0 < a ∨ 0 < b) (ha : a < 2 ^ 63) (hb : b < 2 ^ 63) :
    latticePoints a b = ok
      (((Finset.range (a + 1)) ×ˢ (Finset.range (b + 1))).filter fun q => q.1 * b = q.2 * a).card := by
  have hg : a.gcd b ≤ a + b := by
    rcases hab with h | h
    · have := Nat.gcd_le_left b h; omega
    · have := Nat.gcd_le_right a h; omega
  rw [card_lattice hab, latticePoints, gcd_nat (by omega) (by omega), ok_bind, Int.toNat_natCast, addU_of_lt (by omega)]

/-- The points `(0, 0)`, `(2, 3)`, `(4, 6)`. -/
example : latticePoints 4 6 = ok 3 ∧ latticePoints 0 5 = ok 6 := by decide +kernel

/-- Six beads in three colours: 130 necklaces, computed modulo 7 and modulo 998244353; `φ(12) = 4`. -/
example : Nat.Prime 7 ∧ ¬ 7 ∣ 6 ∧ necklacesMod (.stat 7 true) 6 3 = ok (130 % 7) ∧
    necklacesMod (.stat 998244353 false) 6 3 = ok 130 ∧ countCoprime 12 = ok 4 :=
  ⟨by decide, by decide, by decide +kernel, by decide +kernel, by decide +kernel⟩

/-- Seven beads modulo 7. -/
example : necklacesMod (.stat 7 true) 7 2 = .panic := by decide +kernel

end Verif.Props
