import Verif.Model.Modint
import Verif.Spec.Modint
import Verif.Proof.PrimitiveRoot
import Verif.Props.InternalMath
/-! Proofs about modints. -/
namespace Verif.MIP
open Model Res NTP IMP Spec

/-- `k` is a kind with modulus `m`: a static one, or a dynamic one after `set_modulus(m)`. -/
def KOk (k : MKind) (m : Nat) : Prop := (∃ h, k = .stat m h) ∨ ∃ bt, setModulus m = ok bt ∧ k = .dyn bt

theorem setModulus_eq {m : Nat} (hm : 1 ≤ m) : setModulus m = ok ⟨m, waddU 64 ((2 ^ 64 - 1) / m) 1⟩ := by
  unfold setModulus barrettUpdate
  rw [if_neg (by omega), if_neg (by omega)]

theorem KOk.pos {k : MKind} {m : Nat} (h : KOk k m) (hs : ∀ h, k ≠ .stat 0 h) : 1 ≤ m := by
  rcases h with ⟨h, rfl⟩ | ⟨bt, e, rfl⟩
  · rcases m with _ | m
    · exact absurd rfl (hs h)
    · omega
  · rcases m with _ | m
    · simp [setModulus] at e
    · omega

theorem KOk.modulus {k : MKind} {m : Nat} (h : KOk k m) (hm : 1 ≤ m) : k.modulus = m := by
  rcases h with ⟨h, rfl⟩ | ⟨bt, e, rfl⟩
  · rfl
  · rw [setModulus_eq hm] at e
    injection e with e
    rw [← e]; rfl

/-! ### construction -/

theorem remEuclid_eq {ty : IntTy} {x : Int} {m : Nat} (hm : 1 ≤ m) : remEuclid ty x m = ok (x % m) := by
  unfold remEuclid
  rw [rem_ok (by omega) (fun h => by have := h.2.2; omega), ok_bind]
  congr 1
  have h1 := Int.emod_nonneg x (b := (m : Int)) (by omega)
  have h2 := Int.emod_lt_of_pos x (b := (m : Int)) (by omega)
  rw [Int.tmod_eq_emod]
  have e : ((m : Int).natAbs : Int) = m := by omega
  rw [e]
  by_cases h : 0 ≤ x ∨ (m : Int) ∣ x
  · rw [if_pos h]; split <;> omega
  · have h3 : x % m ≠ 0 := fun h0 => h (.inr (Int.dvd_of_emod_eq_zero h0))
    rw [if_neg h]; split <;> omega

theorem remEuclidU32_eq {ty : IntTy} (hty : ty ∈ IntTy.all) {v : Int} (hv : ty.In v) {m : Nat} (hm : 1 ≤ m)
    (hm2 : m < 2 ^ 32) : remEuclidU32 ty v m = ok (v % m).toNat := by
  have h1 := Int.emod_nonneg v (b := (m : Int)) (by omega)
  have h2 := Int.emod_lt_of_pos v (b := (m : Int)) (by omega)
  have e1 : (v % (m : Int) % 2 ^ 32).toNat = (v % (m : Int)).toNat := by
    rw [Int.emod_eq_of_lt h1 (by omega)]
  unfold remEuclidU32
  by_cases hs : ty.signed = true
  · rw [if_pos hs]
    split
    · rw [remEuclid_eq hm, ok_bind, e1]
    · rw [remEuclid_eq hm, ok_bind, e1]
  · rw [if_neg hs]
    have hv0 : 0 ≤ v := by
      have := hv.1
      unfold IntTy.mn at this
      rw [if_neg hs] at this
      exact this
    obtain ⟨w, rfl⟩ := Int.eq_ofNat_of_zero_le hv0
    have e2 : ((w : Int) % (m : Int)).toNat = w % m := by
      rw [← Int.natCast_mod]; rfl
    rw [e2]
    have e3 : ∀ u, remU u m = ok (u % m) := fun u => by unfold remU; rw [if_neg (by omega)]
    rw [e3, e3]
    split
    · rename_i hb
      have hlt : w < 2 ^ 32 := by
        have h3 := hv.2
        have : ty.mx ≤ 2 ^ 32 - 1 := by
          clear hv h3
          revert hb hs
          revert ty
          decide
        omega
      congr 1
      have : (((w : Nat) : Int) % 2 ^ 32).toNat = w := by omega
      rw [this]
    · rw [ok_bind, Int.toNat_natCast]
      have := Nat.mod_lt w (show 0 < m by omega)
      rw [Nat.mod_eq_of_lt (a := w % m) (by omega)]

theorem new_i64 {k : MKind} {m : Nat} (hk : k.modulus = m) (hm : 1 ≤ m) (hm2 : m < 2 ^ 32) {v : Int} (hv : i64.In v) :
    miNew k i64 v = ok (v % m).toNat := by
  unfold miNew
  rw [hk]
  exact remEuclidU32_eq (by decide) hv hm hm2

/-! ### ring operations -/

theorem add_eq {k : MKind} {m a b : Nat} (hk : k.modulus = m) (ha : a < m) (hb : b < m) (hab : a + b < 2 ^ 32) :
    miAdd k a b = ok ((a + b) % m) := by
  unfold miAdd
  rw [addU_of_lt hab, ok_bind, hk]
  split
  · rename_i h
    rw [subU_of_le h, Nat.mod_eq_sub_mod h, Nat.mod_eq_of_lt (by omega)]
  · rw [Nat.mod_eq_of_lt (by omega)]

theorem sub_eq {k : MKind} {m a b : Nat} (hk : k.modulus = m) (hm2 : m < 2 ^ 32) (ha : a < m) (hb : b < m)
    (hab : b ≤ a + (2 ^ 32 - m)) : miSub k a b = ok ((a + (m - b)) % m) := by
  unfold miSub
  rw [hk]
  simp only []
  congr 1
  unfold wsubU waddU
  have e1 : b % 2 ^ 32 = b := Nat.mod_eq_of_lt (by omega)
  rw [e1]
  by_cases h : b ≤ a
  · have e2 : (a + (2 ^ 32 - b)) % 2 ^ 32 = a - b := by omega
    have e3 : (a + (m - b)) % m = a - b := by
      rw [show a + (m - b) = (a - b) + m by omega, Nat.add_mod_right, Nat.mod_eq_of_lt (by omega)]
    rw [e2, e3, if_neg (by omega)]
  · have e2 : (a + (2 ^ 32 - b)) % 2 ^ 32 = a + 2 ^ 32 - b := by omega
    have e3 : (a + (m - b)) % m = a + (m - b) := Nat.mod_eq_of_lt (by omega)
    rw [e2, e3, if_pos (by omega)]
    omega

/-- Multiplication is exact on canonical operands. -/
def MulOk (k : MKind) (m : Nat) : Prop := ∀ a b, a < m → b < m → miMul k a b = ok (a * b % m)

theorem mul_stat {m : Nat} {h : Bool} (hm2 : m < 2 ^ 32) : MulOk (.stat m h) m := by
  intro a b ha hb
  have h1 : a * b < 2 ^ 64 := by
    have : a * b ≤ (2 ^ 32 - 1) * (2 ^ 32 - 1) := Nat.mul_le_mul (by omega) (by omega)
    omega
  have h2 := Nat.mod_lt (a * b) (show 0 < m by omega)
  simp only [miMul, remU]
  rw [mulU_of_lt h1, ok_bind, if_neg (by omega), ok_bind, Nat.mod_eq_of_lt (a := a * b % m) (by omega)]

theorem mul_ok {k : MKind} {m : Nat} (hk : KOk k m) (hm2 : m ≤ 2 ^ 31) : MulOk k m := by
  rcases hk with ⟨h, rfl⟩ | ⟨bt, e, rfl⟩
  · exact mul_stat (by omega)
  · intro a b ha hb
    rw [setModulus_eq (by omega)] at e
    injection e with e
    subst e
    simp only [miMul]
    exact barrett_mul hm2 ha hb rfl

/-- With modulus 1, the non-canonical `raw(1)` times 0 is 0. -/
theorem mul_one_zero {k : MKind} (hk : KOk k 1) : miMul k 1 0 = ok 0 := by
  rcases hk with ⟨h, rfl⟩ | ⟨bt, e, rfl⟩
  · rfl
  · rw [setModulus_eq (by omega)] at e
    injection e with e
    subst e
    rfl

/-! ### powers -/

theorem powLoop {k : MKind} {m : Nat} (hk : MulOk k m) (hm : 1 ≤ m) (T : Nat) :
    ∀ (fuel n r x : Nat), n < 2 ^ fuel → r < m → x < m → r * x ^ n % m = T →
      loop (fuel + 1) (x, r, n) (miPowStep k) = ok T := by
  intro fuel
  induction fuel with
  | zero =>
    intro n r x hn hr hx hT
    have : n = 0 := by omega
    subst this
    simp only [loop, miPowStep]
    rw [if_neg (by omega), ok_bind]
    simp only []
    rw [← hT, pow_zero, Nat.mul_one, Nat.mod_eq_of_lt hr]
  | succ fuel ih =>
    intro n r x hn hr hx hT
    rw [loop]
    simp only [miPowStep]
    by_cases hn0 : n = 0
    · subst hn0
      rw [if_neg (by omega), ok_bind]
      simp only []
      rw [← hT, pow_zero, Nat.mul_one, Nat.mod_eq_of_lt hr]
    rw [if_pos (by omega)]
    have hsq : ∀ r' : Nat, (r' * (x * x % m) ^ (n / 2)) % m = (r' * x ^ (2 * (n / 2))) % m := by
      intro r'
      rw [Nat.mul_mod, Nat.pow_mod, Nat.mod_mod, ← Nat.pow_mod, ← Nat.mul_mod, ← Nat.pow_two, ← Nat.pow_mul]
    have hn2 : n / 2 < 2 ^ fuel := by rw [Nat.pow_succ] at hn; omega
    by_cases hodd : n % 2 = 1
    · rw [if_pos hodd, hk _ _ hr hx, ok_bind, hk _ _ hx hx, ok_bind, ok_bind]
      refine ih (n / 2) _ _ hn2 (Nat.mod_lt _ hm) (Nat.mod_lt _ hm) ?_
      rw [hsq, Nat.mul_mod, Nat.mod_mod, ← Nat.mul_mod, Nat.mul_assoc, ← Nat.pow_succ', ← hT]
      congr 3
      omega
    · rw [if_neg hodd, ok_bind, hk _ _ hx hx, ok_bind, ok_bind]
      refine ih (n / 2) _ _ hn2 hr (Nat.mod_lt _ hm) ?_
      rw [hsq, ← hT]
      congr 3
      omega

theorem pow_eq {k : MKind} {m x n : Nat} (hk : MulOk k m) (hm : 2 ≤ m) (hx : x < m) (hn : n < 2 ^ 64) :
    miPow k x n = ok (x ^ n % m) :=
  powLoop hk (by omega) _ 64 n 1 x hn (by omega) hx (by rw [Nat.one_mul])

theorem powLoop_one {k : MKind} (hk : MulOk k 1) (h10 : miMul k 1 0 = ok 0) :
    ∀ (fuel n r : Nat), n < 2 ^ fuel → r ≤ 1 →
      loop (fuel + 1) (0, r, n) (miPowStep k) = ok (if n = 0 then r else 0) := by
  intro fuel
  have h00 : miMul k 0 0 = ok 0 := hk 0 0 (by omega) (by omega)
  have hr0 : ∀ r, r ≤ 1 → miMul k r 0 = ok 0 := by
    intro r hr
    rcases r with _ | _ | r
    · exact h00
    · exact h10
    · omega
  induction fuel with
  | zero =>
    intro n r hn hr
    have : n = 0 := by omega
    subst this
    simp only [loop, miPowStep]
    rw [if_neg (by omega), ok_bind]
    rfl
  | succ fuel ih =>
    intro n r hn hr
    rw [loop]
    simp only [miPowStep]
    by_cases hn0 : n = 0
    · subst hn0
      rw [if_neg (by omega), ok_bind]
      rfl
    rw [if_pos (by omega), if_neg hn0]
    have hn2 : n / 2 < 2 ^ fuel := by rw [Nat.pow_succ] at hn; omega
    by_cases hodd : n % 2 = 1
    · rw [if_pos hodd, hr0 r hr, ok_bind, h00, ok_bind, ok_bind]
      simp only []
      rw [ih (n / 2) 0 hn2 (by omega)]
      split <;> rfl
    · rw [if_neg hodd, ok_bind, h00, ok_bind, ok_bind]
      simp only []
      rw [ih (n / 2) r hn2 hr, if_neg (by omega)]

/-! ### inverses -/

theorem invGcd_path {k : MKind} {m a : Nat} (hk : k.modulus = m) (hm : 1 ≤ m) (hm2 : m < 2 ^ 32) (ha : a < 2 ^ 32) :
    (Nat.gcd a m = 1 → ∃ y, miInvGcd k a = ok y ∧ y < m ∧ a * y % m = 1 % m) ∧
    (Nat.gcd a m ≠ 1 → miInvGcd k a = panic) := by
  obtain ⟨⟨g, x⟩, e, h1, h2, h3, h4⟩ := invGcd_sat (a := (a : Int)) (b := (m : Int)) (i64_in.2 (by omega)) (by omega)
    (i64_in.2 (by omega))
  simp only at h1 h2 h3 h4
  have hg : g = (Nat.gcd a m : Int) := by rw [h1, Int.gcd_natCast_natCast]
  unfold miInvGcd
  rw [hk, e, ok_bind]
  simp only []
  constructor
  · intro hc
    rw [hc] at hg
    have hg1 : g = 1 := by rw [hg]; rfl
    rw [if_neg (by simpa using hg1)]
    rw [hg1] at h2 h4
    rw [new_i64 hk hm hm2 (i64_in.2 (by omega))]
    refine ⟨_, rfl, ?_, ?_⟩
    · rw [Int.emod_eq_of_lt h3 (by omega)]; omega
    · obtain ⟨y, rfl⟩ := Int.eq_ofNat_of_zero_le h3
      rw [Int.emod_eq_of_lt h3 (by omega), Int.toNat_natCast]
      have h5 : (m : Int) ∣ ((1 : Nat) : Int) - ((a * y : Nat) : Int) := by
        rw [← dvd_neg]
        push_cast
        rw [show -((1 : Int) - a * y) = y * a - 1 by ring]
        exact h2
      exact (Nat.modEq_iff_dvd.2 h5)
  · intro hc
    rw [if_pos]
    intro h
    rw [hg] at h
    exact hc (by exact_mod_cast h)

theorem inv_hint {m a : Nat} (hp : m.Prime) (hm : m < 2 ^ 31) (ha0 : a ≠ 0) (ha : a < m) :
    ∃ y, miInv (.stat m true) a = ok y ∧ y < m ∧ a * y % m = 1 := by
  have h2 := hp.two_le
  simp only [miInv]
  rw [if_neg ha0, if_neg (not_not.2 (i32_in.2 (by omega))), Props.C39_primes_accepted hp hm, ok_bind, if_pos rfl,
    subU_of_le h2, ok_bind, pow_eq (mul_stat (by omega)) h2 ha (by omega)]
  refine ⟨_, rfl, Nat.mod_lt _ (by omega), ?_⟩
  rw [Nat.mul_mod, Nat.mod_mod, ← Nat.mul_mod, ← Nat.pow_succ', show (m - 2).succ = m - 1 by omega]
  haveI := Fact.mk hp
  have h := ZMod.pow_card_sub_one_eq_one (p := m) (a := (a : ZMod m)) (by
    intro h0
    rw [ZMod.natCast_eq_zero_iff] at h0
    have := Nat.le_of_dvd (by omega) h0
    omega)
  rw [← Sprp.pow_eq_one_iff h2] at h
  exact h

theorem inv_hint_composite {m a : Nat} (hp : ¬ (m.Prime ∧ m < 2 ^ 31)) : miInv (.stat m true) a = panic := by
  simp only [miInv]
  split
  · rfl
  split
  · rfl
  rename_i h
  rw [not_not] at h
  have hi := i32_in.1 h
  obtain ⟨b, e, hb⟩ := Props.C39_is_prime m h
  rw [e, ok_bind, if_neg]
  rintro rfl
  have := (hb.1 rfl).2
  rw [Int.toNat_natCast] at this
  exact hp ⟨this, by omega⟩

/-! ### folds -/

theorem sum_eq {k : MKind} {m : Nat} (hk : k.modulus = m) (hm2 : m ≤ 2 ^ 31) :
    ∀ (l : List Nat) (acc : Nat), acc < m → (∀ x ∈ l, x < m) → foldRes (miAdd k) acc l = ok ((acc + l.sum) % m) := by
  intro l
  induction l with
  | nil => intro acc ha _; simp only [foldRes, List.sum_nil]; rw [Nat.add_zero, Nat.mod_eq_of_lt ha]
  | cons x l ih =>
    intro acc ha hl
    have hx := hl x (by simp)
    simp only [foldRes]
    rw [add_eq hk ha hx (by omega), ok_bind, ih _ (Nat.mod_lt _ (by omega)) (fun y hy => hl y (by simp [hy])),
      List.sum_cons, Nat.mod_add_mod, Nat.add_assoc]

theorem prod_eq {k : MKind} {m : Nat} (hk : MulOk k m) :
    ∀ (l : List Nat) (acc : Nat), acc < m → (∀ x ∈ l, x < m) → foldRes (miMul k) acc l = ok (acc * l.prod % m) := by
  intro l
  induction l with
  | nil => intro acc ha _; simp only [foldRes, List.prod_nil]; rw [Nat.mul_one, Nat.mod_eq_of_lt ha]
  | cons x l ih =>
    intro acc ha hl
    have hx := hl x (by simp)
    simp only [foldRes]
    rw [hk _ _ ha hx, ok_bind, ih _ (Nat.mod_lt _ (by omega)) (fun y hy => hl y (by simp [hy])),
      List.prod_cons, Nat.mod_mul_mod, Nat.mul_assoc]

end Verif.MIP
