import Verif.Model.Factorial
import Verif.Props.Modint
import Mathlib.Data.Nat.Choose.Basic
import Mathlib.Data.Nat.Factorial.Basic
/-! Proofs about factorial tables. -/
namespace Verif.FACP
open Model Res NTP IMP MIP
open scoped Nat

theorem new_nat {k : MKind} {m i : Nat} (hk : k.modulus = m) (hm : 1 ≤ m) (hm2 : m < 2 ^ 32) {ty : IntTy}
    (hty : ty ∈ IntTy.all) (hi : ty.In (i : Int)) : miNew k ty (i : Int) = ok (i % m) := by
  unfold miNew
  rw [hk, remEuclidU32_eq hty hi hm hm2]
  congr 1

theorem assert_of {c : Prop} [Decidable c] (h : c) : assert c = ok () := if_pos h

theorem usize_in {i : Nat} (h : i < 2 ^ 64) : usizeTy.In (i : Int) := by
  unfold usizeTy IntTy.In IntTy.mn IntTy.mx
  simp
  omega

/-- The tables for modulus `m`, of length `n + 1`. -/
structure FRep (m n : Nat) (t : Factorial) : Prop where
  len : t.factorial.length = n + 1
  fac : ∀ i ≤ n, t.factorial[i]? = some (i ! % m)
  inv : ∀ i ≤ n, ∃ y, t.invFac[i]? = some y ∧ y < m ∧ y * i ! ≡ 1 [MOD m]

theorem new_fac {k : MKind} {m n : Nat} (hk : k.modulus = m) (hmul : MulOk k m) (hm : 1 ≤ m) (hm2 : m < 2 ^ 32)
    (hn : n + 1 < 2 ^ 64) {f : List Nat} (hf : f = (List.replicate (n + 1) (0 % m)).set 0 (1 % m)) :
    Sat (forRange 1 (n + 1) f fun i f => do
      let a ← idx f (i - 1)
      let b ← miNew k usizeTy (i : Int)
      let v ← miMul k a b
      upd f i v) fun f => f.length = n + 1 ∧ ∀ i ≤ n, f[i]? = some (i ! % m) := by
  refine (forRange_sat (fun j f => f.length = n + 1 ∧ ∀ i < j, f[i]? = some (i ! % m)) (by omega) ⟨?_, ?_⟩ ?_).mono ?_
  · rw [hf]; simp
  · intro i hi
    have : i = 0 := by omega
    subst this
    rw [hf]; simp
  · rintro j g hj1 hj2 ⟨hl, hg⟩
    rw [idx_of_some (hg (j - 1) (by omega)), ok_bind, new_nat hk hm hm2 (by decide) (usize_in (by omega)), ok_bind,
      hmul _ _ (Nat.mod_lt _ hm) (Nat.mod_lt _ hm), ok_bind, upd_of_lt (by omega), sat_ok]
    refine ⟨by simp [hl], fun i hi => ?_⟩
    rw [List.getElem?_set]
    by_cases h : j = i
    · subst h
      rw [if_pos rfl, if_pos (by omega), ← Nat.mul_mod]
      congr 2
      obtain ⟨j', rfl⟩ : ∃ j', j = j' + 1 := ⟨j - 1, by omega⟩
      rw [Nat.add_sub_cancel, Nat.factorial_succ, Nat.mul_comm]
    · rw [if_neg h]
      exact hg i (by omega)
  · rintro g ⟨hl, hg⟩
    exact ⟨hl, fun i hi => hg i (by omega)⟩

theorem new_inv {k : MKind} {m n y : Nat} (hk : k.modulus = m) (hmul : MulOk k m) (hm : 1 ≤ m) (hm2 : m < 2 ^ 32)
    (hn : n + 1 < 2 ^ 64) (hy : y < m) (hyn : y * n ! ≡ 1 [MOD m]) {g : List Nat} (hgl : g.length = n + 1)
    (hgy : g[n]? = some y) :
    Sat (forRangeRev 0 n g fun i g => do
      let a ← idx g (i + 1)
      let b ← miNew k usizeTy ((i : Int) + 1)
      let v ← miMul k a b
      upd g i v) fun g => ∀ i ≤ n, ∃ y, g[i]? = some y ∧ y < m ∧ y * i ! ≡ 1 [MOD m] := by
  refine (forRangeRev_sat (fun j g => g.length = n + 1 ∧ ∀ i, j ≤ i → i ≤ n → ∃ y, g[i]? = some y ∧ y < m ∧ y * i ! ≡ 1 [MOD m])
    (by omega) ⟨hgl, ?_⟩ ?_).mono ?_
  · intro i h1 h2
    have : i = n := by omega
    subst this
    exact ⟨y, hgy, hy, hyn⟩
  · rintro j t _ hj ⟨hl, ht⟩
    obtain ⟨y', e, h1, h2⟩ := ht (j + 1) (by omega) (by omega)
    have e2 : miNew k usizeTy ((j : Int) + 1) = ok ((j + 1) % m) := by
      have := new_nat hk hm hm2 (ty := usizeTy) (by decide) (usize_in (i := j + 1) (by omega))
      push_cast at this
      exact this
    rw [idx_of_some e, ok_bind, e2, ok_bind, hmul _ _ h1 (Nat.mod_lt _ hm), ok_bind, upd_of_lt (by omega), sat_ok]
    refine ⟨by simp [hl], fun i hi1 hi2 => ?_⟩
    rw [List.getElem?_set]
    by_cases h : j = i
    · subst h
      rw [if_pos rfl, if_pos (by omega)]
      refine ⟨_, rfl, Nat.mod_lt _ hm, ?_⟩
      calc y' * ((j + 1) % m) % m * j ! ≡ y' * (j + 1) * j ! [MOD m] :=
            ((Nat.mod_modEq _ _).trans ((Nat.mod_modEq _ _).mul_left _)).mul_right _
        _ = y' * (j + 1)! := by rw [Nat.factorial_succ]; ring
        _ ≡ 1 [MOD m] := h2
    · rw [if_neg h]
      exact ht i (by omega) hi2
  · rintro t ⟨_, ht⟩ i hi
    exact ht i (by omega) hi

/-- `new` builds the tables, or panics when `n!` is not invertible. -/
theorem new_sat {k : MKind} {m n : Nat} (hk : k.modulus = m) (hmul : MulOk k m) (hm : 1 ≤ m) (hm2 : m < 2 ^ 32)
    (hn : n + 1 < 2 ^ 64)
    (hinv : ∀ a < m, (Nat.gcd a m = 1 → ∃ y, miInv k a = ok y ∧ y < m ∧ a * y % m = 1 % m) ∧
      (Nat.gcd a m ≠ 1 → miInv k a = panic)) :
    (Nat.Coprime (n !) m → Sat (factorialNew k n) (FRep m n)) ∧ (¬ Nat.Coprime (n !) m → factorialNew k n = panic) := by
  have ez : miNew k i32 0 = ok (0 % m) := new_nat (i := 0) hk hm hm2 (by decide) (by decide)
  have eo : miNew k i32 1 = ok (1 % m) := new_nat (i := 1) hk hm hm2 (by decide) (by decide)
  obtain ⟨f, ef, hfl, hff⟩ := new_fac hk hmul hm hm2 hn rfl
  have hg : Nat.gcd (n ! % m) m = Nat.gcd (n !) m := by rw [← Nat.gcd_rec, Nat.gcd_comm]
  obtain ⟨h1, h2⟩ := hinv (n ! % m) (Nat.mod_lt _ hm)
  rw [hg] at h1 h2
  unfold factorialNew
  simp only []
  rw [addU_of_lt hn, ok_bind, ez, ok_bind, eo, ok_bind, upd_of_lt (by simp), ok_bind, ef, ok_bind,
    idx_of_some (hff n (le_refl _)), ok_bind]
  constructor
  · intro hc
    obtain ⟨y, e, hy, hyn⟩ := h1 hc
    have hyn' : y * n ! ≡ 1 [MOD m] := by
      rw [Nat.mul_comm]
      exact ((Nat.mod_modEq (n !) m).symm.mul_right y).trans hyn
    rw [e, ok_bind, upd_of_lt (by simp), ok_bind]
    obtain ⟨g, eg, hgg⟩ := new_inv hk hmul hm hm2 hn hy hyn' (g := (List.replicate (n + 1) (0 % m)).set n y) (by simp)
      (by simp)
    rw [eg, ok_bind, sat_ok]
    exact ⟨hfl, hff, hgg⟩
  · intro hc
    rw [h2 hc]
    rfl

theorem choose_eq {k : MKind} {m n a r : Nat} {t : Factorial} (hmul : MulOk k m) (hm : 1 ≤ m) (ht : FRep m n t)
    (hra : r ≤ a) (ha : a ≤ n) : t.choose k a r = ok (a.choose r % m) := by
  obtain ⟨y, e1, hy, hy1⟩ := ht.inv (a - r) (by omega)
  obtain ⟨z, e2, hz, hz1⟩ := ht.inv r (by omega)
  unfold Factorial.choose
  have hl := ht.len
  rw [assert_of hra, ok_bind, assert_of (by omega), ok_bind, idx_of_some (ht.fac a ha), ok_bind, subU_of_le hra, ok_bind,
    idx_of_some e1, ok_bind, hmul _ _ (Nat.mod_lt _ hm) hy, ok_bind, idx_of_some e2, ok_bind,
    hmul _ _ (Nat.mod_lt _ hm) hz]
  congr 1
  show _ ≡ _ [MOD m]
  calc a ! % m * y % m * z ≡ a ! * y * z [MOD m] :=
        ((Nat.mod_modEq _ _).trans ((Nat.mod_modEq _ _).mul_right _)).mul_right _
    _ = a.choose r * (z * r !) * (y * (a - r)!) := by rw [← Nat.choose_mul_factorial_mul_factorial hra]; ring
    _ ≡ a.choose r * 1 * 1 [MOD m] := (hz1.mul_left _).mul hy1
    _ = a.choose r := by ring

theorem perm_eq {k : MKind} {m n a r : Nat} {t : Factorial} (hmul : MulOk k m) (hm : 1 ≤ m) (ht : FRep m n t)
    (hra : r ≤ a) (ha : a ≤ n) : t.perm k a r = ok (a.descFactorial r % m) := by
  obtain ⟨y, e1, hy, hy1⟩ := ht.inv (a - r) (by omega)
  unfold Factorial.perm
  have hl := ht.len
  rw [assert_of hra, ok_bind, assert_of (by omega), ok_bind, idx_of_some (ht.fac a ha), ok_bind, subU_of_le hra, ok_bind,
    idx_of_some e1, ok_bind, hmul _ _ (Nat.mod_lt _ hm) hy]
  congr 1
  show _ ≡ _ [MOD m]
  calc a ! % m * y ≡ a ! * y [MOD m] := (Nat.mod_modEq _ _).mul_right _
    _ = a.descFactorial r * (y * (a - r)!) := by rw [← Nat.factorial_mul_descFactorial hra]; ring
    _ ≡ a.descFactorial r * 1 [MOD m] := hy1.mul_left _
    _ = a.descFactorial r := by ring

end Verif.FACP
