import Verif.Proof.Modint
import Mathlib.Tactic.Ring
/-! Modint operations on values that are not reduced. -/
namespace Verif.MRP
open Model Res Spec NTP IMP MIP

/-- The Barrett product of any two `u32` values. -/
theorem barrett_mul_raw {a b m im : Nat} (hm1 : 2 ≤ m) (hm2 : m ≤ 2 ^ 31) (ha : a < 2 ^ 32) (hb : b < 2 ^ 32)
    (him : im = waddU 64 ((2 ^ 64 - 1) / m) 1) : mulMod a b m im = ok (a * b % m) := by
  have hab : a * b ≤ (2 ^ 32 - 1) * (2 ^ 32 - 1) := Nat.mul_le_mul (by omega) (by omega)
  unfold mulMod
  rw [mulU_of_lt (by omega), ok_bind]
  have himlt : im < 2 ^ 64 := by rw [him]; exact Nat.mod_lt _ (by decide)
  rw [mulU_of_lt (by
    calc a * b * im < 2 ^ 64 * 2 ^ 64 := Nat.mul_lt_mul'' (by omega) himlt
      _ = 2 ^ 128 := by norm_num), ok_bind]
  simp only []
  congr 1
  have hmpos : 0 < m := by omega
  have hq : (2 ^ 64 - 1) / m + 1 < 2 ^ 64 := by
    have : (2 ^ 64 - 1) / m ≤ (2 ^ 64 - 1) / 2 := Nat.div_le_div_left (by omega) (by decide)
    omega
  have him' : im = (2 ^ 64 - 1) / m + 1 := by
    rw [him]; unfold waddU; exact Nat.mod_eq_of_lt hq
  have himbig : 2 ^ 33 ≤ im := by
    have : (2 ^ 64 - 1) / 2 ^ 31 ≤ (2 ^ 64 - 1) / m := Nat.div_le_div_left hm2 hmpos
    omega
  obtain ⟨r, hr, hrm⟩ : ∃ r, im * m = 2 ^ 64 + r ∧ r < m := by
    have h1 := Nat.div_add_mod (2 ^ 64 - 1) m
    have h2 := Nat.mod_lt (2 ^ 64 - 1) hmpos
    refine ⟨m - 1 - (2 ^ 64 - 1) % m, ?_, by omega⟩
    rw [him', Nat.add_mul, Nat.one_mul, Nat.mul_comm ((2 ^ 64 - 1) / m) m]
    omega
  have hcd := Nat.div_add_mod (a * b) m
  have hd := Nat.mod_lt (a * b) hmpos
  generalize a * b / m = c at *
  generalize a * b % m = d at *
  generalize a * b = z at *
  have hz : z * im = c * 2 ^ 64 + (c * r + d * im) := by
    rw [← hcd]
    calc (m * c + d) * im = c * (im * m) + d * im := by ring
      _ = _ := by rw [hr]; ring
  have hcr : c * r ≤ m * c := by
    rw [Nat.mul_comm m c]; exact Nat.mul_le_mul_left _ (by omega)
  have hdi : d * im + im ≤ 2 ^ 64 + r := by
    rw [← hr]
    calc d * im + im = im * (d + 1) := by ring
      _ ≤ im * m := Nat.mul_le_mul_left _ hd
  have hcle : 2 * c ≤ m * c := Nat.mul_le_mul_right _ hm1
  have hx : z * im / 2 ^ 64 = c ∨ z * im / 2 ^ 64 = c + 1 := by
    rw [hz]
    by_cases hlt : c * r + d * im < 2 ^ 64
    · left; omega
    · right; omega
  have hxm : ((z * im) >>> 64) % 2 ^ 64 = z * im / 2 ^ 64 := by
    rw [Nat.shiftRight_eq_div_pow]
    exact Nat.mod_eq_of_lt (by omega)
  rw [hxm]
  unfold wsubU wmulU waddU
  have hcm : m * c ≤ z := by omega
  rcases hx with hx | hx <;> rw [hx]
  · have e1 : c * m = m * c := Nat.mul_comm _ _
    have e2 : (z + (2 ^ 64 - c * m % 2 ^ 64 % 2 ^ 64)) % 2 ^ 64 % 2 ^ 32 = d := by
      rw [e1]
      generalize m * c = w at *
      omega
    rw [e2, if_neg (by omega)]
  · have e1 : (c + 1) * m = m * c + m := by ring
    have e2 : (z + (2 ^ 64 - (c + 1) * m % 2 ^ 64 % 2 ^ 64)) % 2 ^ 64 % 2 ^ 32 = 2 ^ 32 + d - m := by
      rw [e1]
      generalize m * c = w at *
      omega
    rw [e2, if_pos (by omega)]
    omega

/-- Multiplication is exact on all `u32` operands. -/
def MulAll (k : MKind) (m : Nat) : Prop := ∀ a b, a < 2 ^ 32 → b < 2 ^ 32 → miMul k a b = ok (a * b % m)

theorem mulAll_stat {m : Nat} {h : Bool} (hm : 1 ≤ m) (hm2 : m < 2 ^ 32) : MulAll (.stat m h) m := by
  intro a b ha hb
  have h1 : a * b < 2 ^ 64 := by
    have : a * b ≤ (2 ^ 32 - 1) * (2 ^ 32 - 1) := Nat.mul_le_mul (by omega) (by omega)
    omega
  have h2 := Nat.mod_lt (a * b) (show 0 < m by omega)
  simp only [miMul, remU]
  rw [mulU_of_lt h1, ok_bind, if_neg (by omega), ok_bind, Nat.mod_eq_of_lt (a := a * b % m) (by omega)]

theorem mulAll {k : MKind} {m : Nat} (hk : KOk k m) (hm : 2 ≤ m) (hm2 : m ≤ 2 ^ 31) : MulAll k m := by
  rcases hk with ⟨h, rfl⟩ | ⟨bt, e, rfl⟩
  · exact mulAll_stat (by omega) (by omega)
  · intro a b ha hb
    rw [setModulus_eq (by omega)] at e
    injection e with e
    subst e
    simp only [miMul]
    exact barrett_mul_raw hm hm2 ha hb rfl

theorem powLoop_raw {k : MKind} {m : Nat} (hk : MulAll k m) (hm : 1 ≤ m) (hm2 : m < 2 ^ 32) :
    ∀ (fuel n r x : Nat), n < 2 ^ fuel → r < 2 ^ 32 → x < 2 ^ 32 →
      loop (fuel + 1) (x, r, n) (miPowStep k) = ok (if n = 0 then r else r * x ^ n % m) := by
  intro fuel
  induction fuel with
  | zero =>
    intro n r x hn hr hx
    have : n = 0 := by omega
    subst this
    simp only [loop, miPowStep]
    rw [if_neg (by omega), ok_bind]
    rfl
  | succ fuel ih =>
    intro n r x hn hr hx
    rw [loop]
    simp only [miPowStep]
    by_cases hn0 : n = 0
    · subst hn0
      rw [if_neg (by omega), ok_bind]
      rfl
    rw [if_pos (by omega), if_neg hn0]
    have hn2 : n / 2 < 2 ^ fuel := by rw [Nat.pow_succ] at hn; omega
    have hlt : ∀ z, z % m < 2 ^ 32 := fun z => Nat.lt_trans (Nat.mod_lt z (by omega)) hm2
    by_cases hodd : n % 2 = 1
    · rw [if_pos hodd, hk r x hr hx, ok_bind, hk x x hx hx, ok_bind, ok_bind]
      simp only []
      rw [ih (n / 2) _ _ hn2 (hlt _) (hlt _)]
      congr 1
      by_cases h2 : n / 2 = 0
      · rw [if_pos h2, show n = 1 by omega, Nat.pow_one]
      · rw [if_neg h2]
        conv_rhs => rw [show n = 2 * (n / 2) + 1 by omega, Nat.pow_succ, Nat.pow_mul]
        rw [Nat.mul_mod, Nat.mod_mod, ← Nat.pow_mod, ← Nat.mul_mod]
        congr 1
        ring
    · rw [if_neg hodd, ok_bind, hk x x hx hx, ok_bind, ok_bind]
      simp only []
      rw [ih (n / 2) _ _ hn2 hr (hlt _), if_neg (by omega)]
      congr 1
      conv_rhs => rw [show n = 2 * (n / 2) by omega, Nat.pow_mul]
      rw [Nat.mul_mod, ← Nat.pow_mod, ← Nat.mul_mod, ← Nat.pow_two]

theorem pow_raw {k : MKind} {m x n : Nat} (hk : MulAll k m) (hm : 1 ≤ m) (hm2 : m < 2 ^ 32) (hx : x < 2 ^ 32)
    (hn : n < 2 ^ 64) : miPow k x n = ok (if n = 0 then 1 else x ^ n % m) := by
  unfold miPow
  rw [powLoop_raw hk hm hm2 64 n 1 x hn (by omega) hx, Nat.one_mul]

end Verif.MRP
