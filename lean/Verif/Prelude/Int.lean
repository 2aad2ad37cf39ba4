import Verif.Prelude.Res
/-!
# Machine integers

Unsigned machine integers are `Nat` values below `2^w`, signed ones `Int` values in
`[-2^(w-1), 2^(w-1))`. Overflowing checked operations panic (Rust debug profile).
No part of `/repo` is modelled here; this is the semantics of Rust's primitive operations.
-/
namespace Verif

/-- `usize::BITS` on the modelled target. -/
def usizeBits : Nat := 64

/-- number of binary digits of `x` (0 for 0). -/
def bitLen (x : Nat) : Nat := if x = 0 then 0 else Nat.log2 x + 1

/-- `x.leading_zeros()` for a `w`-bit unsigned `x`. -/
def leadingZeros (w x : Nat) : Nat := w - bitLen x

/-- checked subtraction on unsigned integers. -/
def subU (a b : Nat) : Res Nat := if b ≤ a then .ok (a - b) else .panic
/-- checked addition on `w`-bit unsigned integers. -/
def addU (w a b : Nat) : Res Nat := if a + b < 2 ^ w then .ok (a + b) else .panic
/-- checked multiplication on `w`-bit unsigned integers. -/
def mulU (w a b : Nat) : Res Nat := if a * b < 2 ^ w then .ok (a * b) else .panic

/-- `a.wrapping_neg()` at width `w`. -/
def wnegU (w a : Nat) : Nat := (2 ^ w - a % 2 ^ w) % 2 ^ w
/-- `a.wrapping_add(b)` at width `w`. -/
def waddU (w a b : Nat) : Nat := (a + b) % 2 ^ w
/-- `a.wrapping_sub(b)` at width `w`. -/
def wsubU (w a b : Nat) : Nat := (a + (2 ^ w - b % 2 ^ w)) % 2 ^ w
/-- `a.wrapping_mul(b)` at width `w`. -/
def wmulU (w a b : Nat) : Nat := (a * b) % 2 ^ w

/-- The value range of a `w`-bit signed integer. -/
def InI (w : Nat) (x : Int) : Prop := -(2 ^ (w - 1) : Int) ≤ x ∧ x < (2 ^ (w - 1) : Int)
instance (w : Nat) (x : Int) : Decidable (InI w x) := by unfold InI; infer_instance

/-- overflow check of a signed `w`-bit result. -/
def ckI (w : Nat) (x : Int) : Res Int := if InI w x then .ok x else .panic

@[simp] theorem sat_subU {a b : Nat} {P : Nat → Prop} :
    Res.Sat (subU a b) P ↔ b ≤ a ∧ P (a - b) := by
  unfold subU; split <;> simp [*]
@[simp] theorem sat_addU {w a b : Nat} {P : Nat → Prop} :
    Res.Sat (addU w a b) P ↔ a + b < 2 ^ w ∧ P (a + b) := by
  unfold addU; split <;> simp [*]
@[simp] theorem sat_mulU {w a b : Nat} {P : Nat → Prop} :
    Res.Sat (mulU w a b) P ↔ a * b < 2 ^ w ∧ P (a * b) := by
  unfold mulU; split <;> simp [*]
@[simp] theorem sat_ckI {w : Nat} {x : Int} {P : Int → Prop} :
    Res.Sat (ckI w x) P ↔ InI w x ∧ P x := by
  unfold ckI; split <;> simp [*]

theorem subU_of_le {a b : Nat} (h : b ≤ a) : subU a b = .ok (a - b) := by simp [subU, h]
theorem addU_of_lt {w a b : Nat} (h : a + b < 2 ^ w) : addU w a b = .ok (a + b) := by
  simp [addU, h]
theorem mulU_of_lt {w a b : Nat} (h : a * b < 2 ^ w) : mulU w a b = .ok (a * b) := by
  simp [mulU, h]
theorem ckI_of {w : Nat} {x : Int} (h : InI w x) : ckI w x = .ok x := by simp [ckI, h]

theorem bitLen_le_iff {x k : Nat} : bitLen x ≤ k ↔ x < 2 ^ k := by
  unfold bitLen
  split
  · subst_vars; simp [Nat.two_pow_pos]
  · rename_i h
    rw [Nat.succ_le_iff, Nat.log2_lt h]

theorem lt_bitLen_iff {x k : Nat} : k < bitLen x ↔ 2 ^ k ≤ x := by
  have := bitLen_le_iff (x := x) (k := k)
  omega

end Verif
