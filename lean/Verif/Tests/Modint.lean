import Verif.Model.Modint
/-! The unit tests of `/repo/src/misc/modint.rs:1052-1161`, run on the model. The two tests of coercions
(`static_modint_binop_coercion`, `static_modint_assign_coercion`) compare a call with its own definition in the
model and are left out. -/
namespace Verif.Tests.Modint
open Res Model

/-- `ModInt1000000007`. -/
def k : MKind := .stat 1000000007 true

/-- `u32`. -/
def u32 : IntTy := ⟨false, 32⟩
/-- `u64` and `usize`. -/
def u64 : IntTy := ⟨false, 64⟩

/-- `static_modint_new`. -/
example : miNew k u32 0 = ok 0 ∧ miNew k u32 1 = ok 1 ∧ miNew k u32 1000000008 = ok 1 ∧
    miNew k u64 0 = ok 0 ∧ miNew k u64 1 = ok 1 ∧ miNew k u64 1000000008 = ok 1 ∧
    miNew k i64 0 = ok 0 ∧ miNew k i64 1 = ok 1 ∧ miNew k i64 1000000008 = ok 1 ∧
    miNew k i64 (-1) = ok 1000000006 := by decide +kernel

/-- A binary operation on two new values. -/
def bin (f : MKind → Nat → Nat → Res Nat) (a b : Int) : Res Nat := do
  let a ← miNew k u32 a
  let b ← miNew k u32 b
  f k a b

/-- `static_modint_add`, `static_modint_sub`, `static_modint_mul`, `static_modint_prime_div`. -/
example : bin miAdd 1 1 = ok 2 ∧ bin miAdd 1000000006 2 = ok 1 ∧
    bin miSub 2 1 = ok 1 ∧ bin miSub 0 1 = ok 1000000006 ∧
    bin miMul 1 1 = ok 1 ∧ bin miMul 2 2 = ok 4 ∧ bin miMul 100000 100000 = ok 999999937 ∧
    bin miDiv 0 1 = ok 0 ∧ bin miDiv 1 1 = ok 1 ∧ bin miDiv 2 2 = ok 1 ∧ bin miDiv 1 42 = ok 23809524 := by
  decide +kernel

/-- `map(new)` on a list. -/
def news (l : List Int) : Res (List Nat) := forList l [] fun x acc => do
  let v ← miNew k i64 x
  ok (acc ++ [v])

/-- `static_modint_sum`, `static_modint_product`. -/
example : (do let l ← news [-1, 2, -3, 4, -5]; miSum k l) = miNew k i32 (-3) ∧
    (do let l ← news [-1, 2, -3, 4, -5]; miProduct k l) = miNew k i32 (-120) := by decide +kernel

/-- All operations modulo the small moduli `m`, on every pair of values, for the three kinds of modint. -/
def checkAll (m : Nat) : Bool :=
  let bt : Barrett := ⟨m, waddU 64 ((2 ^ 64 - 1) / m) 1⟩
  let prime := decide (2 ≤ m) && (List.range' 2 (m - 2)).all fun d => m % d ≠ 0
  let invs := fun (a : Nat) => ((List.range m).filter fun x => a * x % m = 1 % m).head?
  (setModulus m = ok bt) &&
  [MKind.stat m false, MKind.dyn bt].all fun k =>
    (List.range m).all fun a =>
      (miNeg k a = ok ((m - a) % m)) &&
      (miInv k a = (match invs a with | some x => ok x | none => panic)) &&
      (miInv (.stat m true) a = (if a = 0 then panic else if prime then
        (match invs a with | some x => ok x | none => panic) else panic)) &&
      ((List.range m).all fun b =>
        (miAdd k a b = ok ((a + b) % m)) && (miSub k a b = ok ((a + m - b) % m)) &&
        (miMul k a b = ok (a * b % m)) &&
        ((b ≠ 0 ∨ m ≠ 1) && (miPow k a b = ok (a ^ b % m)) || m = 1) &&
        (miDiv k a b = (match invs b with | some x => ok (a * x % m) | none => panic)))

example : ([1, 2, 3, 4, 6, 7, 9, 11].all checkAll) = true := by decide +kernel
example : setModulus 0 = panic := by decide +kernel

end Verif.Tests.Modint
