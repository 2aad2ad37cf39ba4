import Mathlib.Data.ZMod.Basic
import Mathlib.Algebra.Field.Basic
import Verif.Prelude.IntTy
/-! Arithmetic expressions and their meaning in `ℤ/m`. -/
namespace Verif.Spec

/-- An arithmetic expression over modints. A literal is a value of a primitive integer type; `x + 5u8` is
`x + lit`. -/
inductive ModExpr where
  | lit (ty : IntTy) (v : Int)
  | add (a b : ModExpr)
  | sub (a b : ModExpr)
  | mul (a b : ModExpr)
  | div (a b : ModExpr)
  | neg (a : ModExpr)
  | inv (a : ModExpr)
  | pow (a : ModExpr) (n : Nat)

/-- The literals are values of their types and the exponents are `u64`. -/
def ModExpr.Ok : ModExpr → Prop
  | .lit ty v => ty ∈ IntTy.all ∧ ty.In v
  | .add a b | .sub a b | .mul a b | .div a b => a.Ok ∧ b.Ok
  | .neg a | .inv a => a.Ok
  | .pow a n => a.Ok ∧ n < 2 ^ 64

open Classical in
/-- The value in `ℤ/m`; `none` if something is divided by an element that has no inverse. -/
noncomputable def ModExpr.value (m : Nat) : ModExpr → Option (ZMod m)
  | .lit _ v => some (v : ZMod m)
  | .add a b => do some ((← a.value m) + (← b.value m))
  | .sub a b => do some ((← a.value m) - (← b.value m))
  | .mul a b => do some ((← a.value m) * (← b.value m))
  | .div a b => do
    let x ← a.value m
    let y ← b.value m
    if IsUnit y then some (x * y⁻¹) else none
  | .neg a => do some (-(← a.value m))
  | .inv a => do
    let x ← a.value m
    if IsUnit x then some x⁻¹ else none
  | .pow a n => do some ((← a.value m) ^ n)

/-- The value in a field; `none` if something is divided by zero. -/
def ModExpr.fieldValue (F : Type) [Field F] [DecidableEq F] : ModExpr → Option F
  | .lit _ v => some (v : F)
  | .add a b => do some ((← a.fieldValue F) + (← b.fieldValue F))
  | .sub a b => do some ((← a.fieldValue F) - (← b.fieldValue F))
  | .mul a b => do some ((← a.fieldValue F) * (← b.fieldValue F))
  | .div a b => do
    let x ← a.fieldValue F
    let y ← b.fieldValue F
    if y = 0 then none else some (x / y)
  | .neg a => do some (-(← a.fieldValue F))
  | .inv a => do
    let x ← a.fieldValue F
    if x = 0 then none else some x⁻¹
  | .pow a n => do some ((← a.fieldValue F) ^ n)

/-- A program over several dynamic modint types: the modulus of type `i` is set, or an expression of type `i` is
evaluated. -/
inductive IdOp where
  | set (i m : Nat)
  | eval (i : Nat) (e : ModExpr)

/-- The moduli are `2 ≤ m ≤ 2^31` and the expressions are well formed. -/
def IdOp.Ok : IdOp → Prop
  | .set _ m => 2 ≤ m ∧ m ≤ 2 ^ 31
  | .eval _ e => e.Ok

/-- The values of the expressions when type `i` has the modulus set last for `i`; `none` if a divisor has no inverse. -/
noncomputable def idValues (ms : Nat → Nat) : List IdOp → Option (List Nat)
  | [] => some []
  | .set i m :: ops => idValues (fun j => if j = i then m else ms j) ops
  | .eval i e :: ops => do
    let z ← e.value (ms i)
    let r ← idValues ms ops
    some (z.val :: r)

end Verif.Spec
