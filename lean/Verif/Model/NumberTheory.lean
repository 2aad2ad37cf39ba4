import Verif.Prelude.IntTy
/-! Model of `/repo/src/math/number_theory.rs`. -/
namespace Verif
open Res

/-- `a / b` of a primitive type: panics for `b = 0` and for `MIN / -1`. -/
def IntTy.div (ty : IntTy) (a b : Int) : Res Int := if b = 0 then panic else ty.ck (a.tdiv b)
/-- `a % b` of a primitive type: panics for `b = 0` and for `MIN % -1`. -/
def IntTy.rem (ty : IntTy) (a b : Int) : Res Int :=
  if b = 0 then panic
  else if ty.signed ∧ a = ty.mn ∧ b = -1 then panic
  else ok (a.tmod b)

namespace Model

/-- `/repo/src/math/number_theory.rs:3-10`, `gcd`. Fuel: `|b|` decreases. -/
def gcd (ty : IntTy) (a b : Int) : Res Int :=
  loop (b.natAbs + 2) ((a, b) : Int × Int) fun (a, b) =>
    if b ≠ 0 then do
      let r ← ty.rem a b
      ok (.next (b, r))
    else ok (.done a)

/-- `/repo/src/math/number_theory.rs:12-14`, `lcm`. -/
def lcm (ty : IntTy) (a b : Int) : Res Int := do
  let p ← ty.ck (a * b)
  let g ← gcd ty a b
  ty.div p g

/-- `/repo/src/math/number_theory.rs:17-23`, `ex_gcd`, with fuel for the recursion depth. -/
def exGcdAux (ty : IntTy) : Nat → Int → Int → Res (Int × Int × Int)
  | 0, _, _ => .diverge
  | fuel + 1, a, b =>
    if b = 0 then ok (1, 0, a) else do
    let r ← ty.rem a b
    let (x, y, g) ← exGcdAux ty fuel b r
    let q ← ty.div a b
    let qy ← ty.ck (q * y)
    let d ← ty.ck (x - qy)
    ok (y, d, g)

/-- `/repo/src/math/number_theory.rs:17-23`, `ex_gcd`. Fuel: `|b|` decreases. -/
def exGcd (ty : IntTy) (a b : Int) : Res (Int × Int × Int) := exGcdAux ty (b.natAbs + 2) a b

/-- `i64`. -/
def i64 : IntTy := ⟨true, 64⟩
/-- `i128`. -/
def i128 : IntTy := ⟨true, 128⟩

/-- `v as i64` for an `i128` value. -/
def asI64 (v : Int) : Int := (v + 2 ^ 63) % 2 ^ 64 - 2 ^ 63

/-- `/repo/src/math/number_theory.rs:34-45`, the loop body of `ex_crt` for one congruence;
`none` is the early `return None`. -/
def crtStep (a b m x lcm : Int) : Res (Option (Int × Int)) := do
  let a' ← i64.ck (a * lcm)
  let ax ← i64.ck (a * x)
  let b' ← i64.ck (b - ax)
  let (y, _, g) ← exGcd i64 a' m
  let r ← i64.rem b' g
  if r ≠ 0 then ok none else do
  let b' ← i64.div b' g
  let m' ← i64.div m g
  let yb ← i128.ck (y * b')
  let t ← i128.rem yb m'
  let lt ← i64.ck (lcm * asI64 t)
  let x ← i64.ck (x + lt)
  let lcm ← i64.ck (lcm * m')
  ok (some (x, lcm))

/-- `/repo/src/math/number_theory.rs:33-45`, the loop of `ex_crt` from index `i` on. -/
def crtLoop (b m : List Int) : Nat → List Int → Int → Int → Res (Option (Int × Int))
  | _, [], x, lcm => ok (some (x, lcm))
  | i, ai :: as, x, lcm => do
    let bi ← idx b i
    let mi ← idx m i
    match ← crtStep ai bi mi x lcm with
    | none => ok none
    | some (x, lcm) => crtLoop b m (i + 1) as x lcm

/-- `/repo/src/math/number_theory.rs:31-47`, `ex_crt`. -/
def exCrt (a b m : List Int) : Res (Option (Int × Int)) := do
  match ← crtLoop b m 0 a 0 1 with
  | none => ok none
  | some (x, lcm) =>
    let s ← i64.ck (x + lcm)
    let x ← i64.rem s lcm
    ok (some (x, lcm))

end Model
end Verif
