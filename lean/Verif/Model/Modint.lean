import Verif.Model.InternalMath
/-!
# Model of `/repo/src/misc/modint.rs`

A modint is its field `val`, a `Nat`; the type parameter becomes the argument `k : MKind`. The reference and
coercion variants of the operators (`/repo/src/misc/modint.rs:897-1016`) only copy or call `new` on an
argument and are covered by the functions below. `debug_assert!` is on, as overflow checks are.
-/
namespace Verif.Model
open Res

/-- The type parameter of a modint: a `Modulus` with its constants (`/repo/src/misc/modint.rs:246-251`), or an
`Id` with the present contents of its `Barrett` (`/repo/src/misc/modint.rs:446-464`). -/
inductive MKind where
  | stat (value : Nat) (hint : Bool)
  | dyn (b : Barrett)
deriving DecidableEq

/-- `/repo/src/misc/modint.rs:110-112`, `334-336`, `489-491`, `modulus`. -/
def MKind.modulus : MKind → Nat
  | .stat m _ => m
  | .dyn b => b.m

/-- `/repo/src/misc/modint.rs:482-486`, `Barrett::update` as one step (for its two stores see
`Verif.Model.ModintConc`). -/
def barrettUpdate (m : Nat) : Res Barrett :=
  if m = 0 then panic else ok ⟨m, waddU 64 ((2 ^ 64 - 1) / m) 1⟩

/-- `/repo/src/misc/modint.rs:355-360`, `set_modulus`. -/
def setModulus (m : Nat) : Res Barrett := if m = 0 then panic else barrettUpdate m

/-- `rem_euclid` of the standard library on a signed type. -/
def remEuclid (ty : IntTy) (x m : Int) : Res Int := do
  let r ← ty.rem x m
  ok (if r < 0 then r + m.natAbs else r)

/-- `/repo/src/misc/modint.rs:690-750`, `rem_euclid_u32` for a value of the primitive type `ty`
(64-bit target). -/
def remEuclidU32 (ty : IntTy) (v : Int) (m : Nat) : Res Nat :=
  if ty.signed then
    if ty.bits ≤ 64 then do
      let r ← remEuclid i64 v m
      ok (r % 2 ^ 32).toNat
    else do
      let r ← remEuclid i128 v m
      ok (r % 2 ^ 32).toNat
  else if ty.bits ≤ 32 then remU (v % 2 ^ 32).toNat m
  else do
    let r ← remU v.toNat m
    ok (r % 2 ^ 32)

/-- `/repo/src/misc/modint.rs:122-124`, `657-659`, `new`, also `From` (`855-860`). -/
def miNew (k : MKind) (ty : IntTy) (v : Int) : Res Nat := remEuclidU32 ty v k.modulus

/-- `/repo/src/misc/modint.rs:795-802`, `add_impl`. -/
def miAdd (k : MKind) (a b : Nat) : Res Nat := do
  let v ← addU 32 a b
  if k.modulus ≤ v then subU v k.modulus else ok v

/-- `/repo/src/misc/modint.rs:805-812`, `sub_impl`. -/
def miSub (k : MKind) (a b : Nat) : Res Nat :=
  let v := wsubU 32 a b
  ok (if k.modulus ≤ v then waddU 32 v k.modulus else v)

/-- `/repo/src/misc/modint.rs:790-792`, `neg_impl`. -/
def miNeg (k : MKind) (a : Nat) : Res Nat := miSub k 0 a

/-- `/repo/src/misc/modint.rs:824-826`, `831-833`, `494-498`, `mul_impl`. -/
def miMul (k : MKind) (a b : Nat) : Res Nat :=
  match k with
  | .stat m _ => do
    let p ← mulU 64 a b
    let r ← remU p m
    ok (r % 2 ^ 32)
  | .dyn bt => mulMod a b bt.m bt.im

/-- `/repo/src/misc/modint.rs:678-684`, one round of the loop of `pow` on `(x, r, n)`. -/
def miPowStep (k : MKind) (s : Nat × Nat × Nat) : Res (Ctl (Nat × Nat × Nat) Nat) :=
  if s.2.2 > 0 then do
    let r ← (if s.2.2 % 2 = 1 then miMul k s.2.1 s.1 else ok s.2.1)
    let x ← miMul k s.1 s.1
    ok (.next (x, r, s.2.2 / 2))
  else ok (.done s.2.1)

/-- `/repo/src/misc/modint.rs:675-686`, `pow`. Fuel: `n` is a `u64`. -/
def miPow (k : MKind) (x n : Nat) : Res Nat := loop 65 (x, 1, n) (miPowStep k)

/-- `/repo/src/misc/modint.rs:754-760`, `inv_for_non_prime_modulus`. -/
def miInvGcd (k : MKind) (a : Nat) : Res Nat := do
  let (g, x) ← invGcd a k.modulus
  if g ≠ 1 then panic else miNew k i64 x

/-- `/repo/src/misc/modint.rs:169-183`, `417-419`, `inv`. `try_into` to `i32` fails from `2^31` on. -/
def miInv (k : MKind) (a : Nat) : Res Nat :=
  match k with
  | .stat m true =>
    if a = 0 then panic
    else if ¬ i32.In m then panic
    else do
      let p ← isPrime m
      if p then do
        let e ← subU m 2
        miPow k a e
      else panic
  | _ => miInvGcd k a

/-- `/repo/src/misc/modint.rs:817-819`, `div_impl`. -/
def miDiv (k : MKind) (a b : Nat) : Res Nat := do
  let i ← miInv k b
  miMul k a i

/-- `fold` of an iterator. -/
def foldRes (f : Nat → Nat → Res Nat) : Nat → List Nat → Res Nat
  | acc, [] => ok acc
  | acc, x :: xs => do
    let acc ← f acc x
    foldRes f acc xs

/-- `/repo/src/misc/modint.rs:1018-1050`, `sum`. -/
def miSum (k : MKind) (l : List Nat) : Res Nat := foldRes (miAdd k) 0 l
/-- `/repo/src/misc/modint.rs:1018-1050`, `product`. -/
def miProduct (k : MKind) (l : List Nat) : Res Nat := foldRes (miMul k) 1 l

/-- The digit value of an ASCII character (`char::to_digit(10)`). -/
def digitVal (c : Char) : Option Nat := if '0' ≤ c ∧ c ≤ '9' then some (c.toNat - 48) else none

/-- The digit loop of `from_str` of the integer type `ty`: `acc * 10 ± d` in checked arithmetic. -/
def parseDigits (ty : IntTy) (neg : Bool) : Int → List Char → Option Int
  | acc, [] => some acc
  | acc, c :: cs =>
    match digitVal c with
    | none => none
    | some d =>
      if ty.In (acc * 10) then
        let v := if neg then acc * 10 - d else acc * 10 + d
        if ty.In v then parseDigits ty neg v cs else none
      else none

/-- `from_str` of a primitive integer type of the standard library: an optional `+`, for signed types also `-`,
then at least one digit; `none` is an error. -/
def parseInt (ty : IntTy) : List Char → Option Int
  | [] => none
  | '+' :: [] => none
  | '-' :: [] => none
  | '+' :: cs => parseDigits ty false 0 cs
  | '-' :: cs => if ty.signed then parseDigits ty true 0 cs else parseDigits ty false 0 ('-' :: cs)
  | cs => parseDigits ty false 0 cs

/-- `/repo/src/misc/modint.rs:768-772`, `from_str_impl`; `todo!()` panics. -/
def miFromStr (k : MKind) (s : List Char) : Res Nat :=
  match parseInt i64 s with
  | some v => miNew k i64 v
  | none => panic

/-- `/repo/src/misc/modint.rs:780-782`, `display_impl`: `Display` of a `u32` without format options. -/
def miDisplay (a : Nat) : List Char := Nat.toDigits 10 a

end Verif.Model
