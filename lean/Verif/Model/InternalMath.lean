import Verif.Model.NumberTheory
/-! Model of `/repo/src/math/internal_math.rs`. Unsigned machine integers are `Nat`, signed ones `Int`. -/
namespace Verif.Model
open Res

/-- `i32`. -/
def i32 : IntTy := ⟨true, 32⟩

/-- `/repo/src/math/internal_math.rs:11-17`, `safe_mod`. -/
def safeMod (x m : Int) : Res Int := do
  let x ← i64.rem x m
  if x < 0 then i64.ck (x + m) else ok x

/-- `/repo/src/math/internal_math.rs:22-25`, `Barrett`. -/
structure Barrett where
  m : Nat
  im : Nat
deriving DecidableEq

/-- `/repo/src/math/internal_math.rs:33-38`, `Barrett::new` (`-1i64 as u64` is `2^64 - 1`). -/
def Barrett.new (m : Nat) : Res Barrett :=
  if m = 0 then panic else ok ⟨m, waddU 64 ((2 ^ 64 - 1) / m) 1⟩

/-- `/repo/src/math/internal_math.rs:65-84`, `mul_mod`. -/
def mulMod (a b m im : Nat) : Res Nat := do
  let z ← mulU 64 a b
  let p ← mulU 128 z im
  let x := (p >>> 64) % 2 ^ 64
  let v := wsubU 64 z (wmulU 64 x m) % 2 ^ 32
  ok (if m ≤ v then waddU 32 v m else v)

/-- `/repo/src/math/internal_math.rs:42-44`, `Barrett::umod`. -/
def Barrett.umod (b : Barrett) : Nat := b.m

/-- `/repo/src/math/internal_math.rs:53-55`, `Barrett::mul`. -/
def Barrett.mul (bt : Barrett) (a b : Nat) : Res Nat := mulMod a b bt.m bt.im

/-- `a % b` on an unsigned type. -/
def remU (a b : Nat) : Res Nat := if b = 0 then panic else ok (a % b)

/-- `/repo/src/math/internal_math.rs:101-107`, one round of the loop of `pow_mod` on `(n, r, y)`.
`n & 1` is `n % 2` and `n >>= 1` rounds down, also for negative `n`. -/
def powModStep (m : Nat) (s : Int × Nat × Nat) : Res (Ctl (Int × Nat × Nat) Int) :=
  if s.1 ≠ 0 then do
    let r ← (if s.1 % 2 > 0 then do
        let p ← mulU 64 s.2.1 s.2.2
        remU p m
      else ok s.2.1 : Res Nat)
    let p ← mulU 64 s.2.2 s.2.2
    let y ← remU p m
    ok (.next (s.1 / 2, r, y))
  else ok (.done (asI64 s.2.1))

/-- `/repo/src/math/internal_math.rs:94-109`, `pow_mod`. Fuel: an `i64` `n ≥ 0` has at most 63 bits; for
`n < 0` the value of `n` never reaches `0` (`C38_negative_diverges`). -/
def powMod (x n m : Int) : Res Int :=
  if m = 1 then ok 0 else do
  let y ← safeMod x m
  loop 65 ((n, 1, (y % 2 ^ 64).toNat) : Int × Nat × Nat) (powModStep (m % 2 ^ 32).toNat)

/-- `/repo/src/math/internal_math.rs:126-129`, the odd part of `n - 1`. Fuel: an `i64` has 64 bits. -/
def oddPart (d : Int) : Res Int :=
  loop 65 d fun d => do
    let r ← i64.rem d 2
    if r = 0 then do
      let d ← i64.div d 2
      ok (.next d)
    else ok (.done d)

/-- `/repo/src/math/internal_math.rs:133-136`, one round of the squaring loop on `(t, y)`;
`t <<= 1` drops the top bit. -/
def sprpStep (n : Int) (s : Int × Int) : Res (Ctl (Int × Int) (Int × Int)) :=
  if s.1 ≠ n - 1 ∧ s.2 ≠ 1 ∧ s.2 ≠ n - 1 then do
    let q ← i64.ck (s.2 * s.2)
    let y ← i64.rem q n
    ok (.next (asI64 (s.1 * 2), y))
  else ok (.done s)

/-- `/repo/src/math/internal_math.rs:130-140`, the body of the loop over the bases: does the test with base `a`
reject `n`? Fuel: `t` doubles up to `n - 1`. -/
def sprpRejects (n d a : Int) : Res Bool := do
  let y ← powMod a d n
  let s ← loop 65 ((d, y) : Int × Int) (sprpStep n)
  let r ← i64.rem s.1 2
  ok (decide (s.2 ≠ n - 1 ∧ r = 0))

/-- `/repo/src/math/internal_math.rs:118-142`, `is_prime`. -/
def isPrime (n : Int) : Res Bool :=
  if n ≤ 1 then ok false
  else if n = 2 ∨ n = 7 ∨ n = 61 then ok true
  else do
  let r ← i64.rem n 2
  if r = 0 then ok false else do
  let d ← oddPart (n - 1)
  let r ← sprpRejects n d 2
  if r then ok false else do
  let r ← sprpRejects n d 7
  if r then ok false else do
  let r ← sprpRejects n d 61
  ok (!r)

/-- `/repo/src/math/internal_math.rs:169-181`, one round of the loop of `inv_gcd` on `(s, t, m0, m1)`. -/
def invGcdStep (st : Int × Int × Int × Int) : Res (Ctl (Int × Int × Int × Int) (Int × Int)) :=
  let (s, t, m0, m1) := st
  if t ≠ 0 then do
    let u ← i64.div s t
    let tu ← i64.ck (t * u)
    let s ← i64.ck (s - tu)
    let mu ← i64.ck (m1 * u)
    let m0 ← i64.ck (m0 - mu)
    ok (.next (t, s, m1, m0))
  else ok (.done (s, m0))

/-- `/repo/src/math/internal_math.rs:154-188`, `inv_gcd`. Fuel: `t` decreases. -/
def invGcd (a b : Int) : Res (Int × Int) := do
  let a ← safeMod a b
  if a = 0 then ok (b, 0) else do
  let (s, m0) ← loop (a.natAbs + 2) ((b, a, 0, 1) : Int × Int × Int × Int) invGcdStep
  if m0 < 0 then do
    let q ← i64.div b s
    let m0 ← i64.ck (m0 + q)
    ok (s, m0)
  else ok (s, m0)

/-- One round of `while x % i == 0 { x /= i }` on `i32` (`/repo/src/math/internal_math.rs:208-210` with `i = 2`
and `:218-220`). -/
def divOutStep (i x : Int) : Res (Ctl Int Int) := do
  let r ← i32.rem x i
  if r = 0 then do
    let x ← i32.div x i
    ok (.next x)
  else ok (.done x)

/-- `while x % i == 0 { x /= i }` on `i32` (`/repo/src/math/internal_math.rs:208-210` with `i = 2` and
`:218-220`). Fuel: a non-zero `i32` is divided by `i ≥ 2` at most 31 times; `x = 0` loops forever
(`C41_no_root_diverges`). -/
def divOut (x i : Int) : Res Int := loop 33 x (divOutStep i)

/-- `/repo/src/math/internal_math.rs:211-222`, one round of the trial division on `(i, x, divs, cnt)`;
the range ends below `i32::MAX`. -/
def trialStep (s : Int × Int × List Int × Nat) :
    Res (Ctl (Int × Int × List Int × Nat) (Int × List Int × Nat)) :=
  let (i, x, divs, cnt) := s
  if ¬ i < 2 ^ 31 - 1 then ok (.done (x, divs, cnt)) else do
  let ii ← i64.ck (i * i)
  if ii > x then ok (.done (x, divs, cnt)) else do
  let r ← i32.rem x i
  if r = 0 then do
    let divs ← upd divs cnt i
    let cnt ← addU 64 cnt 1
    let x ← divOut x i
    ok (.next (i + 2, x, divs, cnt))
  else ok (.next (i + 2, x, divs, cnt))

/-- `/repo/src/math/internal_math.rs:204-226`, the prime divisors of `m - 1`. Fuel: `i * i > x` for an `i32`
`x` once `i` reaches `2^16`. -/
def rootDivs (m : Int) : Res (List Int × Nat) := do
  let m1 ← i32.ck (m - 1)
  let h ← i32.div m1 2
  let x ← divOut h 2
  let (x, divs, cnt) ← loop 65536 ((3, x, (List.replicate 20 0).set 0 2, 1) : Int × Int × List Int × Nat) trialStep
  if x > 1 then do
    let divs ← upd divs cnt x
    let cnt ← addU 64 cnt 1
    ok (divs, cnt)
  else ok (divs, cnt)

/-- `/repo/src/math/internal_math.rs:229`, `(0..cnt).all(|i| pow_mod(g, (m - 1) / divs[i], m) != 1)`
from index `i` on. -/
def rootTest (m g : Int) (divs : List Int) : Nat → Nat → Res Bool
  | 0, _ => ok true
  | k + 1, i => do
    let m1 ← i32.ck (m - 1)
    let q ← idx divs i
    let e ← i32.div m1 q
    let r ← powMod g e m
    if r ≠ 1 then rootTest m g divs k (i + 1) else ok false

/-- `v as i32` for an `i64` value. -/
def asI32 (v : Int) : Int := (v + 2 ^ 31) % 2 ^ 32 - 2 ^ 31

/-- `/repo/src/math/internal_math.rs:228-233`, one round of the search for the root. -/
def rootStep (m : Int) (divs : List Int) (cnt : Nat) (g : Int) : Res (Ctl Int Int) := do
  let b ← rootTest m g divs cnt 0
  if b then ok (.done (asI32 g)) else do
    let g ← i64.ck (g + 1)
    ok (.next g)

/-- `/repo/src/math/internal_math.rs:204-233`, `primitive_root` after the table of constants. Fuel: a primitive
root is below `m`. -/
def rootSearch (m : Int) : Res Int := do
  let (divs, cnt) ← rootDivs m
  loop (m.natAbs + 1) (2 : Int) (rootStep m divs cnt)

/-- `/repo/src/math/internal_math.rs:194-234`, `primitive_root`. -/
def primitiveRoot (m : Int) : Res Int :=
  if m = 2 then ok 1
  else if m = 167772161 then ok 3
  else if m = 469762049 then ok 3
  else if m = 754974721 then ok 11
  else if m = 998244353 then ok 3
  else rootSearch m

end Verif.Model
