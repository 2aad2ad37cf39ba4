import Verif.Model.Util
import Verif.Model.Factorial
import Verif.Model.Fenwick
import Verif.Model.SparseTable
import Verif.Model.AhoCorasick
import Verif.Model.Dijkstra
import Verif.Model.Dinic
import Verif.Model.Tarjan
import Verif.Model.Segtree
import Verif.Model.LazySegtree
import Verif.Model.UnionFind
import Verif.Model.BinaryLifting
import Verif.Model.HLD
import Verif.Model.Monoids
/-! The functions of `/repo` that do arithmetic on data of the caller, in a release build: `/repo/Cargo.toml` does not
change the defaults of the release profile, so overflow checks and `debug_assert!` are off. Sums, differences and
products wrap around; shifts use the low bits of their amount; division by zero, `MIN / -1`, `MIN % -1`, indexing,
`unwrap` and `assert!` panic as in a debug build. The definitions are those of `Model`, with the operations of this
file instead of the checked ones. Functions not repeated here (`gcd`, `Fenwick::pref`, `AhoCorasick::build`, …) do no
arithmetic that could overflow and are taken from `Model`. Simplification: loops have the bounds on their number of
rounds that suffice for the debug build; a wrapped distance in `dijkstra` may need more (the result is `diverge` then).
`Proof/Release.lean` proves that every copy returns what the function of `Model` returns unless that one panics. -/
namespace Verif.Release
open Model Res

/-- The value of the type `ty` that agrees with `x` modulo `2^bits` (`2 * 2^(bits - 1)` is `2^bits`). -/
def wrap (ty : IntTy) (x : Int) : Int :=
  if ty.signed then (x + 2 ^ (ty.bits - 1)) % (2 * 2 ^ (ty.bits - 1)) - 2 ^ (ty.bits - 1) else x % 2 ^ ty.bits

/-- Result of an arithmetic operation on `ty`. -/
def ck (ty : IntTy) (x : Int) : Res Int := ok (wrap ty x)
/-- The same for signed integers of `w` bits. -/
def ckI (w : Nat) (x : Int) : Res Int := ok (wrap ⟨true, w⟩ x)
/-- Subtraction on unsigned integers of `w` bits. -/
def subU (w a b : Nat) : Res Nat := ok (if b ≤ a then a - b else a + 2 ^ w - b)
/-- Addition on unsigned integers of `w` bits. -/
def addU (w a b : Nat) : Res Nat := ok (waddU w a b)
/-- Multiplication on unsigned integers of `w` bits. -/
def mulU (w a b : Nat) : Res Nat := ok (wmulU w a b)
/-- `i - 1` on `usize`. -/
def dec (i : Nat) : Nat := if i = 0 then 2 ^ 64 - 1 else i - 1

theorem wrap_in (ty : IntTy) (x : Int) : ty.In (wrap ty x) := by
  unfold IntTy.In IntTy.mn IntTy.mx wrap
  have h1 := Int.pow_pos (n := 2) (m := ty.bits - 1) (by decide)
  have h2 := Int.pow_pos (n := 2) (m := ty.bits) (by decide)
  split
  · have := Int.emod_nonneg (x + 2 ^ (ty.bits - 1)) (show (2 * 2 ^ (ty.bits - 1) : Int) ≠ 0 by omega)
    have := Int.emod_lt_of_pos (x + 2 ^ (ty.bits - 1)) (show (0 : Int) < 2 * 2 ^ (ty.bits - 1) by omega)
    omega
  · have := Int.emod_nonneg x (show (2 ^ ty.bits : Int) ≠ 0 by omega)
    have := Int.emod_lt_of_pos x h2
    omega

/-- The wrapped value, as a value of the type. -/
def wr (ty : IntTy) (x : Int) : Val ty := ⟨wrap ty x, wrap_in ty x⟩

/-! ### `Model/Monoids.lean` -/

/-- `/repo/src/misc/monoids.rs:37-49`, `Additive`. -/
def additiveOps (ty : IntTy) : MonoidOps (Val ty) :=
  ⟨⟨0, IntTy.in_of_nonneg (Int.le_refl _) ty.mx_nonneg⟩, fun a b => ok (wr ty (a.1 + b.1))⟩

/-- `/repo/src/misc/monoids.rs:50-62`, `Multiplicative`. -/
def multiplicativeOps (ty : IntTy) (h : ty.In 1) : MonoidOps (Val ty) := ⟨⟨1, h⟩, fun a b => ok (wr ty (a.1 * b.1))⟩

/-! ### `Model/Util.lean` -/

/-- `/repo/src/misc/util.rs:1-3`, `lg(i: usize) -> u32`: `64 - 1 - i.leading_zeros()` in
`u32` arithmetic. -/
def lg (i : Nat) : Res Nat := do
  let a ← subU 32 64 1
  subU 32 a (leadingZeros 64 i)

/-- `/repo/src/misc/util.rs:5-7`, `ceil_lg(n: u32) -> u32`:
`32 - n.saturating_sub(1).leading_zeros()`. `saturating_sub` on unsigned is truncated `Nat`
subtraction. -/
def ceilLg (n : Nat) : Res Nat := subU 32 32 (leadingZeros 32 (n - 1))

/-! ### `Model/NumberTheory.lean` -/

/-- `/repo/src/math/number_theory.rs:12-14`, `lcm`. -/
def lcm (ty : IntTy) (a b : Int) : Res Int := do
  let p ← ck ty (a * b)
  let g ← gcd ty a b
  ty.div p g

/-- `/repo/src/math/number_theory.rs:17-23`, `ex_gcd`, with fuel for the recursion depth. -/
def exGcdAux (ty : IntTy) : Nat → Int → Int → Res (Int × Int × Int)
  | 0, _, _ => .diverge
  | fuel + 1, a, b =>
    if b = 0 then ok (1, 0, a) else do
    let r ← ty.rem a b
    let (x, y, g) ← exGcdAux ty fuel b r
    let q ← ty.div a b
    let qy ← ck ty (q * y)
    let d ← ck ty (x - qy)
    ok (y, d, g)

/-- `/repo/src/math/number_theory.rs:17-23`, `ex_gcd`. Fuel: `|b|` decreases. -/
def exGcd (ty : IntTy) (a b : Int) : Res (Int × Int × Int) := exGcdAux ty (b.natAbs + 2) a b

/-- `/repo/src/math/number_theory.rs:34-45`, the loop body of `ex_crt` for one congruence;
`none` is the early `return None`. -/
def crtStep (a b m x lcm : Int) : Res (Option (Int × Int)) := do
  let a' ← ck i64 (a * lcm)
  let ax ← ck i64 (a * x)
  let b' ← ck i64 (b - ax)
  let (y, _, g) ← exGcd i64 a' m
  let r ← i64.rem b' g
  if r ≠ 0 then ok none else do
  let b' ← i64.div b' g
  let m' ← i64.div m g
  let yb ← ck i128 (y * b')
  let t ← i128.rem yb m'
  let lt ← ck i64 (lcm * asI64 t)
  let x ← ck i64 (x + lt)
  let lcm ← ck i64 (lcm * m')
  ok (some (x, lcm))

/-- `/repo/src/math/number_theory.rs:33-45`, the loop of `ex_crt` from index `i` on. -/
def crtLoop (b m : List Int) : Nat → List Int → Int → Int → Res (Option (Int × Int))
  | _, [], x, lcm => ok (some (x, lcm))
  | i, ai :: rest, x, lcm => do
    let bi ← idx b i
    let mi ← idx m i
    match ← crtStep ai bi mi x lcm with
    | none => ok none
    | some (x, lcm) => crtLoop b m (i + 1) rest x lcm

/-- `/repo/src/math/number_theory.rs:31-47`, `ex_crt`. -/
def exCrt (a b m : List Int) : Res (Option (Int × Int)) := do
  match ← crtLoop b m 0 a 0 1 with
  | none => ok none
  | some (x, lcm) =>
    let s ← ck i64 (x + lcm)
    let x ← i64.rem s lcm
    ok (some (x, lcm))

/-! ### `Model/InternalMath.lean` -/

/-- `/repo/src/math/internal_math.rs:11-17`, `safe_mod`. -/
def safeMod (x m : Int) : Res Int := do
  let x ← i64.rem x m
  if x < 0 then ck i64 (x + m) else ok x

/-- `/repo/src/math/internal_math.rs:65-84`, `mul_mod`. -/
def mulMod (a b m im : Nat) : Res Nat := do
  let z ← mulU 64 a b
  let p ← mulU 128 z im
  let x := (p >>> 64) % 2 ^ 64
  let v := wsubU 64 z (wmulU 64 x m) % 2 ^ 32
  ok (if m ≤ v then waddU 32 v m else v)

/-- `/repo/src/math/internal_math.rs:53-55`, `Barrett::mul`. -/
def Barrett.mul (bt : Barrett) (a b : Nat) : Res Nat := mulMod a b bt.m bt.im

/-- `/repo/src/math/internal_math.rs:101-107`, one round of the loop of `pow_mod` on `(n, r, y)`.
`n & 1` is `n % 2` and `n >>= 1` rounds down, also for negative `n`. -/
def powModStep (m : Nat) (s : Int × Nat × Nat) : Res (Ctl (Int × Nat × Nat) Int) :=
  if s.1 ≠ 0 then do
    let r ← (if s.1 % 2 > 0 then do
        let p ← mulU 64 s.2.1 s.2.2
        remU p m
      else ok s.2.1 : Res Nat)
    let p ← mulU 64 s.2.2 s.2.2
    let y ← remU p m
    ok (.next (s.1 / 2, r, y))
  else ok (.done (asI64 s.2.1))

/-- `/repo/src/math/internal_math.rs:94-109`, `pow_mod`. Fuel: an `i64` `n ≥ 0` has at most 63 bits; for
`n < 0` the value of `n` never reaches `0` (`C38_negative_diverges`). -/
def powMod (x n m : Int) : Res Int :=
  if m = 1 then ok 0 else do
  let y ← safeMod x m
  loop 65 ((n, 1, (y % 2 ^ 64).toNat) : Int × Nat × Nat) (powModStep (m % 2 ^ 32).toNat)

/-- `/repo/src/math/internal_math.rs:133-136`, one round of the squaring loop on `(t, y)`;
`t <<= 1` drops the top bit. -/
def sprpStep (n : Int) (s : Int × Int) : Res (Ctl (Int × Int) (Int × Int)) :=
  if s.1 ≠ n - 1 ∧ s.2 ≠ 1 ∧ s.2 ≠ n - 1 then do
    let q ← ck i64 (s.2 * s.2)
    let y ← i64.rem q n
    ok (.next (asI64 (s.1 * 2), y))
  else ok (.done s)

/-- `/repo/src/math/internal_math.rs:130-140`, the body of the loop over the bases: does the test with base `a`
reject `n`? Fuel: `t` doubles up to `n - 1`. -/
def sprpRejects (n d a : Int) : Res Bool := do
  let y ← powMod a d n
  let s ← loop 65 ((d, y) : Int × Int) (sprpStep n)
  let r ← i64.rem s.1 2
  ok (decide (s.2 ≠ n - 1 ∧ r = 0))

/-- `/repo/src/math/internal_math.rs:118-142`, `is_prime`. -/
def isPrime (n : Int) : Res Bool :=
  if n ≤ 1 then ok false
  else if n = 2 ∨ n = 7 ∨ n = 61 then ok true
  else do
  let r ← i64.rem n 2
  if r = 0 then ok false else do
  let d ← oddPart (n - 1)
  let r ← sprpRejects n d 2
  if r then ok false else do
  let r ← sprpRejects n d 7
  if r then ok false else do
  let r ← sprpRejects n d 61
  ok (!r)

/-- `/repo/src/math/internal_math.rs:169-181`, one round of the loop of `inv_gcd` on `(s, t, m0, m1)`. -/
def invGcdStep (st : Int × Int × Int × Int) : Res (Ctl (Int × Int × Int × Int) (Int × Int)) :=
  let (s, t, m0, m1) := st
  if t ≠ 0 then do
    let u ← i64.div s t
    let tu ← ck i64 (t * u)
    let s ← ck i64 (s - tu)
    let mu ← ck i64 (m1 * u)
    let m0 ← ck i64 (m0 - mu)
    ok (.next (t, s, m1, m0))
  else ok (.done (s, m0))

/-- `/repo/src/math/internal_math.rs:154-188`, `inv_gcd`. Fuel: `t` decreases. -/
def invGcd (a b : Int) : Res (Int × Int) := do
  let a ← safeMod a b
  if a = 0 then ok (b, 0) else do
  let (s, m0) ← loop (a.natAbs + 2) ((b, a, 0, 1) : Int × Int × Int × Int) invGcdStep
  if m0 < 0 then do
    let q ← i64.div b s
    let m0 ← ck i64 (m0 + q)
    ok (s, m0)
  else ok (s, m0)

/-- `/repo/src/math/internal_math.rs:211-222`, one round of the trial division on `(i, x, divs, cnt)`;
the range ends below `i32::MAX`. -/
def trialStep (s : Int × Int × List Int × Nat) :
    Res (Ctl (Int × Int × List Int × Nat) (Int × List Int × Nat)) :=
  let (i, x, divs, cnt) := s
  if ¬ i < 2 ^ 31 - 1 then ok (.done (x, divs, cnt)) else do
  let ii ← ck i64 (i * i)
  if ii > x then ok (.done (x, divs, cnt)) else do
  let r ← i32.rem x i
  if r = 0 then do
    let divs ← upd divs cnt i
    let cnt ← addU 64 cnt 1
    let x ← divOut x i
    ok (.next (i + 2, x, divs, cnt))
  else ok (.next (i + 2, x, divs, cnt))

/-- `/repo/src/math/internal_math.rs:204-226`, the prime divisors of `m - 1`. Fuel: `i * i > x` for an `i32`
`x` once `i` reaches `2^16`. -/
def rootDivs (m : Int) : Res (List Int × Nat) := do
  let m1 ← ck i32 (m - 1)
  let h ← i32.div m1 2
  let x ← divOut h 2
  let (x, divs, cnt) ← loop 65536 ((3, x, (List.replicate 20 0).set 0 2, 1) : Int × Int × List Int × Nat) trialStep
  if x > 1 then do
    let divs ← upd divs cnt x
    let cnt ← addU 64 cnt 1
    ok (divs, cnt)
  else ok (divs, cnt)

/-- `/repo/src/math/internal_math.rs:229`, `(0..cnt).all(|i| pow_mod(g, (m - 1) / divs[i], m) != 1)`
from index `i` on. -/
def rootTest (m g : Int) (divs : List Int) : Nat → Nat → Res Bool
  | 0, _ => ok true
  | k + 1, i => do
    let m1 ← ck i32 (m - 1)
    let q ← idx divs i
    let e ← i32.div m1 q
    let r ← powMod g e m
    if r ≠ 1 then rootTest m g divs k (i + 1) else ok false

/-- `/repo/src/math/internal_math.rs:228-233`, one round of the search for the root. -/
def rootStep (m : Int) (divs : List Int) (cnt : Nat) (g : Int) : Res (Ctl Int Int) := do
  let b ← rootTest m g divs cnt 0
  if b then ok (.done (asI32 g)) else do
    let g ← ck i64 (g + 1)
    ok (.next g)

/-- `/repo/src/math/internal_math.rs:204-233`, `primitive_root` after the table of constants. Fuel: a primitive
root is below `m`. -/
def rootSearch (m : Int) : Res Int := do
  let (divs, cnt) ← rootDivs m
  loop (m.natAbs + 1) (2 : Int) (rootStep m divs cnt)

/-- `/repo/src/math/internal_math.rs:194-234`, `primitive_root`. -/
def primitiveRoot (m : Int) : Res Int :=
  if m = 2 then ok 1
  else if m = 167772161 then ok 3
  else if m = 469762049 then ok 3
  else if m = 754974721 then ok 11
  else if m = 998244353 then ok 3
  else rootSearch m

/-! ### `Model/Modint.lean` -/

/-- `/repo/src/misc/modint.rs:795-802`, `add_impl`. -/
def miAdd (k : MKind) (a b : Nat) : Res Nat := do
  let v ← addU 32 a b
  if k.modulus ≤ v then subU 32 v k.modulus else ok v

/-- `/repo/src/misc/modint.rs:824-826`, `831-833`, `494-498`, `mul_impl`. -/
def miMul (k : MKind) (a b : Nat) : Res Nat :=
  match k with
  | .stat m _ => do
    let p ← mulU 64 a b
    let r ← remU p m
    ok (r % 2 ^ 32)
  | .dyn bt => mulMod a b bt.m bt.im

/-- `/repo/src/misc/modint.rs:678-684`, one round of the loop of `pow` on `(x, r, n)`. -/
def miPowStep (k : MKind) (s : Nat × Nat × Nat) : Res (Ctl (Nat × Nat × Nat) Nat) :=
  if s.2.2 > 0 then do
    let r ← (if s.2.2 % 2 = 1 then miMul k s.2.1 s.1 else ok s.2.1)
    let x ← miMul k s.1 s.1
    ok (.next (x, r, s.2.2 / 2))
  else ok (.done s.2.1)

/-- `/repo/src/misc/modint.rs:675-686`, `pow`. Fuel: `n` is a `u64`. -/
def miPow (k : MKind) (x n : Nat) : Res Nat := loop 65 (x, 1, n) (miPowStep k)

/-- `/repo/src/misc/modint.rs:754-760`, `inv_for_non_prime_modulus`. -/
def miInvGcd (k : MKind) (a : Nat) : Res Nat := do
  let (g, x) ← invGcd a k.modulus
  if g ≠ 1 then panic else miNew k i64 x

/-- `/repo/src/misc/modint.rs:169-183`, `417-419`, `inv`. The `debug_assert!` is not compiled. -/
def miInv (k : MKind) (a : Nat) : Res Nat :=
  match k with
  | .stat m true =>
    if a = 0 then panic else do
    let e ← subU 32 m 2
    miPow k a e
  | _ => miInvGcd k a

/-- `/repo/src/misc/modint.rs:817-819`, `div_impl`. -/
def miDiv (k : MKind) (a b : Nat) : Res Nat := do
  let i ← miInv k b
  miMul k a i

/-- `/repo/src/misc/modint.rs:1018-1050`, `sum`. -/
def miSum (k : MKind) (l : List Nat) : Res Nat := foldRes (miAdd k) 0 l
/-- `/repo/src/misc/modint.rs:1018-1050`, `product`. -/
def miProduct (k : MKind) (l : List Nat) : Res Nat := foldRes (miMul k) 1 l

/-! ### `Model/Factorial.lean` -/

/-- `/repo/src/math/factorial.rs:9-24`, `new`. -/
def factorialNew (k : MKind) (n : Nat) : Res Factorial := do
  let len ← addU 64 n 1
  let z ← miNew k i32 0
  let f := List.replicate len z
  let g := List.replicate len z
  let one ← miNew k i32 1
  let f ← upd f 0 one
  let f ← forRange 1 (n + 1) f fun i f => do
    let a ← idx f (i - 1)
    let b ← miNew k usizeTy i
    let v ← miMul k a b
    upd f i v
  let a ← idx f n
  let v ← miInv k a
  let g ← upd g n v
  let g ← forRangeRev 0 n g fun i g => do
    let a ← idx g (i + 1)
    let b ← miNew k usizeTy (i + 1)
    let v ← miMul k a b
    upd g i v
  ok ⟨f, g⟩

/-- `/repo/src/math/factorial.rs:26-30`, `choose`. -/
def Factorial.choose (t : Factorial) (k : MKind) (n r : Nat) : Res Nat := do
  assert (r ≤ n)
  assert (n < t.factorial.length)
  let a ← idx t.factorial n
  let d ← subU 64 n r
  let b ← idx t.invFac d
  let ab ← miMul k a b
  let c ← idx t.invFac r
  miMul k ab c

/-- `/repo/src/math/factorial.rs:32-36`, `perm`. -/
def Factorial.perm (t : Factorial) (k : MKind) (n r : Nat) : Res Nat := do
  assert (r ≤ n)
  assert (n < t.factorial.length)
  let a ← idx t.factorial n
  let d ← subU 64 n r
  let b ← idx t.invFac d
  miMul k a b

/-! ### `Model/Fenwick.lean` -/

namespace Fenwick
variable {T : Type}

/-- `/repo/src/data_structure/fenwick_tree.rs:24-36`, `from`. -/
def «from» (add : T → T → Res T) (zero : T) (a : List T) : Res (Fenwick T) := do
  let n := a.length
  let obj := Model.Fenwick.new zero n
  let ary ← forRange 1 (n + 1) obj.ary fun i ary => do
    let x ← idx ary (i - 1)
    let y ← idx a (i - 1)
    let s ← add x y
    let ary ← upd ary (i - 1) s
    let j ← addU 64 i (i &&& wnegU 64 i)
    if j ≤ n then do
      let tmp ← idx ary (i - 1)
      let z ← idx ary (dec j)
      let s ← add z tmp
      upd ary (dec j) s
    else ok ary
  ok { obj with ary := ary }

/-- `/repo/src/data_structure/fenwick_tree.rs:49-59`, `add` (`add` is the `AddAssign<U>` of `T`). -/
def addAt {U : Type} (add : T → U → Res T) (t : Fenwick T) (i : Nat) (val : U) : Res (Fenwick T) := do
  let n := t.n
  let i ← addU 64 i 1
  let (_, ary) ← whileLoop (n + 1) ((i, t.ary) : Nat × List T)
    (fun (i, _) => ok (decide (i ≤ n)))
    (fun (i, ary) => do
      let x ← idx ary (dec i)
      let s ← add x val
      let ary ← upd ary (dec i) s
      let i ← addU 64 i (i &&& wnegU 64 i)
      ok (i, ary))
  ok { t with ary := ary }

/-- `/repo/src/data_structure/fenwick_tree.rs:97-111`, `partition_point`. The range bound
`usize::BITS - 1 - n.leading_zeros()` is computed in `u32` arithmetic, and the shift uses the low six bits
of its amount. -/
def partitionPoint (add : T → T → Res T) (zero : T) (t : Fenwick T) (pred : T → Bool) :
    Res Nat := do
  let hi ← subU 32 (usizeBits - 1) (leadingZeros usizeBits t.n)
  let (pos, _) ← forRangeRev 0 (hi + 1) ((0, zero) : Nat × T) fun i (pos, sum) => do
    let next ← addU 64 pos (1 <<< (i % 64))
    let b ← (if next ≤ t.n then do
      let x ← idx t.ary (dec next)
      let s ← add sum x
      ok (pred s)
    else ok false)
    if b then do
      let x ← idx t.ary (dec next)
      let sum ← add sum x
      ok (next, sum)
    else ok (pos, sum)
  ok pos

/-- `/repo/src/data_structure/fenwick_tree.rs:126-128`, `search` (`lt` is the `<` of `T`). -/
def search (add : T → T → Res T) (zero : T) (lt : T → T → Bool) (t : Fenwick T) (target : T) :
    Res Nat := partitionPoint add zero t (fun x => lt x target)

end Fenwick

/-! ### `Model/SparseTable.lean` -/

namespace SparseTable
variable {T : Type}

/-- `/repo/src/data_structure/sparse_table.rs:18-31`, `from`. -/
def «from» (v : List T) (init : T) (op : T → T → Res T) : Res (SparseTable T) := do
  let n := v.length
  let k ← lg n
  let count := k + 1
  let data := List.replicate count (List.replicate n init)
  let data ← upd data 0 v
  let data ← forRange 1 count data fun c data => do
    let bound ← subU 64 n (1 <<< (c % 64))
    forRange 0 (bound + 1) data fun i data => do
      let row ← idx data (c - 1)
      let x ← idx row i
      let y ← idx row (i + (1 <<< ((c - 1) % 64)))
      let z ← op x y
      let cur ← idx data c
      let cur ← upd cur i z
      upd data c cur
  ok { data := data }

/-- `/repo/src/data_structure/sparse_table.rs:34-38`, `get`. -/
def get (t : SparseTable T) (op : T → T → Res T) (l r : Nat) : Res T := do
  assert (l < r)
  let c ← lg (r - l)
  let row ← idx t.data c
  let x ← idx row l
  let j ← subU 64 r (1 <<< (c % 64))
  let y ← idx row j
  op x y

end SparseTable

/-! ### `Model/AhoCorasick.lean` -/

namespace AhoCorasick
open Model.AhoCorasick

/-- `/repo/src/string/aho_corasick.rs:43-56`, `insert`. The `+= 1` on `nmatches` cannot overflow
before the memory is exhausted; it is not checked. -/
def insert (off N : Nat) (a : AhoCorasick) (s : List Nat) (i : Nat) : Res AhoCorasick := do
  assert (s ≠ [])
  let (nodes, p) ← forList s ((a.nodes, 0) : List ACNode × Nat) fun c (nodes, p) => do
    let k ← subU 8 c off
    let v ← getNext nodes p k
    let nodes ← (if v = 0 then do
        let nodes ← setNext nodes p k nodes.length
        ok (nodes ++ [ACNode.new N])
      else ok nodes : Res (List ACNode))
    let p ← getNext nodes p k
    ok (nodes, p)
  let nd ← idx nodes p
  let nodes ← upd nodes p { nd with fin := some i, nmatches := nd.nmatches + 1 }
  ok { a with nodes := nodes }

/-- `/repo/src/string/aho_corasick.rs:34-41`, `from`. -/
def «from» (off N : Nat) (patterns : List (List Nat)) : Res AhoCorasick := do
  let a ← forRange 0 patterns.length (Model.AhoCorasick.new N patterns.length) fun i a => do
    let s ← idx patterns i
    insert off N a s i
  build N a

/-- `/repo/src/string/aho_corasick.rs:88-91`, the closure of `find` with its captured state `p`. -/
def findStep (off : Nat) (nodes : List ACNode) (c : Nat) (s : Nat × List (Option Nat)) :
    Res (Nat × List (Option Nat)) := do
  let k ← subU 8 c off
  let p ← getNext nodes s.1 k
  let nd ← idx nodes p
  ok (p, s.2 ++ [nd.fin])

/-- `/repo/src/string/aho_corasick.rs:83-93`, `find`. -/
def find (off : Nat) (a : AhoCorasick) (text : List Nat) : Res (List (Option Nat)) := do
  let s ← forList text (0, []) (findStep off a.nodes)
  ok s.2

/-- `/repo/src/string/aho_corasick.rs:98-108`, the loop body of `find_all`. The rows of `res` are
produced in order, so `res[i].push(..)` into a preallocated vector is modelled by appending the
finished row. -/
def findAllStep (off : Nat) (nodes : List ACNode) (c : Nat) (s : Nat × List (List Nat)) :
    Res (Nat × List (List Nat)) := do
  let k ← subU 8 c off
  let p ← getNext nodes s.1 k
  let r ← collect nodes p
  ok (p, s.2 ++ [r])

/-- `/repo/src/string/aho_corasick.rs:95-110`, `find_all`. -/
def findAll (off : Nat) (a : AhoCorasick) (text : List Nat) : Res (List (List Nat)) := do
  let s ← forList text (0, []) (findAllStep off a.nodes)
  ok s.2

/-- `/repo/src/string/aho_corasick.rs:115-125`, the loop body of `find_cnt`. -/
def findCntStep (off : Nat) (nodes : List ACNode) (c : Nat) (s : Nat × List Nat) :
    Res (Nat × List Nat) := do
  let k ← subU 8 c off
  let p ← getNext nodes s.1 k
  let nd ← idx nodes p
  let cnt ← (match nd.fin with
    | some x => bump s.2 x
    | none => ok s.2 : Res (List Nat))
  let cnt ← loop (nodes.length + 1) ((nd.output, cnt) : Option Nat × List Nat) fun (o, cnt) =>
    match o with
    | none => ok (.done cnt)
    | some x => do
      let nx ← idx nodes x
      let e ← unwrap nx.fin
      let cnt ← bump cnt e
      ok (.next (nx.output, cnt))
  ok (p, cnt)

/-- `/repo/src/string/aho_corasick.rs:112-127`, `find_cnt`. -/
def findCnt (off : Nat) (a : AhoCorasick) (text : List Nat) : Res (List Nat) := do
  let s ← forList text (0, List.replicate a.n 0) (findCntStep off a.nodes)
  ok s.2

end AhoCorasick

/-! ### `Model/Dijkstra.lean` -/

/-- `/repo/src/graph/shortest_path.rs:2-19`, `dijkstra`. `usize` is 64 bits. The heap is any
implementation of the `BinaryHeap` contract; the tuple order is lexicographic. `unwrap_unchecked`
is only reached on `Some` (short-circuit `||`), so it is `unwrap`. Each heap pop is one unit of
fuel: the theorem shows that the number of edges plus two suffices. -/
def dijkstra (B : BinaryHeap (Nat ×ₗ Nat)ᵒᵈ) (g : List (List (Nat × Nat))) (s : Nat) :
    Res (List (Option Nat)) := do
  let dis : List (Option Nat) := List.replicate g.length none
  let q : MinHeap B := MinHeap.new
  let q := q.push (toLex (0, s))
  let dis ← upd dis s (some 0)
  loop ((g.map List.length).sum + 2) (dis, q) fun (dis, q) =>
    match q.pop with
    | (none, _) => ok (Ctl.done dis)
    | (some x, q) => do
      let (d, u) := ofLex x
      let du ← idx dis u
      if some d ≠ du then ok (Ctl.next (dis, q)) else
        let gu ← idx g u
        let st ← forList gu (dis, q) fun (v, c) (dis, q) => do
          let dv ← idx dis v
          let better ← (if dv.isNone then ok true else do
            let x ← unwrap dv
            let dc ← addU 64 d c
            ok (decide (x > dc)) : Res Bool)
          if better then do
            let dc ← addU 64 d c
            let dis ← upd dis v (some dc)
            let dc ← addU 64 d c
            ok (dis, q.push (toLex (dc, v)))
          else ok (dis, q)
        ok (Ctl.next st)

/-! ### `Model/Dinic.lean` -/

namespace Dinic

/-- `/repo/src/graph/max_flow.rs:28-46`, `bfs`. The queue has its front at the head of the list.
Fuel: every vertex enters the queue at most once. -/
def bfs (d : Dinic) (s t : Nat) : Res (Dinic × Bool) := do
  let h := List.replicate d.h.length (-1)
  let h ← upd h s 0
  let (h, b) ← loop (d.n + 2) ((h, [s]) : List Int × List Nat) fun (h, q) =>
    match q with
    | [] => ok (.done (h, false))
    | u :: q => do
      let gu ← idx d.g u
      let c ← forBrk gu ((h, q) : List Int × List Nat) fun i (h, q) => do
        let e ← idx d.e i
        let v := e.to
        let c ← (if 0 < e.cap then do
            let hv ← idx h v
            ok (decide (hv = -1))
          else ok false : Res Bool)
        if c then do
          let hu ← idx h u
          let hv ← ckI 32 (hu + 1)
          let h ← upd h v hv
          if v = t then ok (.done h)
          else ok (.next (h, q ++ [v]))
        else ok (.next (h, q))
      match c with
      | .done h => ok (.done (h, true))
      | .next s => ok (.next s)
  ok ({ d with h := h }, b)

/-- `/repo/src/graph/max_flow.rs:48-70`, `dfs`. Fuel bounds the recursion depth. -/
def dfs (ty : IntTy) : Nat → Dinic → Nat → Nat → Int → Res (Dinic × Int)
  | 0, _, _, _, _ => .diverge
  | fuel + 1, d, u, t, f =>
    if u = t then ok (d, f) else do
    let i ← idx d.cur u
    let gu0 ← idx d.g u
    let (d, r) ← loop (gu0.length + 1) ((d, f, i) : Dinic × Int × Nat) fun (d, r, i) => do
      let gu ← idx d.g u
      if i < gu.length then do
        let j ← idx gu i
        let e ← idx d.e j
        let v := e.to
        let c := e.cap
        let go ← (if 0 < c then do
            let hv ← idx d.h v
            let hu ← idx d.h u
            let hu1 ← ckI 32 (hu + 1)
            ok (decide (hv = hu1))
          else ok false : Res Bool)
        let (d, r, brk) ← (if go then do
            let (d, a) ← dfs ty fuel d v t (min r c)
            let ej ← idx d.e j
            let c1 ← ck ty (ej.cap - a)
            let es ← upd d.e j { ej with cap := c1 }
            let ej' ← idx es (j ^^^ 1)
            let c2 ← ck ty (ej'.cap + a)
            let es ← upd es (j ^^^ 1) { ej' with cap := c2 }
            let r ← ck ty (r - a)
            ok ({ d with e := es }, r, decide (r = 0))
          else ok (d, r, false) : Res (Dinic × Int × Bool))
        if brk then ok (.done (d, r)) else do
        let i := i + 1
        let cur ← upd d.cur u i
        ok (.next ({ d with cur := cur }, r, i))
      else ok (.done (d, r))
    let a ← ck ty (f - r)
    ok (d, a)

/-- `/repo/src/graph/max_flow.rs:79-88`, `get_max_flow`. Fuel: every phase adds at least one to the
answer, which cannot exceed the sum of all positive residual capacities. -/
def getMaxFlow (ty : IntTy) (d : Dinic) (s t : Nat) : Res (Dinic × Int) := do
  assert (s < d.n)
  assert (t < d.n)
  loop ((d.e.map fun e => e.cap.toNat).sum + 2) ((d, 0) : Dinic × Int) fun (d, ans) => do
    let (d, b) ← bfs d s t
    if b then do
      let d := { d with cur := List.replicate d.cur.length 0 }
      let (d, a) ← dfs ty (d.n + 1) d s t ty.mx
      let ans ← ck ty (ans + a)
      ok (.next (d, ans))
    else ok (.done (d, ans))

end Dinic

/-! ### `Model/Tarjan.lean` -/

namespace SCC

/-- `/repo/src/graph/tarjan.rs:21-46`, `dfs`. Fuel bounds the recursion depth. -/
def dfs : Nat → Nat → List (List Nat) → SCC → Res SCC
  | 0, _, _, _ => .diverge
  | fuel + 1, u, g, s => do
    let order ← upd s.order u s.pos
    let low ← upd s.low u s.pos
    let pos ← ckI 32 (s.pos + 1)
    let on ← upd s.on_stack u true
    let s : SCC := { s with order := order, low := low, pos := pos, stack := s.stack ++ [u],
                            on_stack := on }
    let gu ← idx g u
    let s ← forList gu s fun v (s : SCC) => do
      let ov ← idx s.order v
      let s ← (if ov = -1 then dfs fuel v g s else ok s : Res SCC)
      let b ← idx s.on_stack v
      if b then do
        let lu ← idx s.low u
        let lv ← idx s.low v
        let low ← upd s.low u (min lu lv)
        ok { s with low := low }
      else ok s
    let lu ← idx s.low u
    let ou ← idx s.order u
    if lu = ou then Model.SCC.popLoop { s with component := s.component ++ [[]] } u
    else ok s

end SCC

/-- `/repo/src/graph/tarjan.rs:49-68`, `scc`. Fuel: the recursion visits a new vertex at every
level. -/
def scc (g : List (List Nat)) : Res (Nat × List Nat) := do
  let n := g.length
  let s ← forRange 0 n (SCC.new n) fun i s => do
    let o ← idx s.order i
    if o = -1 then SCC.dfs (n + 1) i g s else ok s
  let color := List.replicate n 0
  let cnt := s.component.length
  let color ← forList s.component.zipIdx color fun (v, i) color =>
    forList v color fun x color => upd color x i
  ok (cnt, color)

/-! ### `Model/Segtree.lean`, `Model/LazySegtree.lean` -/

namespace Segtree
variable {S : Type}

/-- `/repo/src/data_structure/segtree.rs:78-114`, `max_right`. Outer `while { … } {}` is a loop with
state `(l, sm)`; `(l & -l) != l` on `isize` is `l & l.wrapping_neg()` on the bits. -/
def maxRight (M : MonoidOps S) (t : Segtree S) (l : Nat) (f : S → Bool) : Res Nat := do
  assert (l ≤ t.n)
  assert (f M.e = true)
  if l = t.n then ok t.n
  else
    loop (2 * t.size + 1) ((l + t.size, M.e) : Nat × S) fun (l, sm) => do
      let l ← whileLoop (l + 1) l (fun l => ok (decide (l % 2 = 0))) (fun l => ok (l >>> 1))
      let x ← idx t.d l
      let y ← M.op sm x
      if !f y then do
        let (l, _) ← whileLoop (t.size + 1) ((l, sm) : Nat × S)
          (fun (l, _) => ok (decide (l < t.size)))
          (fun (l, sm) => do
            let l := l * 2
            let x ← idx t.d l
            let res ← M.op sm x
            if f res then ok (l + 1, res) else ok (l, sm))
        let r ← subU 64 l t.size
        ok (Ctl.done r)
      else do
        let x ← idx t.d l
        let sm ← M.op sm x
        let l := l + 1
        if l &&& wnegU 64 l ≠ l then ok (Ctl.next (l, sm)) else ok (Ctl.done t.n)

/-- `/repo/src/data_structure/segtree.rs:117-153`, `min_left`. -/
def minLeft (M : MonoidOps S) (t : Segtree S) (r : Nat) (f : S → Bool) : Res Nat := do
  assert (r ≤ t.n)
  assert (f M.e = true)
  if r = 0 then ok 0
  else
    loop (2 * t.size + 1) ((r + t.size, M.e) : Nat × S) fun (r, sm) => do
      let r ← subU 64 r 1
      let r ← whileLoop (r + 1) r (fun r => ok (decide (r > 1 ∧ r % 2 = 1))) (fun r => ok (r >>> 1))
      let x ← idx t.d r
      let y ← M.op x sm
      if !f y then do
        let (r, _) ← whileLoop (t.size + 1) ((r, sm) : Nat × S)
          (fun (r, _) => ok (decide (r < t.size)))
          (fun (r, sm) => do
            let r := 2 * r + 1
            let x ← idx t.d r
            let res ← M.op x sm
            if f res then do
              let r ← subU 64 r 1
              ok (r, res)
            else ok (r, sm))
        let l ← subU 64 (r + 1) t.size
        ok (Ctl.done l)
      else do
        let x ← idx t.d r
        let sm ← M.op x sm
        if r &&& wnegU 64 r ≠ r then ok (Ctl.next (r, sm)) else ok (Ctl.done 0)

end Segtree

namespace LazySegtree
variable {S F : Type}

/-- `/repo/src/data_structure/lazy_segtree.rs:168-205`, `max_right`. Outer loop state
`(l, sm)`; inner descent state `(l, sm, tree)`. -/
def maxRight (M : MapMonoidOps S F) (t : LazySegtree S F) (l : Nat) (g : S → Bool) :
    Res (LazySegtree S F × Nat) := do
  assert (l ≤ t.n)
  assert (g M.e = true)
  if l = t.n then ok (t, t.n)
  else do
    let l := l + t.size
    let t ← t.pushPath M l
    loop (2 * t.size + 1) ((l, M.e) : Nat × S) fun (l, sm) => do
      let l ← whileLoop (l + 1) l (fun l => ok (decide (l % 2 = 0))) (fun l => ok (l >>> 1))
      let x ← idx t.d l
      let y ← M.op sm x
      if !g y then do
        let (l, _, t) ← whileLoop (t.size + 1) ((l, sm, t) : Nat × S × LazySegtree S F)
          (fun (l, _, t) => ok (decide (l < t.size)))
          (fun (l, sm, t) => do
            let t ← t.push M l
            let l := l * 2
            let x ← idx t.d l
            let res ← M.op sm x
            if g res then ok (l + 1, res, t) else ok (l, sm, t))
        let r ← subU 64 l t.size
        ok (Ctl.done (t, r))
      else do
        let x ← idx t.d l
        let sm ← M.op sm x
        let l := l + 1
        if l &&& wnegU 64 l = l then ok (Ctl.done (t, t.n)) else ok (Ctl.next (l, sm))

/-- `/repo/src/data_structure/lazy_segtree.rs:208-245`, `min_left`. -/
def minLeft (M : MapMonoidOps S F) (t : LazySegtree S F) (r : Nat) (g : S → Bool) :
    Res (LazySegtree S F × Nat) := do
  assert (r ≤ t.n)
  assert (g M.e = true)
  if r = 0 then ok (t, 0)
  else do
    let r := r + t.size
    let t ← t.pushPath M (r - 1)
    loop (2 * t.size + 1) ((r, M.e) : Nat × S) fun (r, sm) => do
      let r ← subU 64 r 1
      let r ← whileLoop (r + 1) r (fun r => ok (decide (r > 1 ∧ r % 2 ≠ 0))) (fun r => ok (r >>> 1))
      let x ← idx t.d r
      let y ← M.op x sm
      if !g y then do
        let (r, _, t) ← whileLoop (t.size + 1) ((r, sm, t) : Nat × S × LazySegtree S F)
          (fun (r, _, t) => ok (decide (r < t.size)))
          (fun (r, sm, t) => do
            let t ← t.push M r
            let r := 2 * r + 1
            let x ← idx t.d r
            let res ← M.op x sm
            if g res then do
              let r ← subU 64 r 1
              ok (r, res, t)
            else ok (r, sm, t))
        let l ← subU 64 (r + 1) t.size
        ok (Ctl.done (t, l))
      else do
        let x ← idx t.d r
        let sm ← M.op x sm
        if r &&& wnegU 64 r = r then ok (Ctl.done (t, 0)) else ok (Ctl.next (r, sm))

end LazySegtree

/-! ### `Model/UnionFind.lean` -/

/-- `/repo/src/data_structure/union_find.rs:31-44`, `join`. The code swaps the local variables
`fx`, `fy` (lines 38-40) but never uses them afterwards: lines 41-42 use `x` and `y`. The swap
therefore has no effect (the reads of `sz[x]`, `sz[y]` in its condition are kept for their
bounds checks). -/
def UF.join (u : UF) (x y : Nat) : Res (Bool × UF) := do
  assert (x < u.n)
  assert (y < u.n)
  let (fx, u) ← u.find x
  let (fy, u) ← u.find y
  if fx = fy then ok (false, u)
  else do
    let sx ← idx u.sz x
    let sy ← idx u.sz y
    let (_fx, _fy) := if sx > sy then (fy, fx) else (fx, fy)
    let fa ← upd u.fa x y
    let s ← addU 64 sy sx
    let sz ← upd u.sz y s
    ok (true, { u with fa := fa, sz := sz })

/-! ### `Model/BinaryLifting.lean` -/

namespace BinaryLifting

/-- `/repo/src/graph/binary_lifting.rs:27-43`, `dfs`: returns `self` and `*timer`. Fuel bounds the
recursion depth. -/
def dfs : Nat → List (List Nat) → Nat → Nat → BinaryLifting → Nat → Res (BinaryLifting × Nat)
  | 0, _, _, _, _, _ => .diverge
  | fuel + 1, g, u, p, t, timer => do
    let tin ← upd t.tin u timer
    let timer ← addU 64 timer 1
    let row ← idx t.pa u
    let row ← upd row 0 p
    let pa ← upd t.pa u row
    let pa ← forRange 1 t.level pa fun i pa => do
      let j ← subU 64 i 1
      let row ← idx pa u
      let a ← idx row j
      let ra ← idx pa a
      let x ← idx ra j
      let row ← upd row i x
      upd pa u row
    let t : BinaryLifting := { t with tin := tin, pa := pa }
    let gu ← idx g u
    let (t, timer) ← forList gu ((t, timer) : BinaryLifting × Nat) fun v (t, timer) =>
      if v ≠ p then do
        let du ← idx t.dep u
        let d ← addU 64 du 1
        let dep ← upd t.dep v d
        dfs fuel g v u { t with dep := dep } timer
      else ok (t, timer)
    let tout ← upd t.tout u timer
    ok ({ t with tout := tout }, timer)

/-- `/repo/src/graph/binary_lifting.rs:12-25`, `from`. The bound on the recursion depth is such that a call that
exceeds it never returns (`C79_recursion`). -/
def «from» (g : List (List Nat)) (root : Nat) : Res BinaryLifting := do
  let n := g.length
  let level ← lg n
  let level ← addU 64 level 1
  let t : BinaryLifting :=
    { level := level
      pa := List.replicate n (List.replicate level 0)
      dep := List.replicate n 0
      tin := List.replicate n 0
      tout := List.replicate n 0 }
  let (t, _) ← dfs (n + (g.map List.length).sum + 2) g root root t 0
  ok t

/-- `/repo/src/graph/binary_lifting.rs:65-68`, `dis`. -/
def dis (t : BinaryLifting) (u v : Nat) : Res Nat := do
  let l ← t.lca u v
  let du ← idx t.dep u
  let dl ← idx t.dep l
  let x ← subU 64 du dl
  let dv ← idx t.dep v
  let x ← addU 64 x dv
  subU 64 x dl

end BinaryLifting

/-! ### `Model/HLD.lean` -/

namespace HArr

/-- `/repo/src/graph/heavy_light_decomp.rs:49-64`, `dfs1`: returns `self` and the size. Fuel bounds
the recursion depth. -/
def dfs1 : Nat → List (List Nat) → Nat → HArr → Res (HArr × Nat)
  | 0, _, _, _ => .diverge
  | fuel + 1, g, u, t => do
    let gu ← idx g u
    let (t, size, _) ← forList gu ((t, 1, 0) : HArr × Nat × Nat) fun v (t, size, maxSize) => do
      let pu ← idx t.parent u
      if v ≠ pu then do
        let parent ← upd t.parent v u
        let t : HArr := { t with parent := parent }
        let du ← idx t.dep u
        let d ← addU 64 du 1
        let dep ← upd t.dep v d
        let t : HArr := { t with dep := dep }
        let (t, childSize) ← dfs1 fuel g v t
        let size ← addU 64 size childSize
        if childSize > maxSize then do
          let heavyChild ← upd t.heavyChild u (some v)
          ok ({ t with heavyChild := heavyChild }, size, childSize)
        else ok (t, size, maxSize)
      else ok (t, size, maxSize)
    ok (t, size)

/-- `/repo/src/graph/heavy_light_decomp.rs:66-81`, `dfs2`: returns `self` and `*timer`. -/
def dfs2 : Nat → List (List Nat) → Nat → Nat → HArr → Nat → Res (HArr × Nat)
  | 0, _, _, _, _, _ => .diverge
  | fuel + 1, g, u, hd, t, timer => do
    let head ← upd t.head u hd
    let pos ← upd t.pos u timer
    let t : HArr := { t with head := head, pos := pos }
    let timer ← addU 64 timer 1
    let v ← idx t.heavyChild u
    let (t, timer) ← (if v.isSome then do
        let v ← unwrap v
        dfs2 fuel g v hd t timer
      else ok (t, timer) : Res (HArr × Nat))
    let gu ← idx g u
    let (t, timer) ← forList gu ((t, timer) : HArr × Nat) fun v (t, timer) => do
      let pu ← idx t.parent u
      if v ≠ pu then do
        let hc ← idx t.heavyChild u
        if some v ≠ hc then dfs2 fuel g v v t timer else ok (t, timer)
      else ok (t, timer)
    let posR ← upd t.posR u timer
    ok ({ t with posR := posR }, timer)

end HArr

namespace HLD
variable {S F : Type}

/-- `/repo/src/graph/heavy_light_decomp.rs:19-36`, `new`. -/
def new (M : MapMonoidOps S F) (g : List (List Nat)) (root : Nat) : Res (HLD S F) := do
  let n := g.length
  assert (root < n)
  let data ← Model.LazySegtree.new M n
  let t : HArr :=
    { parent := List.replicate n 0
      dep := List.replicate n 0
      heavyChild := List.replicate n none
      head := List.replicate n 0
      pos := List.replicate n 0
      posR := List.replicate n 0 }
  let parent ← upd t.parent root root
  let t : HArr := { t with parent := parent }
  let (t, _) ← HArr.dfs1 (n + 1) g root t
  let (t, _) ← HArr.dfs2 (n + 1) g root root t 0
  ok { data := data, arr := t }

/-- `/repo/src/graph/heavy_light_decomp.rs:38-47`, `with_init_value`. -/
def withInitValue (M : MapMonoidOps S F) (g : List (List Nat)) (root : Nat) (v : List S) :
    Res (HLD S F) := do
  assert (g.length = v.length)
  let res ← HLD.new M g root
  let a ← forRange 0 v.length v fun i a => do
    let x ← idx v i
    let p ← idx res.arr.pos i
    upd a p x
  let data ← Model.LazySegtree.from M a
  ok { res with data := data }

end HLD

end Verif.Release
