import Verif.Prelude.Int
/-! Model of `/repo/src/data_structure/fenwick_tree.rs`.

The value type `T` is any type; its `+`, `-` are parameters `add`, `sub : T → T → Res T` (so that a
checked machine addition may panic) and `Default::default()` is the parameter `zero`. The method `add<U>` takes the
`+=` of `T` and `U` as its parameter. Simplifications: `clone` is the identity; the
`+` and the `+=` of `T` with `T` (two traits in Rust, `Add` and `AddAssign`) are the same operation `add`. -/
namespace Verif.Model
open Res

/-- `/repo/src/data_structure/fenwick_tree.rs:1-4`, `struct FenwickTree`. -/
structure Fenwick (T : Type) where
  n : Nat
  ary : List T
  deriving DecidableEq, Repr

namespace Fenwick
variable {T : Type}

/-- `/repo/src/data_structure/fenwick_tree.rs:16-21`, `new`. -/
def new (zero : T) (n : Nat) : Fenwick T := { n := n, ary := List.replicate n zero }

/-- `/repo/src/data_structure/fenwick_tree.rs:24-36`, `from`. -/
def «from» (add : T → T → Res T) (zero : T) (a : List T) : Res (Fenwick T) := do
  let n := a.length
  let obj := new zero n
  let ary ← forRange 1 (n + 1) obj.ary fun i ary => do
    let x ← idx ary (i - 1)
    let y ← idx a (i - 1)
    let s ← add x y
    let ary ← upd ary (i - 1) s
    let j ← addU 64 i (i &&& wnegU 64 i)
    if j ≤ n then do
      let tmp ← idx ary (i - 1)
      let z ← idx ary (j - 1)
      let s ← add z tmp
      upd ary (j - 1) s
    else ok ary
  ok { obj with ary := ary }

/-- `/repo/src/data_structure/fenwick_tree.rs:39-46`, `pref`. -/
def pref (add : T → T → Res T) (zero : T) (t : Fenwick T) (i : Nat) : Res T := do
  let (_, sum) ← whileLoop (i + 1) ((i, zero) : Nat × T)
    (fun (i, _) => ok (decide (i > 0)))
    (fun (i, sum) => do
      let x ← idx t.ary (i - 1)
      let sum ← add sum x
      ok (i &&& (i - 1), sum))
  ok sum

/-- `/repo/src/data_structure/fenwick_tree.rs:49-59`, `add` (`add` is the `AddAssign<U>` of `T`). -/
def addAt {U : Type} (add : T → U → Res T) (t : Fenwick T) (i : Nat) (val : U) : Res (Fenwick T) := do
  let n := t.n
  let i ← addU 64 i 1
  let (_, ary) ← whileLoop (n + 1) ((i, t.ary) : Nat × List T)
    (fun (i, _) => ok (decide (i ≤ n)))
    (fun (i, ary) => do
      let x ← idx ary (i - 1)
      let s ← add x val
      let ary ← upd ary (i - 1) s
      let i ← addU 64 i (i &&& wnegU 64 i)
      ok (i, ary))
  ok { t with ary := ary }

/-- `/repo/src/data_structure/fenwick_tree.rs:72-77`, `sum`. -/
def sum (add sub : T → T → Res T) (zero : T) (t : Fenwick T) (l r : Nat) : Res T := do
  let a ← pref add zero t r
  let b ← pref add zero t l
  sub a b

/-- `/repo/src/data_structure/fenwick_tree.rs:97-111`, `partition_point`. The range bound
`usize::BITS - 1 - n.leading_zeros()` is computed in checked `u32` arithmetic. -/
def partitionPoint (add : T → T → Res T) (zero : T) (t : Fenwick T) (pred : T → Bool) :
    Res Nat := do
  let hi ← subU (usizeBits - 1) (leadingZeros usizeBits t.n)
  let (pos, _) ← forRangeRev 0 (hi + 1) ((0, zero) : Nat × T) fun i (pos, sum) => do
    let next ← addU 64 pos (1 <<< i)
    let b ← (if next ≤ t.n then do
      let x ← idx t.ary (next - 1)
      let s ← add sum x
      ok (pred s)
    else ok false)
    if b then do
      let x ← idx t.ary (next - 1)
      let sum ← add sum x
      ok (next, sum)
    else ok (pos, sum)
  ok pos

/-- `/repo/src/data_structure/fenwick_tree.rs:126-128`, `search` (`lt` is the `<` of `T`). -/
def search (add : T → T → Res T) (zero : T) (lt : T → T → Bool) (t : Fenwick T) (target : T) :
    Res Nat := partitionPoint add zero t (fun x => lt x target)

end Fenwick
end Verif.Model
