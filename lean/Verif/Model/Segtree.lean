import Verif.Model.Util
import Verif.Model.Monoid
/-! Model of `/repo/src/data_structure/segtree.rs`.

Index arithmetic after construction is in `Nat`: `from` only returns when `n ≤ size ≤ 2^32`, so the
`usize` operations on indices (all `≤ 2 * size + 1`) cannot overflow. -/
namespace Verif.Model
open Res

/-- `/repo/src/data_structure/segtree.rs:173-182`, `struct Segtree`. -/
structure Segtree (S : Type) where
  n : Nat
  size : Nat
  log : Nat
  d : List S
  deriving DecidableEq, Repr

/-- `d[lo..lo+v.len()].clone_from_slice(&v)`: panics when the range is out of bounds. -/
def writeSlice {S : Type} (d : List S) (lo : Nat) (v : List S) : Res (List S) :=
  if lo + v.length ≤ d.length then ok (d.take lo ++ v ++ d.drop (lo + v.length)) else panic

namespace Segtree
variable {S : Type}

/-- `/repo/src/data_structure/segtree.rs:155-157`, `update`. -/
def update (M : MonoidOps S) (t : Segtree S) (k : Nat) : Res (Segtree S) := do
  let x ← idx t.d (2 * k)
  let y ← idx t.d (2 * k + 1)
  let z ← M.op x y
  let d ← upd t.d k z
  ok { t with d := d }

/-- `/repo/src/data_structure/segtree.rs:17-28`, `From<Vec<M::S>>::from`. `n as u32` truncates. -/
def «from» (M : MonoidOps S) (v : List S) : Res (Segtree S) := do
  let n := v.length
  let log ← ceilLg (n % 2 ^ 32)
  let size := 1 <<< log
  let d := List.replicate (2 * size) M.e
  let d ← writeSlice d size v
  let ret : Segtree S := { n := n, size := size, log := log, d := d }
  forRangeRev 1 size ret fun i ret => ret.update M i

/-- `/repo/src/data_structure/segtree.rs:11-13`, `new` (and `default` = `new(0)`, `segtree.rs:4-8`). -/
def new (M : MonoidOps S) (n : Nat) : Res (Segtree S) := «from» M (List.replicate n M.e)

/-- `/repo/src/data_structure/segtree.rs:32-39`, `set`. -/
def set (M : MonoidOps S) (t : Segtree S) (p : Nat) (x : S) : Res (Segtree S) := do
  assert (p < t.n)
  let p := p + t.size
  let d ← upd t.d p x
  forRange 1 (t.log + 1) { t with d := d } fun i t => t.update M (p >>> i)

/-- `/repo/src/data_structure/segtree.rs:42-45`, `get`. -/
def get (t : Segtree S) (p : Nat) : Res S := do
  assert (p < t.n)
  idx t.d (p + t.size)

/-- `/repo/src/data_structure/segtree.rs:48-69`, `prod`. Loop state `(l, r, sml, smr)`. -/
def prod (M : MonoidOps S) (t : Segtree S) (l r : Nat) : Res S := do
  assert (l ≤ r ∧ r ≤ t.n)
  let (_, _, sml, smr) ← whileLoop (r + t.size + 1)
    ((l + t.size, r + t.size, M.e, M.e) : Nat × Nat × S × S)
    (fun (l, r, _, _) => ok (decide (l < r)))
    (fun (l, r, sml, smr) => do
      let (l, sml) ← (if l &&& 1 ≠ 0 then do
          let x ← idx t.d l
          let sml ← M.op sml x
          ok (l + 1, sml)
        else ok (l, sml) : Res (Nat × S))
      let (r, smr) ← (if r &&& 1 ≠ 0 then do
          let x ← idx t.d (r - 1)
          let smr ← M.op x smr
          ok (r - 1, smr)
        else ok (r, smr) : Res (Nat × S))
      ok (l >>> 1, r >>> 1, sml, smr))
  M.op sml smr

/-- `/repo/src/data_structure/segtree.rs:72-74`, `all_prod`. -/
def allProd (t : Segtree S) : Res S := idx t.d 1

/-- `/repo/src/data_structure/segtree.rs:78-114`, `max_right`. Outer `while { … } {}` is a loop with
state `(l, sm)`; `(l & -l) != l` on `isize` is `l & l.wrapping_neg()` on the bits. -/
def maxRight (M : MonoidOps S) (t : Segtree S) (l : Nat) (f : S → Bool) : Res Nat := do
  assert (l ≤ t.n)
  assert (f M.e = true)
  if l = t.n then ok t.n
  else
    loop (2 * t.size + 1) ((l + t.size, M.e) : Nat × S) fun (l, sm) => do
      let l ← whileLoop (l + 1) l (fun l => ok (decide (l % 2 = 0))) (fun l => ok (l >>> 1))
      let x ← idx t.d l
      let y ← M.op sm x
      if !f y then do
        let (l, _) ← whileLoop (t.size + 1) ((l, sm) : Nat × S)
          (fun (l, _) => ok (decide (l < t.size)))
          (fun (l, sm) => do
            let l := l * 2
            let x ← idx t.d l
            let res ← M.op sm x
            if f res then ok (l + 1, res) else ok (l, sm))
        let r ← subU l t.size
        ok (Ctl.done r)
      else do
        let x ← idx t.d l
        let sm ← M.op sm x
        let l := l + 1
        if l &&& wnegU 64 l ≠ l then ok (Ctl.next (l, sm)) else ok (Ctl.done t.n)

/-- `/repo/src/data_structure/segtree.rs:117-153`, `min_left`. -/
def minLeft (M : MonoidOps S) (t : Segtree S) (r : Nat) (f : S → Bool) : Res Nat := do
  assert (r ≤ t.n)
  assert (f M.e = true)
  if r = 0 then ok 0
  else
    loop (2 * t.size + 1) ((r + t.size, M.e) : Nat × S) fun (r, sm) => do
      let r ← subU r 1
      let r ← whileLoop (r + 1) r (fun r => ok (decide (r > 1 ∧ r % 2 = 1))) (fun r => ok (r >>> 1))
      let x ← idx t.d r
      let y ← M.op x sm
      if !f y then do
        let (r, _) ← whileLoop (t.size + 1) ((r, sm) : Nat × S)
          (fun (r, _) => ok (decide (r < t.size)))
          (fun (r, sm) => do
            let r := 2 * r + 1
            let x ← idx t.d r
            let res ← M.op x sm
            if f res then do
              let r ← subU r 1
              ok (r, res)
            else ok (r, sm))
        let l ← subU (r + 1) t.size
        ok (Ctl.done l)
      else do
        let x ← idx t.d r
        let sm ← M.op x sm
        if r &&& wnegU 64 r ≠ r then ok (Ctl.next (r, sm)) else ok (Ctl.done 0)

end Segtree
end Verif.Model
