import Verif.Model.Segtree
/-! Model of `/repo/src/data_structure/lazy_segtree.rs`.

The user-supplied operations (`binary_operation`, `mapping`, `composition`) may panic; the predicates
given to `max_right` and `min_left` are total functions here.
As in `Verif.Model.Segtree`, index arithmetic after construction is in `Nat`: all indices are at most
`2 * size + 1 ≤ 2^33 + 1`. Functions taking `&mut self` return the new tree along with the result. -/
namespace Verif.Model
open Res

/-- `/repo/src/data_structure/lazy_segtree.rs:251-260`, `struct LazySegtree`. -/
structure LazySegtree (S F : Type) where
  n : Nat
  size : Nat
  log : Nat
  d : List S
  lz : List F
  deriving DecidableEq, Repr

namespace LazySegtree
variable {S F : Type}

/-- `/repo/src/data_structure/lazy_segtree.rs:265-267`, `update`. -/
def update (M : MapMonoidOps S F) (t : LazySegtree S F) (k : Nat) : Res (LazySegtree S F) := do
  let x ← idx t.d (2 * k)
  let y ← idx t.d (2 * k + 1)
  let s ← M.op x y
  let d ← upd t.d k s
  ok { t with d := d }

/-- `/repo/src/data_structure/lazy_segtree.rs:268-273`, `all_apply`. -/
def allApply (M : MapMonoidOps S F) (t : LazySegtree S F) (k : Nat) (f : F) :
    Res (LazySegtree S F) := do
  let x ← idx t.d k
  let y ← M.mapping f x
  let d ← upd t.d k y
  let t := { t with d := d }
  if k < t.size then do
    let z ← idx t.lz k
    let c ← M.comp f z
    let lz ← upd t.lz k c
    ok { t with lz := lz }
  else ok t

/-- `/repo/src/data_structure/lazy_segtree.rs:274-278`, `push`. -/
def push (M : MapMonoidOps S F) (t : LazySegtree S F) (k : Nat) : Res (LazySegtree S F) := do
  let z ← idx t.lz k
  let t ← t.allApply M (2 * k) z
  let z ← idx t.lz k
  let t ← t.allApply M (2 * k + 1) z
  let lz ← upd t.lz k M.idMap
  ok { t with lz := lz }

/-- `/repo/src/data_structure/lazy_segtree.rs:18-36`, `From<Vec<S>>::from`. `n as u32` truncates. -/
def «from» (M : MapMonoidOps S F) (v : List S) : Res (LazySegtree S F) := do
  let n := v.length
  let log ← ceilLg (n % 2 ^ 32)
  let size := 1 <<< log
  let d := List.replicate (2 * size) M.e
  let lz := List.replicate size M.idMap
  let d ← writeSlice d size v
  let ret : LazySegtree S F := { n := n, size := size, log := log, d := d, lz := lz }
  forRangeRev 1 size ret fun i ret => ret.update M i

/-- `/repo/src/data_structure/lazy_segtree.rs:12-14`, `new` (and `default` = `new(0)`). -/
def new (M : MapMonoidOps S F) (n : Nat) : Res (LazySegtree S F) := «from» M (List.replicate n M.e)

/-- The loop `for i in (1..=self.log).rev() { self.push(p >> i); }`
(`/repo/src/data_structure/lazy_segtree.rs:44-46`, `56-58`, `109-111`, `178-180`, `218-220`). -/
def pushPath (M : MapMonoidOps S F) (t : LazySegtree S F) (p : Nat) : Res (LazySegtree S F) :=
  forRangeRev 1 (t.log + 1) t fun i t => t.push M (p >>> i)

/-- The loop `for i in 1..=self.log { self.update(p >> i); }`
(`/repo/src/data_structure/lazy_segtree.rs:48-50`, `113-115`). -/
def updatePath (M : MapMonoidOps S F) (t : LazySegtree S F) (p : Nat) : Res (LazySegtree S F) :=
  forRange 1 (t.log + 1) t fun i t => t.update M (p >>> i)

/-- `/repo/src/data_structure/lazy_segtree.rs:41-51`, `set`. -/
def set (M : MapMonoidOps S F) (t : LazySegtree S F) (p : Nat) (x : S) : Res (LazySegtree S F) := do
  assert (p < t.n)
  let p := p + t.size
  let t ← t.pushPath M p
  let d ← upd t.d p x
  updatePath M { t with d := d } p

/-- `/repo/src/data_structure/lazy_segtree.rs:54-61`, `get`. -/
def get (M : MapMonoidOps S F) (t : LazySegtree S F) (p : Nat) : Res (LazySegtree S F × S) := do
  assert (p < t.n)
  let p := p + t.size
  let t ← t.pushPath M p
  let x ← idx t.d p
  ok (t, x)

/-- `/repo/src/data_structure/lazy_segtree.rs:64-98`, `prod`. Loop state `(l, r, sml, smr)`. -/
def prod (M : MapMonoidOps S F) (t : LazySegtree S F) (l r : Nat) : Res (LazySegtree S F × S) := do
  assert (l ≤ r ∧ r ≤ t.n)
  if l = r then ok (t, M.e)
  else do
    let l := l + t.size
    let r := r + t.size
    let t ← forRangeRev 1 (t.log + 1) t fun i t => do
      let t ← (if (l >>> i) <<< i ≠ l then t.push M (l >>> i) else ok t : Res (LazySegtree S F))
      (if (r >>> i) <<< i ≠ r then t.push M (r >>> i) else ok t : Res (LazySegtree S F))
    let (_, _, sml, smr) ← whileLoop (r + 1) ((l, r, M.e, M.e) : Nat × Nat × S × S)
      (fun (l, r, _, _) => ok (decide (l < r)))
      (fun (l, r, sml, smr) => do
        let (l, sml) ← (if l &&& 1 ≠ 0 then do
            let x ← idx t.d l
            let sml ← M.op sml x
            ok (l + 1, sml)
          else ok (l, sml) : Res (Nat × S))
        let (r, smr) ← (if r &&& 1 ≠ 0 then do
            let x ← idx t.d (r - 1)
            let smr ← M.op x smr
            ok (r - 1, smr)
          else ok (r, smr) : Res (Nat × S))
        ok (l >>> 1, r >>> 1, sml, smr))
    let s ← M.op sml smr
    ok (t, s)

/-- `/repo/src/data_structure/lazy_segtree.rs:101-103`, `all_prod`. -/
def allProd (t : LazySegtree S F) : Res S := idx t.d 1

/-- `/repo/src/data_structure/lazy_segtree.rs:106-116`, `apply`. -/
def apply (M : MapMonoidOps S F) (t : LazySegtree S F) (p : Nat) (f : F) : Res (LazySegtree S F) := do
  assert (p < t.n)
  let p := p + t.size
  let t ← t.pushPath M p
  let x ← idx t.d p
  let y ← M.mapping f x
  let d ← upd t.d p y
  updatePath M { t with d := d } p

/-- `/repo/src/data_structure/lazy_segtree.rs:119-164`, `apply_range`. Loop state `(l, r, tree)`. -/
def applyRange (M : MapMonoidOps S F) (t : LazySegtree S F) (l r : Nat) (f : F) :
    Res (LazySegtree S F) := do
  assert (l ≤ r ∧ r ≤ t.n)
  if l = r then ok t
  else do
    let l := l + t.size
    let r := r + t.size
    let t ← forRangeRev 1 (t.log + 1) t fun i t => do
      let t ← (if (l >>> i) <<< i ≠ l then t.push M (l >>> i) else ok t : Res (LazySegtree S F))
      (if (r >>> i) <<< i ≠ r then t.push M ((r - 1) >>> i) else ok t : Res (LazySegtree S F))
    let (_, _, t) ← whileLoop (r + 1) ((l, r, t) : Nat × Nat × LazySegtree S F)
      (fun (l, r, _) => ok (decide (l < r)))
      (fun (l, r, t) => do
        let (l, t) ← (if l &&& 1 ≠ 0 then do
            let t ← t.allApply M l f
            ok (l + 1, t)
          else ok (l, t) : Res (Nat × LazySegtree S F))
        let (r, t) ← (if r &&& 1 ≠ 0 then do
            let t ← t.allApply M (r - 1) f
            ok (r - 1, t)
          else ok (r, t) : Res (Nat × LazySegtree S F))
        ok (l >>> 1, r >>> 1, t))
    forRange 1 (t.log + 1) t fun i t => do
      let t ← (if (l >>> i) <<< i ≠ l then t.update M (l >>> i) else ok t : Res (LazySegtree S F))
      (if (r >>> i) <<< i ≠ r then t.update M ((r - 1) >>> i) else ok t : Res (LazySegtree S F))

/-- `/repo/src/data_structure/lazy_segtree.rs:168-205`, `max_right`. Outer loop state
`(l, sm)`; inner descent state `(l, sm, tree)`. -/
def maxRight (M : MapMonoidOps S F) (t : LazySegtree S F) (l : Nat) (g : S → Bool) :
    Res (LazySegtree S F × Nat) := do
  assert (l ≤ t.n)
  assert (g M.e = true)
  if l = t.n then ok (t, t.n)
  else do
    let l := l + t.size
    let t ← t.pushPath M l
    loop (2 * t.size + 1) ((l, M.e) : Nat × S) fun (l, sm) => do
      let l ← whileLoop (l + 1) l (fun l => ok (decide (l % 2 = 0))) (fun l => ok (l >>> 1))
      let x ← idx t.d l
      let y ← M.op sm x
      if !g y then do
        let (l, _, t) ← whileLoop (t.size + 1) ((l, sm, t) : Nat × S × LazySegtree S F)
          (fun (l, _, t) => ok (decide (l < t.size)))
          (fun (l, sm, t) => do
            let t ← t.push M l
            let l := l * 2
            let x ← idx t.d l
            let res ← M.op sm x
            if g res then ok (l + 1, res, t) else ok (l, sm, t))
        let r ← subU l t.size
        ok (Ctl.done (t, r))
      else do
        let x ← idx t.d l
        let sm ← M.op sm x
        let l := l + 1
        if l &&& wnegU 64 l = l then ok (Ctl.done (t, t.n)) else ok (Ctl.next (l, sm))

/-- `/repo/src/data_structure/lazy_segtree.rs:208-245`, `min_left`. -/
def minLeft (M : MapMonoidOps S F) (t : LazySegtree S F) (r : Nat) (g : S → Bool) :
    Res (LazySegtree S F × Nat) := do
  assert (r ≤ t.n)
  assert (g M.e = true)
  if r = 0 then ok (t, 0)
  else do
    let r := r + t.size
    let t ← t.pushPath M (r - 1)
    loop (2 * t.size + 1) ((r, M.e) : Nat × S) fun (r, sm) => do
      let r ← subU r 1
      let r ← whileLoop (r + 1) r (fun r => ok (decide (r > 1 ∧ r % 2 ≠ 0))) (fun r => ok (r >>> 1))
      let x ← idx t.d r
      let y ← M.op x sm
      if !g y then do
        let (r, _, t) ← whileLoop (t.size + 1) ((r, sm, t) : Nat × S × LazySegtree S F)
          (fun (r, _, t) => ok (decide (r < t.size)))
          (fun (r, sm, t) => do
            let t ← t.push M r
            let r := 2 * r + 1
            let x ← idx t.d r
            let res ← M.op x sm
            if g res then do
              let r ← subU r 1
              ok (r, res, t)
            else ok (r, sm, t))
        let l ← subU (r + 1) t.size
        ok (Ctl.done (t, l))
      else do
        let x ← idx t.d r
        let sm ← M.op x sm
        if r &&& wnegU 64 r = r then ok (Ctl.done (t, 0)) else ok (Ctl.next (r, sm))

/-- `/repo/src/data_structure/lazy_segtree.rs:289-303`, `Debug::fmt`: the text written. `showS` and `showF` are the
`Debug` texts of an element and of a map; the formatter itself does not fail. -/
def debugFmt (showS : S → List Char) (showF : F → List Char) (t : LazySegtree S F) : Res (List Char) := do
  let out ← forRange 0 t.log ([] : List Char) fun i out => do
    let out ← forRange 0 (1 <<< i) out fun j out => do
      let x ← idx t.d ((1 <<< i) + j)
      let z ← idx t.lz ((1 <<< i) + j)
      ok (out ++ showS x ++ ['['] ++ showF z ++ [']', '\t'])
    ok (out ++ ['\n'])
  forRange 0 t.size out fun i out => do
    let x ← idx t.d (t.size + i)
    ok (out ++ showS x ++ ['\t'])

end LazySegtree
end Verif.Model
