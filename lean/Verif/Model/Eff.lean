import Verif.Model.Fenwick
import Verif.Model.HLD
import Verif.Model.SparseTable
/-! The trees of `/repo/src/data_structure` and the decomposition of `/repo/src/graph/heavy_light_decomp.rs` with user
operations that have side effects on a state `σ` (for instance a counter in a static variable): every operation
takes the state and returns the new one with its result. Identity elements and `clone` are values without effects. -/
namespace Verif.Model
open Res

variable {σ S F T : Type}

namespace Fenwick

/-- `/repo/src/data_structure/fenwick_tree.rs:24-36`, `from`. -/
def fromE (add : T → T → σ → Res (T × σ)) (zero : T) (a : List T) (w : σ) : Res (Fenwick T × σ) := do
  let n := a.length
  let obj := new zero n
  let (ary, w) ← forRange 1 (n + 1) ((obj.ary, w) : List T × σ) fun i (ary, w) => do
    let x ← idx ary (i - 1)
    let y ← idx a (i - 1)
    let (s, w) ← add x y w
    let ary ← upd ary (i - 1) s
    let j ← addU 64 i (i &&& wnegU 64 i)
    if j ≤ n then do
      let tmp ← idx ary (i - 1)
      let z ← idx ary (j - 1)
      let (s, w) ← add z tmp w
      let ary ← upd ary (j - 1) s
      ok (ary, w)
    else ok (ary, w)
  ok ({ obj with ary := ary }, w)

/-- `/repo/src/data_structure/fenwick_tree.rs:39-46`, `pref`. -/
def prefE (add : T → T → σ → Res (T × σ)) (zero : T) (t : Fenwick T) (i : Nat) (w : σ) : Res (T × σ) := do
  let (_, sum, w) ← whileLoop (i + 1) ((i, zero, w) : Nat × T × σ)
    (fun (i, _, _) => ok (decide (i > 0)))
    (fun (i, sum, w) => do
      let x ← idx t.ary (i - 1)
      let (sum, w) ← add sum x w
      ok (i &&& (i - 1), sum, w))
  ok (sum, w)

/-- `/repo/src/data_structure/fenwick_tree.rs:49-59`, `add`. -/
def addAtE {U : Type} (add : T → U → σ → Res (T × σ)) (t : Fenwick T) (i : Nat) (val : U) (w : σ) :
    Res (Fenwick T × σ) := do
  let n := t.n
  let i ← addU 64 i 1
  let (_, ary, w) ← whileLoop (n + 1) ((i, t.ary, w) : Nat × List T × σ)
    (fun (i, _, _) => ok (decide (i ≤ n)))
    (fun (i, ary, w) => do
      let x ← idx ary (i - 1)
      let (s, w) ← add x val w
      let ary ← upd ary (i - 1) s
      let i ← addU 64 i (i &&& wnegU 64 i)
      ok (i, ary, w))
  ok ({ t with ary := ary }, w)

/-- `/repo/src/data_structure/fenwick_tree.rs:72-77`, `sum`; `-` has effects too. -/
def sumE (add sub : T → T → σ → Res (T × σ)) (zero : T) (t : Fenwick T) (l r : Nat) (w : σ) : Res (T × σ) := do
  let (a, w) ← prefE add zero t r w
  let (b, w) ← prefE add zero t l w
  sub a b w

/-- `/repo/src/data_structure/fenwick_tree.rs:97-111`, `partition_point`; the predicate has effects too. -/
def partitionPointE (add : T → T → σ → Res (T × σ)) (zero : T) (t : Fenwick T) (pred : T → σ → Res (Bool × σ))
    (w : σ) : Res (Nat × σ) := do
  let hi ← subU (usizeBits - 1) (leadingZeros usizeBits t.n)
  let (pos, _, w) ← forRangeRev 0 (hi + 1) ((0, zero, w) : Nat × T × σ) fun i (pos, sum, w) => do
    let next ← addU 64 pos (1 <<< i)
    let (b, w) ← (if next ≤ t.n then do
      let x ← idx t.ary (next - 1)
      let (s, w) ← add sum x w
      pred s w
    else ok (false, w) : Res (Bool × σ))
    if b then do
      let x ← idx t.ary (next - 1)
      let (sum, w) ← add sum x w
      ok (next, sum, w)
    else ok (pos, sum, w)
  ok (pos, w)

end Fenwick

namespace SparseTable

/-- `/repo/src/data_structure/sparse_table.rs:18-31`, `from`. -/
def fromE (v : List T) (init : T) (op : T → T → σ → Res (T × σ)) (w : σ) : Res (SparseTable T × σ) := do
  let n := v.length
  let k ← lg n
  let count := k + 1
  let data := List.replicate count (List.replicate n init)
  let data ← upd data 0 v
  let (data, w) ← forRange 1 count ((data, w) : List (List T) × σ) fun c (data, w) => do
    let bound ← subU n (1 <<< c)
    forRange 0 (bound + 1) (data, w) fun i (data, w) => do
      let row ← idx data (c - 1)
      let x ← idx row i
      let y ← idx row (i + (1 <<< (c - 1)))
      let (z, w) ← op x y w
      let cur ← idx data c
      let cur ← upd cur i z
      let data ← upd data c cur
      ok (data, w)
  ok ({ data := data }, w)

/-- `/repo/src/data_structure/sparse_table.rs:34-38`, `get`. -/
def getE (t : SparseTable T) (op : T → T → σ → Res (T × σ)) (l r : Nat) (w : σ) : Res (T × σ) := do
  assert (l < r)
  let c ← lg (r - l)
  let row ← idx t.data c
  let x ← idx row l
  let j ← subU r (1 <<< c)
  let y ← idx row j
  op x y w

end SparseTable

/-- `/repo/src/traits/monoid.rs:1-5`, `trait Monoid`, with effects. -/
structure MonoidEff (σ S : Type) where
  e : S
  op : S → S → σ → Res (S × σ)

namespace Segtree

/-- `/repo/src/data_structure/segtree.rs:155-157`, `update`. -/
def updateE (M : MonoidEff σ S) (t : Segtree S) (k : Nat) (w : σ) : Res (Segtree S × σ) := do
  let x ← idx t.d (2 * k)
  let y ← idx t.d (2 * k + 1)
  let (z, w) ← M.op x y w
  let d ← upd t.d k z
  ok ({ t with d := d }, w)

/-- `/repo/src/data_structure/segtree.rs:17-28`, `From<Vec<M::S>>::from`. -/
def fromE (M : MonoidEff σ S) (v : List S) (w : σ) : Res (Segtree S × σ) := do
  let n := v.length
  let log ← ceilLg (n % 2 ^ 32)
  let size := 1 <<< log
  let d := List.replicate (2 * size) M.e
  let d ← writeSlice d size v
  let ret : Segtree S := { n := n, size := size, log := log, d := d }
  forRangeRev 1 size ((ret, w) : Segtree S × σ) fun i (ret, w) => ret.updateE M i w

/-- `/repo/src/data_structure/segtree.rs:32-39`, `set`. -/
def setE (M : MonoidEff σ S) (t : Segtree S) (p : Nat) (x : S) (w : σ) : Res (Segtree S × σ) := do
  assert (p < t.n)
  let p := p + t.size
  let d ← upd t.d p x
  forRange 1 (t.log + 1) (({ t with d := d }, w) : Segtree S × σ) fun i (t, w) => t.updateE M (p >>> i) w

/-- `/repo/src/data_structure/segtree.rs:48-69`, `prod`. -/
def prodE (M : MonoidEff σ S) (t : Segtree S) (l r : Nat) (w : σ) : Res (S × σ) := do
  assert (l ≤ r ∧ r ≤ t.n)
  let (_, _, sml, smr, w) ← whileLoop (r + t.size + 1)
    ((l + t.size, r + t.size, M.e, M.e, w) : Nat × Nat × S × S × σ)
    (fun (l, r, _, _, _) => ok (decide (l < r)))
    (fun (l, r, sml, smr, w) => do
      let (l, sml, w) ← (if l &&& 1 ≠ 0 then do
          let x ← idx t.d l
          let (sml, w) ← M.op sml x w
          ok (l + 1, sml, w)
        else ok (l, sml, w) : Res (Nat × S × σ))
      let (r, smr, w) ← (if r &&& 1 ≠ 0 then do
          let x ← idx t.d (r - 1)
          let (smr, w) ← M.op x smr w
          ok (r - 1, smr, w)
        else ok (r, smr, w) : Res (Nat × S × σ))
      ok (l >>> 1, r >>> 1, sml, smr, w))
  M.op sml smr w

/-- `/repo/src/data_structure/segtree.rs:78-114`, `max_right`; the predicate has effects too. -/
def maxRightE (M : MonoidEff σ S) (t : Segtree S) (l : Nat) (g : S → σ → Res (Bool × σ)) (w : σ) :
    Res (Nat × σ) := do
  assert (l ≤ t.n)
  let (b, w) ← g M.e w
  assert (b = true)
  if l = t.n then ok (t.n, w)
  else
    loop (2 * t.size + 1) ((l + t.size, M.e, w) : Nat × S × σ) fun (l, sm, w) => do
      let l ← whileLoop (l + 1) l (fun l => ok (decide (l % 2 = 0))) (fun l => ok (l >>> 1))
      let x ← idx t.d l
      let (y, w) ← M.op sm x w
      let (b, w) ← g y w
      if !b then do
        let (l, _, w) ← whileLoop (t.size + 1) ((l, sm, w) : Nat × S × σ)
          (fun (l, _, _) => ok (decide (l < t.size)))
          (fun (l, sm, w) => do
            let l := l * 2
            let x ← idx t.d l
            let (res, w) ← M.op sm x w
            let (b, w) ← g res w
            if b then ok (l + 1, res, w) else ok (l, sm, w))
        let r ← subU l t.size
        ok (Ctl.done (r, w))
      else do
        let x ← idx t.d l
        let (sm, w) ← M.op sm x w
        let l := l + 1
        if l &&& wnegU 64 l ≠ l then ok (Ctl.next (l, sm, w)) else ok (Ctl.done (t.n, w))

/-- `/repo/src/data_structure/segtree.rs:117-153`, `min_left`; the predicate has effects too. -/
def minLeftE (M : MonoidEff σ S) (t : Segtree S) (r : Nat) (g : S → σ → Res (Bool × σ)) (w : σ) :
    Res (Nat × σ) := do
  assert (r ≤ t.n)
  let (b, w) ← g M.e w
  assert (b = true)
  if r = 0 then ok (0, w)
  else
    loop (2 * t.size + 1) ((r + t.size, M.e, w) : Nat × S × σ) fun (r, sm, w) => do
      let r ← subU r 1
      let r ← whileLoop (r + 1) r (fun r => ok (decide (r > 1 ∧ r % 2 = 1))) (fun r => ok (r >>> 1))
      let x ← idx t.d r
      let (y, w) ← M.op x sm w
      let (b, w) ← g y w
      if !b then do
        let (r, _, w) ← whileLoop (t.size + 1) ((r, sm, w) : Nat × S × σ)
          (fun (r, _, _) => ok (decide (r < t.size)))
          (fun (r, sm, w) => do
            let r := 2 * r + 1
            let x ← idx t.d r
            let (res, w) ← M.op x sm w
            let (b, w) ← g res w
            if b then do
              let r ← subU r 1
              ok (r, res, w)
            else ok (r, sm, w))
        let l ← subU (r + 1) t.size
        ok (Ctl.done (l, w))
      else do
        let x ← idx t.d r
        let (sm, w) ← M.op x sm w
        if r &&& wnegU 64 r ≠ r then ok (Ctl.next (r, sm, w)) else ok (Ctl.done (0, w))

end Segtree

/-- `/repo/src/traits/monoid.rs:7-23`, `trait MapMonoid`, with effects. -/
structure MapEff (σ S F : Type) where
  e : S
  op : S → S → σ → Res (S × σ)
  idMap : F
  mapping : F → S → σ → Res (S × σ)
  comp : F → F → σ → Res (F × σ)

namespace LazySegtree

/-- `/repo/src/data_structure/lazy_segtree.rs:265-267`, `update`. -/
def updateE (M : MapEff σ S F) (t : LazySegtree S F) (k : Nat) (w : σ) : Res (LazySegtree S F × σ) := do
  let x ← idx t.d (2 * k)
  let y ← idx t.d (2 * k + 1)
  let (s, w) ← M.op x y w
  let d ← upd t.d k s
  ok ({ t with d := d }, w)

/-- `/repo/src/data_structure/lazy_segtree.rs:268-273`, `all_apply`. -/
def allApplyE (M : MapEff σ S F) (t : LazySegtree S F) (k : Nat) (f : F) (w : σ) :
    Res (LazySegtree S F × σ) := do
  let x ← idx t.d k
  let (y, w) ← M.mapping f x w
  let d ← upd t.d k y
  let t := { t with d := d }
  if k < t.size then do
    let z ← idx t.lz k
    let (c, w) ← M.comp f z w
    let lz ← upd t.lz k c
    ok ({ t with lz := lz }, w)
  else ok (t, w)

/-- `/repo/src/data_structure/lazy_segtree.rs:274-278`, `push`. -/
def pushE (M : MapEff σ S F) (t : LazySegtree S F) (k : Nat) (w : σ) : Res (LazySegtree S F × σ) := do
  let z ← idx t.lz k
  let (t, w) ← t.allApplyE M (2 * k) z w
  let z ← idx t.lz k
  let (t, w) ← t.allApplyE M (2 * k + 1) z w
  let lz ← upd t.lz k M.idMap
  ok ({ t with lz := lz }, w)

/-- `/repo/src/data_structure/lazy_segtree.rs:18-36`, `From<Vec<S>>::from`. -/
def fromE (M : MapEff σ S F) (v : List S) (w : σ) : Res (LazySegtree S F × σ) := do
  let n := v.length
  let log ← ceilLg (n % 2 ^ 32)
  let size := 1 <<< log
  let d := List.replicate (2 * size) M.e
  let lz := List.replicate size M.idMap
  let d ← writeSlice d size v
  let ret : LazySegtree S F := { n := n, size := size, log := log, d := d, lz := lz }
  forRangeRev 1 size ((ret, w) : LazySegtree S F × σ) fun i (ret, w) => ret.updateE M i w

/-- The loop `for i in (1..=self.log).rev() { self.push(p >> i); }`
(`/repo/src/data_structure/lazy_segtree.rs:44-46`, `56-58`, `109-111`, `178-180`, `218-220`). -/
def pushPathE (M : MapEff σ S F) (t : LazySegtree S F) (p : Nat) (w : σ) : Res (LazySegtree S F × σ) :=
  forRangeRev 1 (t.log + 1) ((t, w) : LazySegtree S F × σ) fun i (t, w) => t.pushE M (p >>> i) w

/-- The loop `for i in 1..=self.log { self.update(p >> i); }`
(`/repo/src/data_structure/lazy_segtree.rs:48-50`, `113-115`). -/
def updatePathE (M : MapEff σ S F) (t : LazySegtree S F) (p : Nat) (w : σ) : Res (LazySegtree S F × σ) :=
  forRange 1 (t.log + 1) ((t, w) : LazySegtree S F × σ) fun i (t, w) => t.updateE M (p >>> i) w

/-- `/repo/src/data_structure/lazy_segtree.rs:41-51`, `set`. -/
def setE (M : MapEff σ S F) (t : LazySegtree S F) (p : Nat) (x : S) (w : σ) : Res (LazySegtree S F × σ) := do
  assert (p < t.n)
  let p := p + t.size
  let (t, w) ← t.pushPathE M p w
  let d ← upd t.d p x
  updatePathE M { t with d := d } p w

/-- `/repo/src/data_structure/lazy_segtree.rs:54-61`, `get`. -/
def getE (M : MapEff σ S F) (t : LazySegtree S F) (p : Nat) (w : σ) : Res ((LazySegtree S F × S) × σ) := do
  assert (p < t.n)
  let p := p + t.size
  let (t, w) ← t.pushPathE M p w
  let x ← idx t.d p
  ok ((t, x), w)

/-- `/repo/src/data_structure/lazy_segtree.rs:64-98`, `prod`. -/
def prodE (M : MapEff σ S F) (t : LazySegtree S F) (l r : Nat) (w : σ) : Res ((LazySegtree S F × S) × σ) := do
  assert (l ≤ r ∧ r ≤ t.n)
  if l = r then ok ((t, M.e), w)
  else do
    let l := l + t.size
    let r := r + t.size
    let (t, w) ← forRangeRev 1 (t.log + 1) ((t, w) : LazySegtree S F × σ) fun i (t, w) => do
      let (t, w) ← (if (l >>> i) <<< i ≠ l then t.pushE M (l >>> i) w else ok (t, w) : Res (LazySegtree S F × σ))
      (if (r >>> i) <<< i ≠ r then t.pushE M (r >>> i) w else ok (t, w) : Res (LazySegtree S F × σ))
    let (_, _, sml, smr, w) ← whileLoop (r + 1) ((l, r, M.e, M.e, w) : Nat × Nat × S × S × σ)
      (fun (l, r, _, _, _) => ok (decide (l < r)))
      (fun (l, r, sml, smr, w) => do
        let (l, sml, w) ← (if l &&& 1 ≠ 0 then do
            let x ← idx t.d l
            let (sml, w) ← M.op sml x w
            ok (l + 1, sml, w)
          else ok (l, sml, w) : Res (Nat × S × σ))
        let (r, smr, w) ← (if r &&& 1 ≠ 0 then do
            let x ← idx t.d (r - 1)
            let (smr, w) ← M.op x smr w
            ok (r - 1, smr, w)
          else ok (r, smr, w) : Res (Nat × S × σ))
        ok (l >>> 1, r >>> 1, sml, smr, w))
    let (s, w) ← M.op sml smr w
    ok ((t, s), w)

/-- `/repo/src/data_structure/lazy_segtree.rs:106-116`, `apply`. -/
def applyE (M : MapEff σ S F) (t : LazySegtree S F) (p : Nat) (f : F) (w : σ) : Res (LazySegtree S F × σ) := do
  assert (p < t.n)
  let p := p + t.size
  let (t, w) ← t.pushPathE M p w
  let x ← idx t.d p
  let (y, w) ← M.mapping f x w
  let d ← upd t.d p y
  updatePathE M { t with d := d } p w

/-- `/repo/src/data_structure/lazy_segtree.rs:119-164`, `apply_range`. -/
def applyRangeE (M : MapEff σ S F) (t : LazySegtree S F) (l r : Nat) (f : F) (w : σ) :
    Res (LazySegtree S F × σ) := do
  assert (l ≤ r ∧ r ≤ t.n)
  if l = r then ok (t, w)
  else do
    let l := l + t.size
    let r := r + t.size
    let (t, w) ← forRangeRev 1 (t.log + 1) ((t, w) : LazySegtree S F × σ) fun i (t, w) => do
      let (t, w) ← (if (l >>> i) <<< i ≠ l then t.pushE M (l >>> i) w else ok (t, w) : Res (LazySegtree S F × σ))
      (if (r >>> i) <<< i ≠ r then t.pushE M ((r - 1) >>> i) w else ok (t, w) : Res (LazySegtree S F × σ))
    let (_, _, t, w) ← whileLoop (r + 1) ((l, r, t, w) : Nat × Nat × LazySegtree S F × σ)
      (fun (l, r, _, _) => ok (decide (l < r)))
      (fun (l, r, t, w) => do
        let (l, t, w) ← (if l &&& 1 ≠ 0 then do
            let (t, w) ← t.allApplyE M l f w
            ok (l + 1, t, w)
          else ok (l, t, w) : Res (Nat × LazySegtree S F × σ))
        let (r, t, w) ← (if r &&& 1 ≠ 0 then do
            let (t, w) ← t.allApplyE M (r - 1) f w
            ok (r - 1, t, w)
          else ok (r, t, w) : Res (Nat × LazySegtree S F × σ))
        ok (l >>> 1, r >>> 1, t, w))
    forRange 1 (t.log + 1) ((t, w) : LazySegtree S F × σ) fun i (t, w) => do
      let (t, w) ← (if (l >>> i) <<< i ≠ l then t.updateE M (l >>> i) w else ok (t, w) : Res (LazySegtree S F × σ))
      (if (r >>> i) <<< i ≠ r then t.updateE M ((r - 1) >>> i) w else ok (t, w) : Res (LazySegtree S F × σ))

/-- `/repo/src/data_structure/lazy_segtree.rs:168-205`, `max_right`; the predicate has effects too. -/
def maxRightE (M : MapEff σ S F) (t : LazySegtree S F) (l : Nat) (g : S → σ → Res (Bool × σ)) (w : σ) :
    Res ((LazySegtree S F × Nat) × σ) := do
  assert (l ≤ t.n)
  let (b, w) ← g M.e w
  assert (b = true)
  if l = t.n then ok ((t, t.n), w)
  else do
    let l := l + t.size
    let (t, w) ← t.pushPathE M l w
    loop (2 * t.size + 1) ((l, M.e, w) : Nat × S × σ) fun (l, sm, w) => do
      let l ← whileLoop (l + 1) l (fun l => ok (decide (l % 2 = 0))) (fun l => ok (l >>> 1))
      let x ← idx t.d l
      let (y, w) ← M.op sm x w
      let (b, w) ← g y w
      if !b then do
        let (l, _, t, w) ← whileLoop (t.size + 1) ((l, sm, t, w) : Nat × S × LazySegtree S F × σ)
          (fun (l, _, t, _) => ok (decide (l < t.size)))
          (fun (l, sm, t, w) => do
            let (t, w) ← t.pushE M l w
            let l := l * 2
            let x ← idx t.d l
            let (res, w) ← M.op sm x w
            let (b, w) ← g res w
            if b then ok (l + 1, res, t, w) else ok (l, sm, t, w))
        let r ← subU l t.size
        ok (Ctl.done ((t, r), w))
      else do
        let x ← idx t.d l
        let (sm, w) ← M.op sm x w
        let l := l + 1
        if l &&& wnegU 64 l = l then ok (Ctl.done ((t, t.n), w)) else ok (Ctl.next (l, sm, w))

/-- `/repo/src/data_structure/lazy_segtree.rs:208-245`, `min_left`; the predicate has effects too. -/
def minLeftE (M : MapEff σ S F) (t : LazySegtree S F) (r : Nat) (g : S → σ → Res (Bool × σ)) (w : σ) :
    Res ((LazySegtree S F × Nat) × σ) := do
  assert (r ≤ t.n)
  let (b, w) ← g M.e w
  assert (b = true)
  if r = 0 then ok ((t, 0), w)
  else do
    let r := r + t.size
    let (t, w) ← t.pushPathE M (r - 1) w
    loop (2 * t.size + 1) ((r, M.e, w) : Nat × S × σ) fun (r, sm, w) => do
      let r ← subU r 1
      let r ← whileLoop (r + 1) r (fun r => ok (decide (r > 1 ∧ r % 2 ≠ 0))) (fun r => ok (r >>> 1))
      let x ← idx t.d r
      let (y, w) ← M.op x sm w
      let (b, w) ← g y w
      if !b then do
        let (r, _, t, w) ← whileLoop (t.size + 1) ((r, sm, t, w) : Nat × S × LazySegtree S F × σ)
          (fun (r, _, t, _) => ok (decide (r < t.size)))
          (fun (r, sm, t, w) => do
            let (t, w) ← t.pushE M r w
            let r := 2 * r + 1
            let x ← idx t.d r
            let (res, w) ← M.op x sm w
            let (b, w) ← g res w
            if b then do
              let r ← subU r 1
              ok (r, res, t, w)
            else ok (r, sm, t, w))
        let l ← subU (r + 1) t.size
        ok (Ctl.done ((t, l), w))
      else do
        let x ← idx t.d r
        let (sm, w) ← M.op x sm w
        if r &&& wnegU 64 r = r then ok (Ctl.done ((t, 0), w)) else ok (Ctl.next (r, sm, w))

end LazySegtree

namespace HLD

/-- `/repo/src/graph/heavy_light_decomp.rs:83-95`, `apply_path`. -/
def applyPathE (M : MapEff σ S F) (h : HLD S F) (u v : Nat) (f : F) (w : σ) : Res (HLD S F × σ) := do
  let (data, u, v, w) ← whileLoop (2 * h.arr.head.length + 1)
    ((h.data, u, v, w) : LazySegtree S F × Nat × Nat × σ)
    (fun (_, u, v, _) => do
      let hu ← idx h.arr.head u
      let hv ← idx h.arr.head v
      ok (decide (hu ≠ hv)))
    (fun (data, u, v, w) => do
      let hu ← idx h.arr.head u
      let du ← idx h.arr.dep hu
      let hv ← idx h.arr.head v
      let dv ← idx h.arr.dep hv
      let (u, v) := if du < dv then (v, u) else (u, v)
      let hu ← idx h.arr.head u
      let l ← idx h.arr.pos hu
      let r ← idx h.arr.pos u
      let (data, w) ← data.applyRangeE M l (r + 1) f w
      let u ← idx h.arr.parent hu
      ok (data, u, v, w))
  let pu ← idx h.arr.pos u
  let pv ← idx h.arr.pos v
  let (u, v) := if pu > pv then (v, u) else (u, v)
  let l ← idx h.arr.pos u
  let r ← idx h.arr.pos v
  let (data, w) ← data.applyRangeE M l (r + 1) f w
  ok ({ h with data := data }, w)

/-- `/repo/src/graph/heavy_light_decomp.rs:97-111`, `path_prod`. -/
def pathProdE (M : MapEff σ S F) (h : HLD S F) (u v : Nat) (w : σ) : Res ((HLD S F × S) × σ) := do
  let (data, res, u, v, w) ← whileLoop (2 * h.arr.head.length + 1)
    ((h.data, M.e, u, v, w) : LazySegtree S F × S × Nat × Nat × σ)
    (fun (_, _, u, v, _) => do
      let hu ← idx h.arr.head u
      let hv ← idx h.arr.head v
      ok (decide (hu ≠ hv)))
    (fun (data, res, u, v, w) => do
      let hu ← idx h.arr.head u
      let du ← idx h.arr.dep hu
      let hv ← idx h.arr.head v
      let dv ← idx h.arr.dep hv
      let (u, v) := if du < dv then (v, u) else (u, v)
      let hu ← idx h.arr.head u
      let l ← idx h.arr.pos hu
      let r ← idx h.arr.pos u
      let ((data, x), w) ← data.prodE M l (r + 1) w
      let (res, w) ← M.op res x w
      let u ← idx h.arr.parent hu
      ok (data, res, u, v, w))
  let pu ← idx h.arr.pos u
  let pv ← idx h.arr.pos v
  let (u, v) := if pu > pv then (v, u) else (u, v)
  let l ← idx h.arr.pos u
  let r ← idx h.arr.pos v
  let ((data, x), w) ← data.prodE M l (r + 1) w
  let (res, w) ← M.op res x w
  ok (({ h with data := data }, res), w)

/-- `/repo/src/graph/heavy_light_decomp.rs:113-115`, `apply_subtree`. -/
def applySubtreeE (M : MapEff σ S F) (h : HLD S F) (u : Nat) (f : F) (w : σ) : Res (HLD S F × σ) := do
  let l ← idx h.arr.pos u
  let r ← idx h.arr.posR u
  let (data, w) ← h.data.applyRangeE M l r f w
  ok ({ h with data := data }, w)

/-- `/repo/src/graph/heavy_light_decomp.rs:117-119`, `subtree_prod`. -/
def subtreeProdE (M : MapEff σ S F) (h : HLD S F) (u : Nat) (w : σ) : Res ((HLD S F × S) × σ) := do
  let l ← idx h.arr.pos u
  let r ← idx h.arr.posR u
  let ((data, x), w) ← h.data.prodE M l r w
  ok (({ h with data := data }, x), w)

/-- `/repo/src/graph/heavy_light_decomp.rs:122-124`, `get`. -/
def getE (M : MapEff σ S F) (h : HLD S F) (u : Nat) (w : σ) : Res ((HLD S F × S) × σ) := do
  let p ← idx h.arr.pos u
  let ((data, x), w) ← h.data.getE M p w
  ok (({ h with data := data }, x), w)

/-- `/repo/src/graph/heavy_light_decomp.rs:127-129`, `set`. -/
def setE (M : MapEff σ S F) (h : HLD S F) (u : Nat) (x : S) (w : σ) : Res (HLD S F × σ) := do
  let p ← idx h.arr.pos u
  let (data, w) ← h.data.setE M p x w
  ok ({ h with data := data }, w)

/-- `/repo/src/graph/heavy_light_decomp.rs:19-36`, `new`. -/
def newE (M : MapEff σ S F) (g : List (List Nat)) (root : Nat) (w : σ) : Res (HLD S F × σ) := do
  let n := g.length
  assert (root < n)
  let (data, w) ← LazySegtree.fromE M (List.replicate n M.e) w
  let t : HArr :=
    { parent := List.replicate n 0
      dep := List.replicate n 0
      heavyChild := List.replicate n none
      head := List.replicate n 0
      pos := List.replicate n 0
      posR := List.replicate n 0 }
  let parent ← upd t.parent root root
  let t : HArr := { t with parent := parent }
  let (t, _) ← HArr.dfs1 (n + 1) g root t
  let (t, _) ← HArr.dfs2 (n + 1) g root root t 0
  ok ({ data := data, arr := t }, w)

/-- `/repo/src/graph/heavy_light_decomp.rs:38-47`, `with_init_value`. -/
def withInitValueE (M : MapEff σ S F) (g : List (List Nat)) (root : Nat) (v : List S) (w : σ) :
    Res (HLD S F × σ) := do
  assert (g.length = v.length)
  let (res, w) ← HLD.newE M g root w
  let a ← forRange 0 v.length v fun i a => do
    let x ← idx v i
    let p ← idx res.arr.pos i
    upd a p x
  let (data, w) ← LazySegtree.fromE M a w
  ok ({ res with data := data }, w)

end HLD
end Verif.Model
