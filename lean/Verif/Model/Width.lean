import Verif.Model.BinaryLifting
import Verif.Model.Dijkstra
import Verif.Model.Fenwick
import Verif.Model.SparseTable
/-! The functions of `/repo` whose text depends on the size of `usize` and does arithmetic with it, on a target where
`usize` has `w` bits (`w = 32` or `w = 64`). The other modules are the case `w = 64`: `Proof/Width.lean` proves the two
equal there. Debug profile. -/
namespace Verif.Width
open Model Res

/-- `1 << c` on `usize`, checked. -/
def shl1 (w c : Nat) : Res Nat := if c < w then ok (1 <<< c) else .panic

/-- `/repo/src/misc/util.rs:1-3`, `lg(i: usize) -> u32`: the constant is 64 on every target. -/
def lg (w i : Nat) : Res Nat := do
  let a ← subU 64 1
  subU a (leadingZeros w i)

namespace SparseTable
variable {T : Type}

/-- `/repo/src/data_structure/sparse_table.rs:18-31`, `from`. -/
def «from» (w : Nat) (v : List T) (init : T) (op : T → T → Res T) : Res (SparseTable T) := do
  let n := v.length
  let k ← lg w n
  let count := k + 1
  let data := List.replicate count (List.replicate n init)
  let data ← upd data 0 v
  let data ← forRange 1 count data fun c data => do
    let sh ← shl1 w c
    let bound ← subU n sh
    forRange 0 (bound + 1) data fun i data => do
      let row ← idx data (c - 1)
      let x ← idx row i
      let sh ← shl1 w (c - 1)
      let y ← idx row (i + sh)
      let z ← op x y
      let cur ← idx data c
      let cur ← upd cur i z
      upd data c cur
  ok { data := data }

/-- The same in a release build: overflowing subtractions wrap around and a shift uses its amount modulo `w`. -/
def fromRelease (w : Nat) (v : List T) (init : T) (op : T → T → Res T) : Res (SparseTable T) := do
  let n := v.length
  let k ← lg w n
  let count := k + 1
  let data := List.replicate count (List.replicate n init)
  let data ← upd data 0 v
  let data ← forRange 1 count data fun c data => do
    let bound := wsubU w n (1 <<< (c % w))
    forRange 0 (bound + 1) data fun i data => do
      let row ← idx data (c - 1)
      let x ← idx row i
      let y ← idx row (waddU w i (1 <<< ((c - 1) % w)))
      let z ← op x y
      let cur ← idx data c
      let cur ← upd cur i z
      upd data c cur
  ok { data := data }

end SparseTable

namespace BinaryLifting

/-- `/repo/src/graph/binary_lifting.rs:27-43`, `dfs`: returns `self` and `*timer`. Fuel bounds the
recursion depth. -/
def dfs (w : Nat) : Nat → List (List Nat) → Nat → Nat → BinaryLifting → Nat → Res (BinaryLifting × Nat)
  | 0, _, _, _, _, _ => .diverge
  | fuel + 1, g, u, p, t, timer => do
    let tin ← upd t.tin u timer
    let timer ← addU w timer 1
    let row ← idx t.pa u
    let row ← upd row 0 p
    let pa ← upd t.pa u row
    let pa ← forRange 1 t.level pa fun i pa => do
      let j ← subU i 1
      let row ← idx pa u
      let a ← idx row j
      let ra ← idx pa a
      let x ← idx ra j
      let row ← upd row i x
      upd pa u row
    let t : BinaryLifting := { t with tin := tin, pa := pa }
    let gu ← idx g u
    let (t, timer) ← forList gu ((t, timer) : BinaryLifting × Nat) fun v (t, timer) =>
      if v ≠ p then do
        let du ← idx t.dep u
        let d ← addU w du 1
        let dep ← upd t.dep v d
        dfs w fuel g v u { t with dep := dep } timer
      else ok (t, timer)
    let tout ← upd t.tout u timer
    ok ({ t with tout := tout }, timer)

/-- `/repo/src/graph/binary_lifting.rs:12-25`, `from`. -/
def «from» (w : Nat) (g : List (List Nat)) (root : Nat) : Res BinaryLifting := do
  let n := g.length
  let level ← lg w n
  let level ← addU w level 1
  let t : BinaryLifting :=
    { level := level
      pa := List.replicate n (List.replicate level 0)
      dep := List.replicate n 0
      tin := List.replicate n 0
      tout := List.replicate n 0 }
  let (t, _) ← dfs w (n + (g.map List.length).sum + 2) g root root t 0
  ok t

/-- `/repo/src/graph/binary_lifting.rs:65-68`, `dis`. -/
def dis (w : Nat) (t : BinaryLifting) (u v : Nat) : Res Nat := do
  let l ← t.lca u v
  let du ← idx t.dep u
  let dl ← idx t.dep l
  let x ← subU du dl
  let dv ← idx t.dep v
  let x ← addU w x dv
  subU x dl

end BinaryLifting

namespace Fenwick
variable {T : Type}

/-- `/repo/src/data_structure/fenwick_tree.rs:24-36`, `from`. -/
def «from» (w : Nat) (add : T → T → Res T) (zero : T) (a : List T) : Res (Fenwick T) := do
  let n := a.length
  let obj := Fenwick.new zero n
  let ary ← forRange 1 (n + 1) obj.ary fun i ary => do
    let x ← idx ary (i - 1)
    let y ← idx a (i - 1)
    let s ← add x y
    let ary ← upd ary (i - 1) s
    let j ← addU w i (i &&& wnegU w i)
    if j ≤ n then do
      let tmp ← idx ary (i - 1)
      let z ← idx ary (j - 1)
      let s ← add z tmp
      upd ary (j - 1) s
    else ok ary
  ok { obj with ary := ary }

/-- `/repo/src/data_structure/fenwick_tree.rs:49-59`, `add` (`add` is the `AddAssign<U>` of `T`). -/
def addAt {U : Type} (w : Nat) (add : T → U → Res T) (t : Fenwick T) (i : Nat) (val : U) : Res (Fenwick T) := do
  let n := t.n
  let i ← addU w i 1
  let (_, ary) ← whileLoop (n + 1) ((i, t.ary) : Nat × List T)
    (fun (i, _) => ok (decide (i ≤ n)))
    (fun (i, ary) => do
      let x ← idx ary (i - 1)
      let s ← add x val
      let ary ← upd ary (i - 1) s
      let i ← addU w i (i &&& wnegU w i)
      ok (i, ary))
  ok { t with ary := ary }

/-- `/repo/src/data_structure/fenwick_tree.rs:97-111`, `partition_point`; `usize::BITS` is `w`. -/
def partitionPoint (w : Nat) (add : T → T → Res T) (zero : T) (t : Fenwick T) (pred : T → Bool) :
    Res Nat := do
  let a ← subU w 1
  let hi ← subU a (leadingZeros w t.n)
  let (pos, _) ← forRangeRev 0 (hi + 1) ((0, zero) : Nat × T) fun i (pos, sum) => do
    let sh ← shl1 w i
    let next ← addU w pos sh
    let b ← (if next ≤ t.n then do
      let x ← idx t.ary (next - 1)
      let s ← add sum x
      ok (pred s)
    else ok false)
    if b then do
      let x ← idx t.ary (next - 1)
      let sum ← add sum x
      ok (next, sum)
    else ok (pos, sum)
  ok pos

end Fenwick

/-- `/repo/src/graph/shortest_path.rs:2-19`, `dijkstra`. Distances are `usize`. -/
def dijkstra (w : Nat) (B : BinaryHeap (Nat ×ₗ Nat)ᵒᵈ) (g : List (List (Nat × Nat))) (s : Nat) :
    Res (List (Option Nat)) := do
  let dis : List (Option Nat) := List.replicate g.length none
  let q : MinHeap B := MinHeap.new
  let q := q.push (toLex (0, s))
  let dis ← upd dis s (some 0)
  loop ((g.map List.length).sum + 2) (dis, q) fun (dis, q) =>
    match q.pop with
    | (none, _) => ok (Ctl.done dis)
    | (some x, q) => do
      let (d, u) := ofLex x
      let du ← idx dis u
      if some d ≠ du then ok (Ctl.next (dis, q)) else
        let gu ← idx g u
        let st ← forList gu (dis, q) fun (v, c) (dis, q) => do
          let dv ← idx dis v
          let better ← (if dv.isNone then ok true else do
            let x ← unwrap dv
            let dc ← addU w d c
            ok (decide (x > dc)) : Res Bool)
          if better then do
            let dc ← addU w d c
            let dis ← upd dis v (some dc)
            let dc ← addU w d c
            ok (dis, q.push (toLex (dc, v)))
          else ok (dis, q)
        ok (Ctl.next st)

end Verif.Width
