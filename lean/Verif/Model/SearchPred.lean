import Verif.Model.Segtree
import Verif.Model.LazySegtree
import Verif.Model.Fenwick
/-! The searches of `/repo/src/data_structure/segtree.rs`, `/repo/src/data_structure/lazy_segtree.rs` and
`/repo/src/data_structure/fenwick_tree.rs` with a closure that has a state and may panic: `f s x` is a call with
argument `x` in state `s` and gives the answer and the new state (`FnMut`, or `Fn` with a `Cell`). The searches
return the last state along with their result. -/
namespace Verif.Model
open Res

variable {S F σ T : Type}

namespace Segtree

/-- `/repo/src/data_structure/segtree.rs:78-114`, `max_right`. -/
def maxRightS (M : MonoidOps S) (t : Segtree S) (l : Nat) (f : σ → S → Res (Bool × σ)) (s : σ) :
    Res (Nat × σ) := do
  assert (l ≤ t.n)
  let (b, s) ← f s M.e
  assert (b = true)
  if l = t.n then ok (t.n, s)
  else
    loop (2 * t.size + 1) ((l + t.size, M.e, s) : Nat × S × σ) fun (l, sm, s) => do
      let l ← whileLoop (l + 1) l (fun l => ok (decide (l % 2 = 0))) (fun l => ok (l >>> 1))
      let x ← idx t.d l
      let y ← M.op sm x
      let (b, s) ← f s y
      if !b then do
        let (l, _, s) ← whileLoop (t.size + 1) ((l, sm, s) : Nat × S × σ)
          (fun (l, _, _) => ok (decide (l < t.size)))
          (fun (l, sm, s) => do
            let l := l * 2
            let x ← idx t.d l
            let res ← M.op sm x
            let (b, s) ← f s res
            if b then ok (l + 1, res, s) else ok (l, sm, s))
        let r ← subU l t.size
        ok (Ctl.done (r, s))
      else do
        let x ← idx t.d l
        let sm ← M.op sm x
        let l := l + 1
        if l &&& wnegU 64 l ≠ l then ok (Ctl.next (l, sm, s)) else ok (Ctl.done (t.n, s))

/-- `/repo/src/data_structure/segtree.rs:117-153`, `min_left`. -/
def minLeftS (M : MonoidOps S) (t : Segtree S) (r : Nat) (f : σ → S → Res (Bool × σ)) (s : σ) :
    Res (Nat × σ) := do
  assert (r ≤ t.n)
  let (b, s) ← f s M.e
  assert (b = true)
  if r = 0 then ok (0, s)
  else
    loop (2 * t.size + 1) ((r + t.size, M.e, s) : Nat × S × σ) fun (r, sm, s) => do
      let r ← subU r 1
      let r ← whileLoop (r + 1) r (fun r => ok (decide (r > 1 ∧ r % 2 = 1))) (fun r => ok (r >>> 1))
      let x ← idx t.d r
      let y ← M.op x sm
      let (b, s) ← f s y
      if !b then do
        let (r, _, s) ← whileLoop (t.size + 1) ((r, sm, s) : Nat × S × σ)
          (fun (r, _, _) => ok (decide (r < t.size)))
          (fun (r, sm, s) => do
            let r := 2 * r + 1
            let x ← idx t.d r
            let res ← M.op x sm
            let (b, s) ← f s res
            if b then do
              let r ← subU r 1
              ok (r, res, s)
            else ok (r, sm, s))
        let l ← subU (r + 1) t.size
        ok (Ctl.done (l, s))
      else do
        let x ← idx t.d r
        let sm ← M.op x sm
        if r &&& wnegU 64 r ≠ r then ok (Ctl.next (r, sm, s)) else ok (Ctl.done (0, s))

end Segtree

namespace LazySegtree

/-- `/repo/src/data_structure/lazy_segtree.rs:168-205`, `max_right`. -/
def maxRightS (M : MapMonoidOps S F) (t : LazySegtree S F) (l : Nat) (g : σ → S → Res (Bool × σ)) (s : σ) :
    Res ((LazySegtree S F × Nat) × σ) := do
  assert (l ≤ t.n)
  let (b, s) ← g s M.e
  assert (b = true)
  if l = t.n then ok ((t, t.n), s)
  else do
    let l := l + t.size
    let t ← t.pushPath M l
    loop (2 * t.size + 1) ((l, M.e, s) : Nat × S × σ) fun (l, sm, s) => do
      let l ← whileLoop (l + 1) l (fun l => ok (decide (l % 2 = 0))) (fun l => ok (l >>> 1))
      let x ← idx t.d l
      let y ← M.op sm x
      let (b, s) ← g s y
      if !b then do
        let (l, _, t, s) ← whileLoop (t.size + 1) ((l, sm, t, s) : Nat × S × LazySegtree S F × σ)
          (fun (l, _, t, _) => ok (decide (l < t.size)))
          (fun (l, sm, t, s) => do
            let t ← t.push M l
            let l := l * 2
            let x ← idx t.d l
            let res ← M.op sm x
            let (b, s) ← g s res
            if b then ok (l + 1, res, t, s) else ok (l, sm, t, s))
        let r ← subU l t.size
        ok (Ctl.done ((t, r), s))
      else do
        let x ← idx t.d l
        let sm ← M.op sm x
        let l := l + 1
        if l &&& wnegU 64 l = l then ok (Ctl.done ((t, t.n), s)) else ok (Ctl.next (l, sm, s))

/-- `/repo/src/data_structure/lazy_segtree.rs:208-245`, `min_left`. -/
def minLeftS (M : MapMonoidOps S F) (t : LazySegtree S F) (r : Nat) (g : σ → S → Res (Bool × σ)) (s : σ) :
    Res ((LazySegtree S F × Nat) × σ) := do
  assert (r ≤ t.n)
  let (b, s) ← g s M.e
  assert (b = true)
  if r = 0 then ok ((t, 0), s)
  else do
    let r := r + t.size
    let t ← t.pushPath M (r - 1)
    loop (2 * t.size + 1) ((r, M.e, s) : Nat × S × σ) fun (r, sm, s) => do
      let r ← subU r 1
      let r ← whileLoop (r + 1) r (fun r => ok (decide (r > 1 ∧ r % 2 ≠ 0))) (fun r => ok (r >>> 1))
      let x ← idx t.d r
      let y ← M.op x sm
      let (b, s) ← g s y
      if !b then do
        let (r, _, t, s) ← whileLoop (t.size + 1) ((r, sm, t, s) : Nat × S × LazySegtree S F × σ)
          (fun (r, _, t, _) => ok (decide (r < t.size)))
          (fun (r, sm, t, s) => do
            let t ← t.push M r
            let r := 2 * r + 1
            let x ← idx t.d r
            let res ← M.op x sm
            let (b, s) ← g s res
            if b then do
              let r ← subU r 1
              ok (r, res, t, s)
            else ok (r, sm, t, s))
        let l ← subU (r + 1) t.size
        ok (Ctl.done ((t, l), s))
      else do
        let x ← idx t.d r
        let sm ← M.op x sm
        if r &&& wnegU 64 r = r then ok (Ctl.done ((t, 0), s)) else ok (Ctl.next (r, sm, s))

end LazySegtree

namespace Fenwick

/-- `/repo/src/data_structure/fenwick_tree.rs:97-111`, `partition_point`; `&&` calls `pred` only when
`next <= n`. -/
def partitionPointS (add : T → T → Res T) (zero : T) (t : Fenwick T) (pred : σ → T → Res (Bool × σ)) (s : σ) :
    Res (Nat × σ) := do
  let hi ← subU (usizeBits - 1) (leadingZeros usizeBits t.n)
  let (pos, _, s) ← forRangeRev 0 (hi + 1) ((0, zero, s) : Nat × T × σ) fun i (pos, sum, s) => do
    let next ← addU 64 pos (1 <<< i)
    let (b, s) ← (if next ≤ t.n then do
      let x ← idx t.ary (next - 1)
      let y ← add sum x
      pred s y
    else ok (false, s))
    if b then do
      let x ← idx t.ary (next - 1)
      let sum ← add sum x
      ok (next, sum, s)
    else ok (pos, sum, s)
  ok (pos, s)

end Fenwick
end Verif.Model
