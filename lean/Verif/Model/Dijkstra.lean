import Mathlib.Data.Prod.Lex
import Verif.Prelude.Int
import Verif.Model.MinHeap
/-! Model of `/repo/src/graph/shortest_path.rs`. -/
namespace Verif.Model
open Res

/-- `/repo/src/graph/shortest_path.rs:2-19`, `dijkstra`. `usize` is 64 bits. The heap is any
implementation of the `BinaryHeap` contract; the tuple order is lexicographic. `unwrap_unchecked`
is only reached on `Some` (short-circuit `||`), so it is `unwrap`. Each heap pop is one unit of
fuel: the theorem shows that the number of edges plus two suffices. -/
def dijkstra (B : BinaryHeap (Nat ×ₗ Nat)ᵒᵈ) (g : List (List (Nat × Nat))) (s : Nat) :
    Res (List (Option Nat)) := do
  let dis : List (Option Nat) := List.replicate g.length none
  let q : MinHeap B := MinHeap.new
  let q := q.push (toLex (0, s))
  let dis ← upd dis s (some 0)
  loop ((g.map List.length).sum + 2) (dis, q) fun (dis, q) =>
    match q.pop with
    | (none, _) => ok (Ctl.done dis)
    | (some x, q) => do
      let (d, u) := ofLex x
      let du ← idx dis u
      if some d ≠ du then ok (Ctl.next (dis, q)) else
        let gu ← idx g u
        let st ← forList gu (dis, q) fun (v, c) (dis, q) => do
          let dv ← idx dis v
          let better ← (if dv.isNone then ok true else do
            let x ← unwrap dv
            let dc ← addU 64 d c
            ok (decide (x > dc)) : Res Bool)
          if better then do
            let dc ← addU 64 d c
            let dis ← upd dis v (some dc)
            let dc ← addU 64 d c
            ok (dis, q.push (toLex (dc, v)))
          else ok (dis, q)
        ok (Ctl.next st)

end Verif.Model
