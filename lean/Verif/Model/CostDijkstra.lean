import Verif.Model.Dijkstra
/-! A copy of `dijkstra` that also returns what it does (see `Model/Cost.lean`). `Proof/CostDijkstra.lean` proves that
forgetting this gives the function itself. -/
namespace Verif.Model
open Res

/-- What a call of `dijkstra` does. -/
structure DijWork where
  /-- The vertices whose edges are looked at, with the distance used, latest first. -/
  expanded : List (Nat × Nat)
  /-- Edges looked at. -/
  looks : Nat
  pushes : Nat
  /-- Pops that return an element. -/
  pops : Nat
  /-- The largest number of elements in the heap before a pop. -/
  peak : Nat
  deriving DecidableEq, Repr

/-- `/repo/src/graph/shortest_path.rs:2-19`, `dijkstra`, with its work. -/
def dijkstraCost (B : BinaryHeap (Nat ×ₗ Nat)ᵒᵈ) (g : List (List (Nat × Nat))) (s : Nat) :
    Res (List (Option Nat) × DijWork) := do
  let dis : List (Option Nat) := List.replicate g.length none
  let q : MinHeap B := MinHeap.new
  let q := q.push (toLex (0, s))
  let dis ← upd dis s (some 0)
  loop ((g.map List.length).sum + 2) ((dis, q), (⟨[], 0, 1, 0, 0⟩ : DijWork)) fun ((dis, q), w) =>
    let w := { w with peak := max w.peak q.len }
    match q.pop with
    | (none, _) => ok (Ctl.done (dis, w))
    | (some x, q) => do
      let w := { w with pops := w.pops + 1 }
      let (d, u) := ofLex x
      let du ← idx dis u
      if some d ≠ du then ok (Ctl.next ((dis, q), w)) else
        let gu ← idx g u
        let w := { w with expanded := (u, d) :: w.expanded }
        let st ← forList gu ((dis, q), w) fun (v, c) ((dis, q), w) => do
          let w := { w with looks := w.looks + 1 }
          let dv ← idx dis v
          let better ← (if dv.isNone then ok true else do
            let x ← unwrap dv
            let dc ← addU 64 d c
            ok (decide (x > dc)) : Res Bool)
          if better then do
            let dc ← addU 64 d c
            let dis ← upd dis v (some dc)
            let dc ← addU 64 d c
            ok ((dis, q.push (toLex (dc, v))), { w with pushes := w.pushes + 1 })
          else ok ((dis, q), w)
        ok (Ctl.next st)

end Verif.Model
