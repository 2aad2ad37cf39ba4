import Verif.Model.Bipartite
import Verif.Model.Tarjan
/-! Copies of the functions of `AugmentedPath` and `scc` that also return how much work they do (see `Model/Cost.lean`).
`Proof/CostGraph.lean` proves that forgetting the counts gives the functions themselves. -/
namespace Verif.Model
open Res

/-- Work done by `solve`. -/
structure MatchWork where
  /-- Rounds of the outer loop. -/
  phases : Nat
  /-- Calls of `dfs`, recursive ones included. -/
  calls : Nat
  /-- Edges looked at in the first loop of `dfs`. -/
  looks : Nat
deriving DecidableEq

namespace AugmentedPath

/-- `/repo/src/graph/bipartite_matching.rs:23-44`, `dfs`, with the work done. -/
def dfsCost : Nat → Nat → List (List Nat) → BState × MatchWork → Res ((BState × Bool) × MatchWork)
  | 0, _, _, _ => .diverge
  | fuel + 1, u, g, (s, w) => do
    let w : MatchWork := { w with calls := w.calls + 1 }
    let b ← idx s.vis u
    if b then ok ((s, false), w) else do
    let vis ← upd s.vis u true
    let s : BState := { s with vis := vis }
    let gu ← idx g u
    let c ← forBrk gu w fun v (w : MatchWork) => do
      let w : MatchWork := { w with looks := w.looks + 1 }
      let rv ← idx s.r v
      if rv.isNone then do
        let l ← upd s.l u (some v)
        let r ← upd s.r v (some u)
        ok (.done (({ s with l := l, r := r }, w) : BState × MatchWork))
      else ok (.next w)
    match c with
    | .done (s, w) => ok ((s, true), w)
    | .next w => do
      let c ← forBrk gu (s, w) fun v (s, w) => do
        let rv ← idx s.r v
        let x ← unwrap rv
        let ((s, b), w) ← dfsCost fuel x g (s, w)
        if b then do
          let l ← upd s.l u (some v)
          let r ← upd s.r v (some u)
          ok (.done (({ s with l := l, r := r }, w) : BState × MatchWork))
        else ok (.next (s, w))
      match c with
      | .done (s, w) => ok ((s, true), w)
      | .next (s, w) => ok ((s, false), w)

/-- `/repo/src/graph/bipartite_matching.rs:48-54`, one round of `solve`, with the work done. -/
def phaseCost (n : Nat) (g : List (List Nat)) (s : BState) (w : MatchWork) : Res ((BState × Bool) × MatchWork) := do
  let s : BState := { s with vis := List.replicate s.vis.length false }
  let w : MatchWork := { w with phases := w.phases + 1 }
  forRange 0 n (((s, false), w) : (BState × Bool) × MatchWork) fun i ((s, found), w) => do
    let li ← idx s.l i
    if li.isNone then do
      let ((s, b), w) ← dfsCost (n + 1) i g (s, w)
      ok ((s, found || b), w)
    else ok ((s, found), w)

/-- `/repo/src/graph/bipartite_matching.rs:46-66`, `solve`, with the work done. -/
def solveCost (t : AugmentedPath) : Res ((AugmentedPath × Nat) × MatchWork) := do
  let n := t.l.length
  let (s, w) ← loop (n + 1) ((({ vis := t.vis, l := t.l, r := t.r } : BState), (⟨0, 0, 0⟩ : MatchWork)))
    fun (s, w) => do
      let ((s, found), w) ← phaseCost n t.g s w
      if !found then ok (.done (s, w)) else ok (.next (s, w))
  let ret ← forRange 0 n 0 fun i ret => do
    let li ← idx s.l i
    if li.isSome then ok (ret + 1) else ok ret
  ok (({ t with vis := s.vis, l := s.l, r := s.r }, ret), w)

end AugmentedPath

/-- Work done by `scc`. -/
structure SccWork where
  /-- Calls of `dfs`, recursive ones included. -/
  calls : Nat
  /-- Edges looked at. -/
  looks : Nat
  /-- Vertices taken off the stack. -/
  pops : Nat
deriving DecidableEq

namespace SCC

/-- `/repo/src/graph/tarjan.rs:37-44`, the loop at the end of `dfs`, with the work done. -/
def popLoopCost (s : SCC) (w : SccWork) (u : Nat) : Res (SCC × SccWork) :=
  loop (s.stack.length + 1) (s, w) fun (s, w) => do
    let w : SccWork := { w with pops := w.pops + 1 }
    let v ← unwrap s.stack.getLast?
    let s := { s with stack := s.stack.dropLast }
    let on ← upd s.on_stack v false
    let s := { s with on_stack := on }
    let last ← unwrap s.component.getLast?
    let s := { s with component := s.component.dropLast ++ [last ++ [v]] }
    if u = v then ok (.done (s, w)) else ok (.next (s, w))

/-- `/repo/src/graph/tarjan.rs:21-46`, `dfs`, with the work done. -/
def dfsCost : Nat → Nat → List (List Nat) → SCC × SccWork → Res (SCC × SccWork)
  | 0, _, _, _ => .diverge
  | fuel + 1, u, g, (s, w) => do
    let w : SccWork := { w with calls := w.calls + 1 }
    let order ← upd s.order u s.pos
    let low ← upd s.low u s.pos
    let pos ← ckI 32 (s.pos + 1)
    let on ← upd s.on_stack u true
    let s : SCC := { s with order := order, low := low, pos := pos, stack := s.stack ++ [u],
                            on_stack := on }
    let gu ← idx g u
    let (s, w) ← forList gu (s, w) fun v (s, w) => do
      let w : SccWork := { w with looks := w.looks + 1 }
      let ov ← idx s.order v
      let (s, w) ← (if ov = -1 then dfsCost fuel v g (s, w) else ok (s, w) : Res (SCC × SccWork))
      let b ← idx s.on_stack v
      if b then do
        let lu ← idx s.low u
        let lv ← idx s.low v
        let low ← upd s.low u (min lu lv)
        ok ({ s with low := low }, w)
      else ok (s, w)
    let lu ← idx s.low u
    let ou ← idx s.order u
    if lu = ou then popLoopCost { s with component := s.component ++ [[]] } w u
    else ok (s, w)

end SCC

/-- `/repo/src/graph/tarjan.rs:49-68`, `scc`, with the work done. -/
def sccCost (g : List (List Nat)) : Res ((Nat × List Nat) × SccWork) := do
  let n := g.length
  let (s, w) ← forRange 0 n (SCC.new n, (⟨0, 0, 0⟩ : SccWork)) fun i (s, w) => do
    let o ← idx s.order i
    if o = -1 then SCC.dfsCost (n + 1) i g (s, w) else ok (s, w)
  let color := List.replicate n 0
  let cnt := s.component.length
  let color ← forList s.component.zipIdx color fun (v, i) color =>
    forList v color fun x color => upd color x i
  ok ((cnt, color), w)

end Verif.Model
