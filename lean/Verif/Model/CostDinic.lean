import Verif.Model.Dinic
/-! Copies of the functions of `Dinic` that also return how much work they do (see `Model/Cost.lean`). `Proof/CostDinic.lean`
proves that forgetting the counts gives the functions themselves. -/
namespace Verif.Model
open Res
namespace Dinic

/-- `/repo/src/graph/max_flow.rs:28-46`, `bfs`, with the number of arcs looked at. -/
def bfsCost (d : Dinic) (s t : Nat) : Res ((Dinic × Bool) × Nat) := do
  let h := List.replicate d.h.length (-1)
  let h ← upd h s 0
  let ((h, b), c) ← loop (d.n + 2) ((h, [s], 0) : List Int × List Nat × Nat) fun (h, q, c) =>
    match q with
    | [] => ok (.done ((h, false), c))
    | u :: q => do
      let gu ← idx d.g u
      let c ← forBrk gu ((h, q, c) : List Int × List Nat × Nat) fun i (h, q, k) => do
        let e ← idx d.e i
        let v := e.to
        let c ← (if 0 < e.cap then do
            let hv ← idx h v
            ok (decide (hv = -1))
          else ok false : Res Bool)
        if c then do
          let hu ← idx h u
          let hv ← ckI 32 (hu + 1)
          let h ← upd h v hv
          if v = t then ok (.done (h, k + 1))
          else ok (.next (h, q ++ [v], k + 1))
        else ok (.next (h, q, k + 1))
      match c with
      | .done (h, c) => ok (.done ((h, true), c))
      | .next s => ok (.next s)
  ok (({ d with h := h }, b), c)

/-- `/repo/src/graph/max_flow.rs:48-70`, `dfs`, with the number of rounds of its loop, recursive calls included: those
that end with `i += 1`, and those that end with `break`. -/
def dfsCost (ty : IntTy) : Nat → Dinic → Nat → Nat → Int → Res ((Dinic × Int) × Nat × Nat)
  | 0, _, _, _, _ => .diverge
  | fuel + 1, d, u, t, f =>
    if u = t then ok ((d, f), 0, 0) else do
    let i ← idx d.cur u
    let gu0 ← idx d.g u
    let ((d, r), na, nb) ← loop (gu0.length + 1) ((d, f, i, 0, 0) : Dinic × Int × Nat × Nat × Nat)
      fun (d, r, i, na, nb) => do
      let gu ← idx d.g u
      if i < gu.length then do
        let j ← idx gu i
        let e ← idx d.e j
        let v := e.to
        let c := e.cap
        let go ← (if 0 < c then do
            let hv ← idx d.h v
            let hu ← idx d.h u
            let hu1 ← ckI 32 (hu + 1)
            ok (decide (hv = hu1))
          else ok false : Res Bool)
        let ((d, r, brk), na, nb) ← (if go then do
            let ((d, a), ka, kb) ← dfsCost ty fuel d v t (min r c)
            let ej ← idx d.e j
            let c1 ← ty.ck (ej.cap - a)
            let es ← upd d.e j { ej with cap := c1 }
            let ej' ← idx es (j ^^^ 1)
            let c2 ← ty.ck (ej'.cap + a)
            let es ← upd es (j ^^^ 1) { ej' with cap := c2 }
            let r ← ty.ck (r - a)
            ok (({ d with e := es }, r, decide (r = 0)), na + ka, nb + kb)
          else ok ((d, r, false), na, nb) : Res ((Dinic × Int × Bool) × Nat × Nat))
        if brk then ok (.done ((d, r), na, nb + 1)) else do
        let i := i + 1
        let cur ← upd d.cur u i
        ok (.next ({ d with cur := cur }, r, i, na + 1, nb))
      else ok (.done ((d, r), na, nb))
    let a ← ty.ck (f - r)
    ok ((d, a), na, nb)

/-- Work done by `get_max_flow`. -/
structure FlowWork where
  /-- Searches that found a way, each followed by one call of `dfs`. -/
  phases : Nat
  /-- Arcs looked at by all calls of `bfs`. -/
  bfsArcs : Nat
  /-- Rounds of the loops of all calls of `dfs`. -/
  dfsRounds : Nat
deriving DecidableEq

/-- `/repo/src/graph/max_flow.rs:79-88`, `get_max_flow`, with the work done. -/
def getMaxFlowCost (ty : IntTy) (d : Dinic) (s t : Nat) : Res ((Dinic × Int) × FlowWork) := do
  assert (s < d.n)
  assert (t < d.n)
  loop ((d.e.map fun e => e.cap.toNat).sum + 2) ((d, 0, ⟨0, 0, 0⟩) : Dinic × Int × FlowWork) fun (d, ans, w) => do
    let ((d, b), k) ← d.bfsCost s t
    if b then do
      let d := { d with cur := List.replicate d.cur.length 0 }
      let ((d, a), ka, kb) ← dfsCost ty (d.n + 1) d s t ty.mx
      let ans ← ty.ck (ans + a)
      ok (.next (d, ans, ⟨w.phases + 1, w.bfsArcs + k, w.dfsRounds + (ka + kb)⟩))
    else ok (.done ((d, ans), ⟨w.phases, w.bfsArcs + k, w.dfsRounds⟩))

end Dinic
end Verif.Model
