import Verif.Prelude.Loop
import Verif.Prelude.IntTy
/-! Model of `/repo/src/graph/max_flow.rs`. The capacity type is a parameter `ty`; capacities are its
values, kept as integers, and every arithmetic operation on them is checked. -/
namespace Verif.Model
open Res

/-- `/repo/src/graph/max_flow.rs:5-8`, `struct Edge`. -/
structure FEdge where
  to : Nat
  cap : Int
deriving DecidableEq

/-- `/repo/src/graph/max_flow.rs:9-15`, `struct Dinic`. -/
structure Dinic where
  n : Nat
  e : List FEdge
  g : List (List Nat)
  cur : List Nat
  h : List Int
deriving DecidableEq

namespace Dinic

/-- `/repo/src/graph/max_flow.rs:18-26`, `new`. -/
def new (n : Nat) : Dinic :=
  { n := n
    e := []
    g := List.replicate n []
    cur := List.replicate n 0
    h := List.replicate n (-1) }

/-- `/repo/src/graph/max_flow.rs:28-46`, `bfs`. The queue has its front at the head of the list.
Fuel: every vertex enters the queue at most once. -/
def bfs (d : Dinic) (s t : Nat) : Res (Dinic × Bool) := do
  let h := List.replicate d.h.length (-1)
  let h ← upd h s 0
  let (h, b) ← loop (d.n + 2) ((h, [s]) : List Int × List Nat) fun (h, q) =>
    match q with
    | [] => ok (.done (h, false))
    | u :: q => do
      let gu ← idx d.g u
      let c ← forBrk gu ((h, q) : List Int × List Nat) fun i (h, q) => do
        let e ← idx d.e i
        let v := e.to
        let c ← (if 0 < e.cap then do
            let hv ← idx h v
            ok (decide (hv = -1))
          else ok false : Res Bool)
        if c then do
          let hu ← idx h u
          let hv ← ckI 32 (hu + 1)
          let h ← upd h v hv
          if v = t then ok (.done h)
          else ok (.next (h, q ++ [v]))
        else ok (.next (h, q))
      match c with
      | .done h => ok (.done (h, true))
      | .next s => ok (.next s)
  ok ({ d with h := h }, b)

/-- `/repo/src/graph/max_flow.rs:48-70`, `dfs`. Fuel bounds the recursion depth. -/
def dfs (ty : IntTy) : Nat → Dinic → Nat → Nat → Int → Res (Dinic × Int)
  | 0, _, _, _, _ => .diverge
  | fuel + 1, d, u, t, f =>
    if u = t then ok (d, f) else do
    let i ← idx d.cur u
    let gu0 ← idx d.g u
    let (d, r) ← loop (gu0.length + 1) ((d, f, i) : Dinic × Int × Nat) fun (d, r, i) => do
      let gu ← idx d.g u
      if i < gu.length then do
        let j ← idx gu i
        let e ← idx d.e j
        let v := e.to
        let c := e.cap
        let go ← (if 0 < c then do
            let hv ← idx d.h v
            let hu ← idx d.h u
            let hu1 ← ckI 32 (hu + 1)
            ok (decide (hv = hu1))
          else ok false : Res Bool)
        let (d, r, brk) ← (if go then do
            let (d, a) ← dfs ty fuel d v t (min r c)
            let ej ← idx d.e j
            let c1 ← ty.ck (ej.cap - a)
            let es ← upd d.e j { ej with cap := c1 }
            let ej' ← idx es (j ^^^ 1)
            let c2 ← ty.ck (ej'.cap + a)
            let es ← upd es (j ^^^ 1) { ej' with cap := c2 }
            let r ← ty.ck (r - a)
            ok ({ d with e := es }, r, decide (r = 0))
          else ok (d, r, false) : Res (Dinic × Int × Bool))
        if brk then ok (.done (d, r)) else do
        let i := i + 1
        let cur ← upd d.cur u i
        ok (.next ({ d with cur := cur }, r, i))
      else ok (.done (d, r))
    let a ← ty.ck (f - r)
    ok (d, a)

/-- `/repo/src/graph/max_flow.rs:72-77`, `add_edge`. -/
def addEdge (d : Dinic) (u v : Nat) (cap : Int) : Res Dinic := do
  let gu ← idx d.g u
  let g ← upd d.g u (gu ++ [d.e.length])
  let e := d.e ++ [{ to := v, cap := cap }]
  let gv ← idx g v
  let g ← upd g v (gv ++ [e.length])
  let e := e ++ [{ to := u, cap := 0 }]
  ok { d with g := g, e := e }

/-- `/repo/src/graph/max_flow.rs:79-88`, `get_max_flow`. Fuel: every phase adds at least one to the
answer, which cannot exceed the sum of all positive residual capacities. -/
def getMaxFlow (ty : IntTy) (d : Dinic) (s t : Nat) : Res (Dinic × Int) := do
  assert (s < d.n)
  assert (t < d.n)
  loop ((d.e.map fun e => e.cap.toNat).sum + 2) ((d, 0) : Dinic × Int) fun (d, ans) => do
    let (d, b) ← d.bfs s t
    if b then do
      let d := { d with cur := List.replicate d.cur.length 0 }
      let (d, a) ← dfs ty (d.n + 1) d s t ty.mx
      let ans ← ty.ck (ans + a)
      ok (.next (d, ans))
    else ok (.done (d, ans))

end Dinic
end Verif.Model
