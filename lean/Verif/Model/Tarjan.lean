import Verif.Prelude.Res
import Verif.Prelude.Int
/-! Model of `/repo/src/graph/tarjan.rs`. -/
namespace Verif.Model
open Res

/-- `/repo/src/graph/tarjan.rs:1-8`, `struct SCC`. -/
structure SCC where
  pos : Int
  on_stack : List Bool
  low : List Int
  order : List Int
  stack : List Nat
  component : List (List Nat)
deriving DecidableEq

namespace SCC

/-- `/repo/src/graph/tarjan.rs:11-20`, `new`. -/
def new (n : Nat) : SCC :=
  { pos := 0
    on_stack := List.replicate n false
    low := List.replicate n 0
    order := List.replicate n (-1)
    stack := []
    component := [] }

/-- `/repo/src/graph/tarjan.rs:37-44`, the loop at the end of `dfs` that empties the stack down to `u`
into the last component (`stack.pop().unwrap()`, `component.last_mut().unwrap().push(v)`).
Fuel: every iteration removes one stack entry. -/
def popLoop (s : SCC) (u : Nat) : Res SCC :=
  loop (s.stack.length + 1) s fun s => do
    let v ← unwrap s.stack.getLast?
    let s := { s with stack := s.stack.dropLast }
    let on ← upd s.on_stack v false
    let s := { s with on_stack := on }
    let last ← unwrap s.component.getLast?
    let s := { s with component := s.component.dropLast ++ [last ++ [v]] }
    if u = v then ok (.done s) else ok (.next s)

/-- `/repo/src/graph/tarjan.rs:21-46`, `dfs`. Fuel bounds the recursion depth. -/
def dfs : Nat → Nat → List (List Nat) → SCC → Res SCC
  | 0, _, _, _ => .diverge
  | fuel + 1, u, g, s => do
    let order ← upd s.order u s.pos
    let low ← upd s.low u s.pos
    let pos ← ckI 32 (s.pos + 1)
    let on ← upd s.on_stack u true
    let s : SCC := { s with order := order, low := low, pos := pos, stack := s.stack ++ [u],
                            on_stack := on }
    let gu ← idx g u
    let s ← forList gu s fun v (s : SCC) => do
      let ov ← idx s.order v
      let s ← (if ov = -1 then dfs fuel v g s else ok s : Res SCC)
      let b ← idx s.on_stack v
      if b then do
        let lu ← idx s.low u
        let lv ← idx s.low v
        let low ← upd s.low u (min lu lv)
        ok { s with low := low }
      else ok s
    let lu ← idx s.low u
    let ou ← idx s.order u
    if lu = ou then popLoop { s with component := s.component ++ [[]] } u
    else ok s

end SCC

/-- `/repo/src/graph/tarjan.rs:49-68`, `scc`. Fuel: the recursion visits a new vertex at every
level. -/
def scc (g : List (List Nat)) : Res (Nat × List Nat) := do
  let n := g.length
  let s ← forRange 0 n (SCC.new n) fun i s => do
    let o ← idx s.order i
    if o = -1 then SCC.dfs (n + 1) i g s else ok s
  let color := List.replicate n 0
  let cnt := s.component.length
  let color ← forList s.component.zipIdx color fun (v, i) color =>
    forList v color fun x color => upd color x i
  ok (cnt, color)

end Verif.Model
