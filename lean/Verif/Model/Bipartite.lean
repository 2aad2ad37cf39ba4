import Verif.Prelude.Loop
/-! Model of `/repo/src/graph/bipartite_matching.rs`. -/
namespace Verif.Model
open Res

/-- `/repo/src/graph/bipartite_matching.rs:1-6`, `struct AugmentedPath`. -/
structure AugmentedPath where
  g : List (List Nat)
  l : List (Option Nat)
  r : List (Option Nat)
  vis : List Bool
deriving DecidableEq

/-- The three `&mut` arguments of `dfs`. -/
structure BState where
  vis : List Bool
  l : List (Option Nat)
  r : List (Option Nat)

namespace AugmentedPath

/-- `/repo/src/graph/bipartite_matching.rs:9-17`, `new`. -/
def new (n m : Nat) : AugmentedPath :=
  { g := List.replicate n []
    l := List.replicate n none
    r := List.replicate m none
    vis := List.replicate n false }

/-- `/repo/src/graph/bipartite_matching.rs:19-21`, `add_edge`. -/
def addEdge (t : AugmentedPath) (u v : Nat) : Res AugmentedPath := do
  let gu ← idx t.g u
  let g ← upd t.g u (gu ++ [v])
  ok { t with g := g }

/-- `/repo/src/graph/bipartite_matching.rs:23-44`, `dfs`. Fuel bounds the recursion depth. -/
def dfs : Nat → Nat → List (List Nat) → BState → Res (BState × Bool)
  | 0, _, _, _ => .diverge
  | fuel + 1, u, g, s => do
    let b ← idx s.vis u
    if b then ok (s, false) else do
    let vis ← upd s.vis u true
    let s : BState := { s with vis := vis }
    let gu ← idx g u
    let c ← forBrk gu () fun v () => do
      let rv ← idx s.r v
      if rv.isNone then do
        let l ← upd s.l u (some v)
        let r ← upd s.r v (some u)
        ok (.done ({ s with l := l, r := r } : BState))
      else ok (.next ())
    match c with
    | .done s => ok (s, true)
    | .next () => do
      let c ← forBrk gu s fun v (s : BState) => do
        let rv ← idx s.r v
        let w ← unwrap rv
        let (s, b) ← dfs fuel w g s
        if b then do
          let l ← upd s.l u (some v)
          let r ← upd s.r v (some u)
          ok (.done ({ s with l := l, r := r } : BState))
        else ok (.next s)
      match c with
      | .done s => ok (s, true)
      | .next s => ok (s, false)

/-- `/repo/src/graph/bipartite_matching.rs:48-54`, one round of the loop of `solve`: an attempt at every unmatched left
vertex. Fuel: the recursion marks a new vertex at every level. -/
def phase (n : Nat) (g : List (List Nat)) (s : BState) : Res (BState × Bool) := do
  let s : BState := { s with vis := List.replicate s.vis.length false }
  forRange 0 n ((s, false) : BState × Bool) fun i (s, found) => do
    let li ← idx s.l i
    if li.isNone then do
      let (s, b) ← dfs (n + 1) i g s
      ok (s, found || b)
    else ok (s, found)

/-- `/repo/src/graph/bipartite_matching.rs:46-66`, `solve`. Fuel: every round but the last raises the
number of matched vertices. -/
def solve (t : AugmentedPath) : Res (AugmentedPath × Nat) := do
  let n := t.l.length
  let s ← loop (n + 1) ({ vis := t.vis, l := t.l, r := t.r } : BState) fun s => do
    let (s, found) ← phase n t.g s
    if !found then ok (.done s) else ok (.next s)
  let ret ← forRange 0 n 0 fun i ret => do
    let li ← idx s.l i
    if li.isSome then ok (ret + 1) else ok ret
  ok ({ t with vis := s.vis, l := s.l, r := s.r }, ret)

end AugmentedPath
end Verif.Model
