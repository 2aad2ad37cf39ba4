import Verif.Model.Util
/-! Model of `/repo/src/graph/binary_lifting.rs`. -/
namespace Verif.Model
open Res

/-- `/repo/src/graph/binary_lifting.rs:3-9`. -/
structure BinaryLifting where
  level : Nat
  pa : List (List Nat)
  dep : List Nat
  tin : List Nat
  tout : List Nat
deriving DecidableEq

namespace BinaryLifting

/-- `/repo/src/graph/binary_lifting.rs:27-43`, `dfs`: returns `self` and `*timer`. Fuel bounds the
recursion depth. -/
def dfs : Nat → List (List Nat) → Nat → Nat → BinaryLifting → Nat → Res (BinaryLifting × Nat)
  | 0, _, _, _, _, _ => .diverge
  | fuel + 1, g, u, p, t, timer => do
    let tin ← upd t.tin u timer
    let timer ← addU 64 timer 1
    let row ← idx t.pa u
    let row ← upd row 0 p
    let pa ← upd t.pa u row
    let pa ← forRange 1 t.level pa fun i pa => do
      let j ← subU i 1
      let row ← idx pa u
      let a ← idx row j
      let ra ← idx pa a
      let x ← idx ra j
      let row ← upd row i x
      upd pa u row
    let t : BinaryLifting := { t with tin := tin, pa := pa }
    let gu ← idx g u
    let (t, timer) ← forList gu ((t, timer) : BinaryLifting × Nat) fun v (t, timer) =>
      if v ≠ p then do
        let du ← idx t.dep u
        let d ← addU 64 du 1
        let dep ← upd t.dep v d
        dfs fuel g v u { t with dep := dep } timer
      else ok (t, timer)
    let tout ← upd t.tout u timer
    ok ({ t with tout := tout }, timer)

/-- `/repo/src/graph/binary_lifting.rs:12-25`, `from`. The bound on the recursion depth is such that a call that
exceeds it never returns (`C79_recursion`). -/
def «from» (g : List (List Nat)) (root : Nat) : Res BinaryLifting := do
  let n := g.length
  let level ← lg n
  let level ← addU 64 level 1
  let t : BinaryLifting :=
    { level := level
      pa := List.replicate n (List.replicate level 0)
      dep := List.replicate n 0
      tin := List.replicate n 0
      tout := List.replicate n 0 }
  let (t, _) ← dfs (n + (g.map List.length).sum + 2) g root root t 0
  ok t

/-- `/repo/src/graph/binary_lifting.rs:46-48`, `is_ancestor`. -/
def isAncestor (t : BinaryLifting) (u v : Nat) : Res Bool := do
  let a ← idx t.tin v
  let b ← idx t.tin u
  if a ≥ b then do
    let a ← idx t.tin v
    let c ← idx t.tout u
    ok (decide (a < c))
  else ok false

/-- `/repo/src/graph/binary_lifting.rs:50-63`, `lca`. -/
def lca (t : BinaryLifting) (u v : Nat) : Res Nat := do
  let b ← t.isAncestor u v
  if b then ok u else
  let b ← t.isAncestor v u
  if b then ok v else
  let u ← forRangeRev 0 t.level u fun i u => do
    let row ← idx t.pa u
    let a ← idx row i
    let b ← t.isAncestor a v
    if !b then do
      let row ← idx t.pa u
      idx row i
    else ok u
  let row ← idx t.pa u
  idx row 0

/-- `/repo/src/graph/binary_lifting.rs:65-68`, `dis`. -/
def dis (t : BinaryLifting) (u v : Nat) : Res Nat := do
  let l ← t.lca u v
  let du ← idx t.dep u
  let dl ← idx t.dep l
  let x ← subU du dl
  let dv ← idx t.dep v
  let x ← addU 64 x dv
  subU x dl

end BinaryLifting
end Verif.Model
