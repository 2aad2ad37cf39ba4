import Verif.Prelude.Int
/-! Model of `/repo/src/data_structure/union_find.rs`. -/
namespace Verif.Model
open Res

/-- `/repo/src/data_structure/union_find.rs:1-5`, `struct UnionFind`. -/
structure UF where
  n : Nat
  fa : List Nat
  sz : List Nat
  deriving DecidableEq, Repr

namespace UF

/-- `/repo/src/data_structure/union_find.rs:8-14`, `new`. -/
def new (n : Nat) : UF := { n := n, fa := List.range n, sz := List.replicate n 1 }

/-- `/repo/src/data_structure/union_find.rs:16-23`, `find`, as a fuelled recursion
(recursive path compression). -/
def findF : Nat → UF → Nat → Res (Nat × UF)
  | 0, _, _ => .diverge
  | fuel + 1, u, i => do
    let p ← idx u.fa i
    if p = i then ok (i, u)
    else do
      let (r, u') ← findF fuel u p
      let fa ← upd u'.fa i r
      let a ← idx fa i
      ok (a, { u' with fa := fa })

/-- `/repo/src/data_structure/union_find.rs:16-23`, `find`. The fuel `n + 1` is proved
sufficient in every reachable state. -/
def find (u : UF) (i : Nat) : Res (Nat × UF) := findF (u.n + 1) u i

/-- `/repo/src/data_structure/union_find.rs:25-29`, `is_same`. -/
def isSame (u : UF) (x y : Nat) : Res (Bool × UF) := do
  assert (x < u.n)
  assert (y < u.n)
  let (a, u) ← u.find x
  let (b, u) ← u.find y
  ok (decide (a = b), u)

/-- `/repo/src/data_structure/union_find.rs:31-44`, `join`. The code swaps the local variables
`fx`, `fy` (lines 38-40) but never uses them afterwards: lines 41-42 use `x` and `y`. The swap
therefore has no effect (the reads of `sz[x]`, `sz[y]` in its condition are kept for their
bounds checks). -/
def join (u : UF) (x y : Nat) : Res (Bool × UF) := do
  assert (x < u.n)
  assert (y < u.n)
  let (fx, u) ← u.find x
  let (fy, u) ← u.find y
  if fx = fy then ok (false, u)
  else do
    let sx ← idx u.sz x
    let sy ← idx u.sz y
    let (_fx, _fy) := if sx > sy then (fy, fx) else (fx, fy)
    let fa ← upd u.fa x y
    let s ← addU 64 sy sx
    let sz ← upd u.sz y s
    ok (true, { u with fa := fa, sz := sz })

/-- `/repo/src/data_structure/union_find.rs:46-50`, `size`. -/
def size (u : UF) (x : Nat) : Res (Nat × UF) := do
  assert (x < u.n)
  let (fx, u) ← u.find x
  let s ← idx u.sz fx
  ok (s, u)

/-- `/repo/src/data_structure/union_find.rs:52-61`, `groups`. -/
def groups (u : UF) : Res (List (List Nat) × UF) := do
  let (result, u) ← forRange 0 u.n ((List.replicate u.n [], u) : List (List Nat) × UF)
    fun i (result, u) => do
      let (r, u) ← u.find i
      let g ← idx result r
      let result ← upd result r (g ++ [i])
      ok (result, u)
  ok (result.filter (fun g => !g.isEmpty), u)

/-- The public operations, as data (no counterpart in `/repo`: used to quantify over histories). -/
inductive Op where
  | find (x : Nat)
  | join (x y : Nat)
  | isSame (x y : Nat)
  | size (x : Nat)
  | groups
  deriving DecidableEq, Repr

/-- Run one operation, keeping only the new state. -/
def step (u : UF) : Op → Res UF
  | .find x => do let r ← u.find x; ok r.2
  | .join x y => do let r ← u.join x y; ok r.2
  | .isSame x y => do let r ← u.isSame x y; ok r.2
  | .size x => do let r ← u.size x; ok r.2
  | .groups => do let r ← u.groups; ok r.2

/-- Run a history of operations. -/
def run (u : UF) : List Op → Res UF
  | [] => ok u
  | o :: os => do let u ← u.step o; run u os

end UF
end Verif.Model
