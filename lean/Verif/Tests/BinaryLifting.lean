import Verif.Model.BinaryLifting
/-! Binary lifting on small trees with every root, all pairs of vertices, against definitions from the path to the
root. -/
namespace Verif.Tests.BinaryLifting
open Res Model

/-- Parents in the tree `g` rooted at `r`, by rounds of spreading from the root. -/
def parents (g : List (List Nat)) (r : Nat) : List (Option Nat) :=
  (List.range g.length).foldl (fun ps _ => g.zipIdx.foldl (fun ps (es, u) => es.foldl (fun ps v =>
    if (ps.getD u none).isSome ∧ (ps.getD v none).isNone then ps.set v (some u) else ps) ps) ps)
    ((List.replicate g.length none).set r (some r))

/-- The vertices from `v` up to the root. -/
def chain (ps : List (Option Nat)) : Nat → Nat → List Nat
  | 0, v => [v]
  | k + 1, v => match ps.getD v none with
    | some p => if p = v then [v] else v :: chain ps k p
    | none => [v]

/-- `u` is an ancestor of `v` if it is on the path from `v` to the root; the lowest common ancestor is the first
vertex on the path from `u` that is also on the path from `v`. -/
def check (g : List (List Nat)) : Bool :=
  (List.range g.length).all fun r =>
    let ps := parents g r
    let ch := fun v => chain ps g.length v
    (do
      let t ← BinaryLifting.from g r
      ok ((List.range g.length).all fun u => (List.range g.length).all fun v =>
        let l := ((ch u).find? fun a => decide (a ∈ ch v)).getD 0
        (t.isAncestor u v = ok (decide (u ∈ ch v))) && (t.lca u v = ok l) &&
        (t.dis u v = ok ((ch u).length + (ch v).length - 2 * (ch l).length)))) = ok true

example : check [[]] = true := by decide +kernel
example : check [[1], [0, 2], [1, 3], [2, 4], [3]] = true := by decide +kernel
example : check [[1, 2, 3], [0, 4, 5], [0], [0, 6], [1], [1], [3]] = true := by decide +kernel
/-- A path of nine vertices: jumps of length `1`, `2`, `4`, `8`. -/
example : check [[1], [0, 2], [1, 3], [2, 4], [3, 5], [4, 6], [5, 7], [6, 8], [7]] = true := by decide +kernel

end Verif.Tests.BinaryLifting
