import Verif.Model.Tarjan
/-! `scc` on all directed graphs with three vertices and on some larger ones, against reachability. -/
namespace Verif.Tests.Tarjan
open Res Model

/-- Without repetitions. -/
def nub (l : List Nat) : List Nat := l.foldl (fun acc x => if x ∈ acc then acc else acc ++ [x]) []

/-- The vertices reached from `u`: as many rounds of following edges as there are vertices. -/
def reach (g : List (List Nat)) (u : Nat) : List Nat :=
  (List.range g.length).foldl (fun r _ => nub (r ++ r.flatMap fun a => g.getD a [])) [u]

/-- Same colour iff mutually reachable; colours do not increase along paths; the colours are `0`, …, `cnt - 1`. -/
def good (g : List (List Nat)) : Res (Nat × List Nat) → Bool
  | ok (cnt, col) =>
    let n := g.length
    let rs := (List.range n).map (reach g)
    let r := fun u v => decide (v ∈ rs.getD u [])
    col.length = n && (List.range n).all (fun u => (List.range n).all fun v =>
      (decide (col.getD u 0 = col.getD v 0) == (r u v && r v u)) &&
      (!r u v || decide (col.getD v 0 ≤ col.getD u 0))) &&
    col.all (fun c => decide (c < cnt)) && (List.range cnt).all fun c => decide (c ∈ col)
  | _ => false

/-- The graph on three vertices whose edges are the bits of `k`. -/
def graph3 (k : Nat) : List (List Nat) :=
  (List.range 3).map fun u => (List.range 3).filter fun v => k.testBit (3 * u + v)

example : (List.range 512).all (fun k => good (graph3 k) (scc (graph3 k))) = true := by decide +kernel

example : good [[1], [2, 3], [0, 2], [4], [3], [4, 5, 0]] (scc [[1], [2, 3], [0, 2], [4], [3], [4, 5, 0]]) = true ∧
    good [[3], [0], [1, 4], [2], [5], [4], [0, 7], [6, 5]] (scc [[3], [0], [1, 4], [2], [5], [4], [0, 7], [6, 5]]) = true ∧
    good [[1, 2], [3], [3, 1], [4], [2, 5], []] (scc [[1, 2], [3], [3, 1], [4], [2, 5], []]) = true ∧
    scc [] = ok (0, []) ∧ scc [[1]] = panic := by decide +kernel

end Verif.Tests.Tarjan
