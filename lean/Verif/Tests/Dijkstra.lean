import Mathlib.Data.Nat.Basic
import Mathlib.Data.Prod.Lex
import Verif.Model.Dijkstra
/-! `dijkstra` on small graphs from every source, against Bellman–Ford. -/
namespace Verif.Tests.Dijkstra
open Res Model

/-- One round of relaxation of all edges. -/
def relax (g : List (List (Nat × Nat))) (d : List (Option Nat)) : List (Option Nat) :=
  g.zipIdx.foldl (fun d (es, u) => es.foldl (fun d (v, c) =>
    match d.getD u none with
    | none => d
    | some x => match d.getD v none with
      | none => d.set v (some (x + c))
      | some y => d.set v (some (min y (x + c)))) d) d

/-- Bellman–Ford. -/
def naive (g : List (List (Nat × Nat))) (s : Nat) : List (Option Nat) :=
  (List.range g.length).foldl (fun d _ => relax g d) ((List.replicate g.length none).set s (some 0))

/-- Every source. -/
def check (g : List (List (Nat × Nat))) : Bool :=
  ((List.range g.length).all fun s => dijkstra (listHeap (Nat ×ₗ Nat)ᵒᵈ) g s = ok (naive g s)) &&
    (dijkstra (listHeap (Nat ×ₗ Nat)ᵒᵈ) g g.length = panic)

example : check [[]] = true := by decide +kernel
example : check [[(1, 7), (2, 1)], [(3, 1)], [(1, 2), (3, 9)], []] = true := by decide +kernel
example : check [[(1, 0), (1, 5)], [(0, 0), (2, 3)], [(2, 1), (0, 1)], [(0, 1)]] = true := by decide +kernel
example : check [[(1, 10), (2, 3)], [(2, 1), (3, 2)], [(1, 4), (3, 8), (4, 2)], [(4, 7)], [(3, 9), (0, 1)]] = true := by
  decide +kernel
example : dijkstra (listHeap (Nat ×ₗ Nat)ᵒᵈ) [[(1, 2 ^ 63)], [(2, 2 ^ 63)], []] 0 = panic := by decide +kernel

end Verif.Tests.Dijkstra
