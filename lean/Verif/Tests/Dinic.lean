import Verif.Model.Dinic
import Verif.Model.NumberTheory
/-! `get_max_flow` on small networks, for all pairs of source and sink, against the smallest cut. -/
namespace Verif.Tests.Dinic
open Res Model

/-- The capacity of the edges leaving the set given by the bits of `k`. -/
def cut (E : List (Nat × Nat × Int)) (k : Nat) : Int :=
  (E.map fun (u, v, c) => if k.testBit u ∧ ¬ k.testBit v then c else 0).sum

/-- The smallest cut between `s` and `t`. -/
def minCut (n : Nat) (E : List (Nat × Nat × Int)) (s t : Nat) : Int :=
  (((List.range (2 ^ n)).filter fun k => k.testBit s && !k.testBit t).map (cut E)).foldl min (2 ^ 62)

/-- Build the network. -/
def build (n : Nat) (E : List (Nat × Nat × Int)) : Res Dinic :=
  forList E (Dinic.new n) fun (u, v, c) d => d.addEdge u v c

/-- The flow, and the flow of a second call. -/
def flow2 (n : Nat) (E : List (Nat × Nat × Int)) (s t : Nat) : Res (Int × Int) := do
  let d ← build n E
  let (d, f) ← d.getMaxFlow i64 s t
  let (_, f') ← d.getMaxFlow i64 s t
  ok (f, f')

/-- All sources and sinks. -/
def check (n : Nat) (E : List (Nat × Nat × Int)) : Bool :=
  (List.range n).all fun s => (List.range n).all fun t =>
    if s = t then decide (flow2 n E s t = ok (0, 0)) else decide (flow2 n E s t = ok (minCut n E s t, 0))

/-- The textbook network. -/
example : check 6 [(0, 1, 16), (0, 2, 13), (1, 2, 10), (2, 1, 4), (1, 3, 12), (3, 2, 9), (2, 4, 14), (4, 3, 7),
    (3, 5, 20), (4, 5, 4)] = true := by decide +kernel

/-- A network on which a path has to be undone, parallel edges, an edge of capacity `0`, a loop. -/
example : check 4 [(0, 1, 1), (0, 2, 1), (1, 2, 1), (1, 3, 1), (2, 3, 1)] = true ∧
    check 5 [(0, 1, 3), (0, 1, 4), (1, 1, 5), (1, 2, 0), (1, 3, 6), (3, 2, 2), (3, 4, 3), (2, 4, 9), (4, 0, 1)] = true := by
  decide +kernel

/-- The residual network after a flow from `0` to `3` with one more edge: what is left from `0` to `3`. -/
example : (do
    let d ← build 4 [(0, 1, 5), (1, 3, 3), (0, 2, 2), (2, 3, 4)]
    let (d, f) ← d.getMaxFlow i64 0 3
    let d ← d.addEdge 1 2 1
    let (d, f') ← d.getMaxFlow i64 0 3
    let (_, f'') ← d.getMaxFlow i64 3 0
    ok (f, f', f'')) = ok (5, 1, 6) := by decide +kernel

/-- Out of range, and a flow that does not fit. -/
example : flow2 2 [] 2 0 = panic ∧ flow2 2 [] 0 2 = panic ∧ build 2 [(2, 0, 1)] = panic ∧ build 2 [(0, 2, 1)] = panic ∧
    flow2 2 [(0, 1, 2 ^ 63 - 1), (0, 1, 1)] 0 1 = panic := by decide +kernel

end Verif.Tests.Dinic
