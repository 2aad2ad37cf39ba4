import Verif.Model.Bipartite
/-! `solve` on all bipartite graphs with three vertices on each side, against a search of all matchings; then `solve`
again after more edges. -/
namespace Verif.Tests.Bipartite
open Res Model

/-- The largest matching: use the first edge or not. -/
def best : List (Nat × Nat) → Nat
  | [] => 0
  | (u, v) :: E => max (best E) (1 + best' u v E)
where
  /-- The largest matching avoiding `u` and `v`; small graphs only. -/
  best' (u v : Nat) : List (Nat × Nat) → Nat
    | [] => 0
    | (a, b) :: E => if a = u ∨ b = v then best' u v E else max (best' u v E) (1 + go [u, a] [v, b] E)
  /-- The largest matching avoiding some vertices. -/
  go (us vs : List Nat) : List (Nat × Nat) → Nat
    | [] => 0
    | (a, b) :: E => if a ∈ us ∨ b ∈ vs then go us vs E else max (go us vs E) (1 + go (a :: us) (b :: vs) E)

/-- Add the edges `E`, `solve`, add `F`, `solve`, `solve`: the three answers. -/
def run (n m : Nat) (E F : List (Nat × Nat)) : Res (List Nat) := do
  let t ← forList E (AugmentedPath.new n m) fun e t => t.addEdge e.1 e.2
  let (t, a) ← t.solve
  let t ← forList F t fun e t => t.addEdge e.1 e.2
  let (t, b) ← t.solve
  let (_, c) ← t.solve
  ok [a, b, c]

/-- The edges given by the bits of `k`. -/
def edges3 (k : Nat) : List (Nat × Nat) :=
  (List.range 9).filterMap fun i => if k.testBit i then some (i / 3, i % 3) else none

example : (List.range 512).all (fun k =>
    let E := edges3 k
    let F := edges3 (k * 37 % 512)
    decide (run 3 3 E F = ok [best E, best (E ++ F), best (E ++ F)])) = true := by decide +kernel

/-- Unequal sides; long augmenting paths. -/
example : run 2 4 [(0, 3), (1, 3)] [(1, 2)] = ok [1, 2, 2] ∧ run 4 2 [(0, 0), (1, 0), (2, 0)] [(3, 1), (2, 1)] = ok [1, 2, 2] ∧
    run 5 5 [(0, 0), (0, 1), (1, 1), (1, 2), (2, 2), (2, 3), (3, 3), (3, 4)] [(4, 0)] = ok [4, 5, 5] ∧
    run 5 5 [(4, 4), (4, 3), (3, 3), (3, 2), (2, 2), (2, 1), (1, 1), (1, 0)] [(0, 4)] = ok [4, 5, 5] ∧
    run 0 0 [] [] = ok [0, 0, 0] ∧ run 3 0 [] [] = ok [0, 0, 0] ∧ run 1 1 [(1, 0)] [] = panic := by decide +kernel

end Verif.Tests.Bipartite
