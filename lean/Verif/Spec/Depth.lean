import Verif.Model.Depth
import Verif.Spec.TreeAny
/-! Inputs on which the recursive searches nest as deep as they can. -/
namespace Verif.Spec
open Res Model

/-- `k` nested calls are enough for a run, and fewer are not. -/
def NeedsDepth (run : Nat → Res α) (k : Nat) : Prop :=
  (∀ j, k ≤ j → run j = run k ∧ run k ≠ .diverge) ∧ ∀ j, j < k → run j = .diverge

/-- The directed path `0 → 1 → … → n - 1`. -/
def pathGraph (n : Nat) : List (List Nat) := (List.range n).map fun i => if i + 1 < n then [i + 1] else []

/-- The flow network with an edge of capacity one from `i` to `i + 1` for every `i < n - 1`, as `add_edge` builds it. -/
def pathNetwork (n : Nat) : Res Dinic := forRange 0 (n - 1) (Dinic.new n) fun i d => d.addEdge i (i + 1) 1

/-- A bipartite graph with `n` vertices on the left and `n - 1` on the right, as `add_edge` builds it: left vertex
`i < n - 1` may be matched to `i` and `i + 1` (the last one only to `i`), left vertex `n - 1` only to `0`. -/
def chainGraph (n : Nat) : Res AugmentedPath := do
  let t ← forRange 0 (n - 1) (AugmentedPath.new n (n - 1)) fun i t => do
    let t ← t.addEdge i i
    if i + 1 < n - 1 then t.addEdge i (i + 1) else ok t
  t.addEdge (n - 1) 0

/-- The number of vertices on the longest path that starts at the root. -/
def LongestFrom (g : List (List Nat)) (root k : Nat) : Prop :=
  (∃ v p, IsPath g root v p ∧ p.length = k) ∧ ∀ v p, IsPath g root v p → p.length ≤ k

end Verif.Spec
