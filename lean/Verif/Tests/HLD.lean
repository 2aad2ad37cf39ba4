import Verif.Model.HLD
import Verif.Tests.BinaryLifting
/-! Heavy–light decomposition on small trees with every root: all paths and subtrees, against the path to the
root. Values are lists of numbers; sums are compared up to order. -/
namespace Verif.Tests.HLD
open Res Model BinaryLifting

/-- Sums; a map adds a number. A value is a sum and a number of summands. -/
def addSum : MapOps (Nat × Nat) Nat :=
  ⟨(0, 0), fun a b => (a.1 + b.1, a.2 + b.2), 0, fun f x => (x.1 + f * x.2, x.2), fun f g => f + g⟩

/-- The path between `u` and `v`. -/
def path (ps : List (Option Nat)) (n u v : Nat) : List Nat :=
  let cu := chain ps n u
  let cv := chain ps n v
  (cu.filter fun a => decide (a ∉ cv)) ++ (cv.filter fun a => decide (a ∉ cu)) ++
    [(cu.find? fun a => decide (a ∈ cv)).getD 0]

/-- The sum of some vertices. -/
def total (w : List Nat) (l : List Nat) : Nat × Nat := ((l.map fun a => w.getD a 0).sum, l.length)

/-- All answers. -/
def answers (ps : List (Option Nat)) (w : List Nat) (h : HLD (Nat × Nat) Nat) : Bool :=
  let n := w.length
  (List.range n).all fun u =>
    (Prod.snd <$> h.get addSum u = ok (w.getD u 0, 1)) &&
    (Prod.snd <$> h.subtreeProd addSum u =
      ok (total w ((List.range n).filter fun v => decide (u ∈ chain ps n v)))) &&
    ((List.range n).all fun v => Prod.snd <$> h.pathProd addSum u v = ok (total w (path ps n u v)))

/-- With the values `2^i`: all answers; then after each of `apply_path`, `apply_subtree`, `set` for some pairs. -/
def check (g : List (List Nat)) (pairs : List (Nat × Nat)) : Bool :=
  let n := g.length
  let w := (List.range n).map (2 ^ ·)
  let add := fun (l : List Nat) => w.mapIdx fun i x => if i ∈ l then x + 1000 else x
  (List.range n).all fun r =>
    let ps := parents g r
    (do
      let h ← HLD.withInitValue addSum g r (w.map fun x => (x, 1))
      let b := answers ps w h
      let c ← forList pairs b fun (u, v) b => do
        let h1 ← h.applyPath addSum u v 1000
        let h2 ← h.applySubtree addSum u 1000
        let h3 ← h.set addSum u (5, 1)
        ok (b && answers ps (add (path ps n u v)) h1 &&
          answers ps (add ((List.range n).filter fun v => decide (u ∈ chain ps n v))) h2 &&
          answers ps (w.set u 5) h3)
      ok c) = ok true

example : check [[]] [(0, 0)] = true := by decide +kernel
example : check [[1, 2, 3], [0, 4, 5], [0], [0, 6], [1], [1], [3]] [(4, 6)] = true := by decide +kernel
example : check [[1], [0, 2, 5], [1, 3, 4], [2], [2], [1]] [(3, 5), (0, 4)] = true := by decide +kernel

/-- A new structure holds neutral elements; bad arguments panic. -/
example : (do
    let h ← HLD.new addSum.ops [[1], [0]] 1
    ok (Prod.snd <$> h.pathProd addSum 0 1)) = ok (ok (0, 0)) ∧
    HLD.new addSum.ops [[1], [0]] 2 = Res.panic ∧ HLD.withInitValue addSum.ops [[1], [0]] 0 [(1, 1)] = Res.panic ∧
    HLD.new addSum.ops [] 0 = Res.panic := by decide +kernel

/-- Concatenation shows the order of `path_prod`: each chain from its top down, in the order of climbing. -/
def cat : MapOps (List Nat) Unit := ⟨[], (· ++ ·), (), fun _ x => x, fun _ _ => ()⟩

/-- The tree `0 - 1 - 2 - 3 - 4` with `2 - 5 - 6`, `1 - 7`. -/
def tree : List (List Nat) := [[1], [0, 2, 7], [1, 3, 5], [2, 4], [3], [2, 6], [5], [1]]

example : (do
    let h ← HLD.withInitValue cat tree 0 ((List.range 8).map fun i => [i])
    ok ([(4, 6), (6, 4), (7, 4), (6, 7), (0, 4), (4, 0)].map fun (u, v) => Prod.snd <$> h.pathProd cat.ops u v)) =
    ok [ok [5, 6, 2, 3, 4], ok [5, 6, 2, 3, 4], ok [7, 1, 2, 3, 4], ok [5, 6, 7, 1, 2], ok [0, 1, 2, 3, 4],
      ok [0, 1, 2, 3, 4]] := by decide +kernel

end Verif.Tests.HLD
