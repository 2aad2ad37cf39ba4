import Verif.Model.UnionFind
/-! Runs of the union-find, by hand from `/repo/src/data_structure/union_find.rs`. -/
namespace Verif.Tests.UnionFind
open Res Model

/-- Answers after a history: `is_same` of all pairs as a matrix, `size` of all elements, `groups`. -/
def answers (n : Nat) (ops : List UF.Op) : Res (List (List Bool) × List Nat × List (List Nat)) := do
  let u ← UF.run (UF.new n) ops
  let m ← forRange 0 n ([] : List (List Bool)) fun x m => do
    let row ← forRange 0 n ([] : List Bool) fun y row => do
      let (b, _) ← u.isSame x y
      ok (row ++ [b])
    ok (m ++ [row])
  let sz ← forRange 0 n ([] : List Nat) fun x l => do
    let (k, _) ← u.size x
    ok (l ++ [k])
  let (g, _) ← u.groups
  ok (m, sz, g)

/-- Joining representatives: everything is right. -/
example : answers 5 [.join 0 1, .join 1 2, .join 3 4] =
    ok ([[true, true, true, false, false], [true, true, true, false, false], [true, true, true, false, false],
         [false, false, false, true, true], [false, false, false, true, true]], [3, 3, 3, 2, 2],
        [[0, 1, 2], [3, 4]]) := by decide +kernel

/-- Joining `0`, no longer a representative, to `2` takes it away from `1`. -/
example : answers 3 [.join 0 1, .join 0 2] =
    ok ([[true, false, true], [false, true, false], [true, false, true]], [2, 2, 2], [[1], [0, 2]]) := by
  decide +kernel

/-- The answers of some joins, then the state. -/
def joins (u : UF) : List (Nat × Nat) → Res (List Bool × UF)
  | [] => ok ([], u)
  | (x, y) :: l => do
    let (b, u) ← u.join x y
    let (bs, u) ← joins u l
    ok (b :: bs, u)

/-- Answers of `join`. -/
example : joins (UF.new 4) [(0, 1), (1, 0), (2, 2), (1, 3), (0, 3)] =
    ok ([true, false, false, true, false], ⟨4, [3, 3, 2, 3], [1, 2, 1, 3]⟩) := by decide +kernel

/-- Path compression: after `find 0` the element `0` hangs on the root. -/
example : (do
    let u ← UF.run (UF.new 4) [.join 0 1, .join 1 2, .join 2 3]
    let (r, u') ← u.find 0
    ok (u.fa, r, u'.fa)) = ok ([1, 2, 3, 3], 3, [3, 3, 3, 3]) := by decide +kernel

/-- Arguments out of range. -/
example : (UF.new 3).find 3 = panic ∧ (UF.new 3).isSame 3 0 = panic ∧ (UF.new 3).isSame 0 3 = panic ∧
    (UF.new 3).join 3 0 = panic ∧ (UF.new 3).join 0 3 = panic ∧ (UF.new 3).size 3 = panic := by decide +kernel

end Verif.Tests.UnionFind
