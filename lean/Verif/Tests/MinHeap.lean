import Mathlib.Data.Nat.Basic
import Verif.Model.MinHeap
/-! Runs of `MinHeap` on the list implementation of the `BinaryHeap` contract. -/
namespace Verif.Tests.MinHeap
open Model

/-- The heap with the given elements. -/
def heap (l : List Nat) : MinHeap (listHeap Natᵒᵈ) := l.foldl MinHeap.push MinHeap.new
/-- All elements by repeated `pop`. -/
def drain : Nat → MinHeap (listHeap Natᵒᵈ) → List (Option Nat)
  | 0, _ => []
  | k + 1, h => h.pop.1 :: drain k h.pop.2

example : drain 7 (heap [3, 1, 4, 1, 5, 0]) = [some 0, some 1, some 1, some 3, some 4, some 5, none] := by
  decide +kernel
example : (heap [3, 1, 4]).peek = some 1 ∧ (heap []).peek = none ∧ (heap [3, 1, 4]).len = 3 ∧
    (heap [3]).isEmpty = false ∧ (heap []).isEmpty = true ∧ (heap [3]).clear.isEmpty = true ∧
    (heap [3, 1, 4]).intoSortedVec = [4, 3, 1] := by decide +kernel
example : drain 5 ((heap [3, 1]).append (heap [2, 2])).1 = [some 1, some 2, some 2, some 3, none] ∧
    ((heap [3, 1]).append (heap [2, 2])).2.len = 0 ∧
    (MinHeap.withCapacity 9 : MinHeap (listHeap Natᵒᵈ)).len = 0 := by decide +kernel

end Verif.Tests.MinHeap
