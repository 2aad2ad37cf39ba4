import Mathlib.Data.Multiset.AddSub
import Mathlib.Data.List.Sort
import Mathlib.Order.Synonym
import Verif.Prelude.Res
/-! Model of `/repo/src/data_structure/min_heap.rs`.

`std::collections::BinaryHeap` is not part of the repository. It is modelled by an interface: any
implementation satisfying the documented contract of `BinaryHeap`. The order of the elements need not be
antisymmetric: different elements may compare equal (a Rust type whose `Ord` looks at a key only). Every theorem about `MinHeap` holds for every implementation of that interface.
`std::cmp::Reverse<T>` is the order dual `Tᵒᵈ`. -/
namespace Verif.Model

/-- The contract of `std::collections::BinaryHeap<T>` (a max-heap). `items` is the ghost multiset of
elements. -/
structure BinaryHeap (T : Type) [LE T] where
  H : Type
  new : H
  withCapacity : Nat → H
  push : H → T → H
  pop : H → Option T × H
  peek : H → Option T
  len : H → Nat
  append : H → H → H × H
  isEmpty : H → Bool
  clear : H → H
  intoSortedVec : H → List T
  items : H → Multiset T
  items_new : items new = 0
  items_withCapacity : ∀ c, items (withCapacity c) = 0
  items_push : ∀ h x, items (push h x) = x ::ₘ items h
  pop_none : ∀ h, items h = 0 → (pop h).1 = none ∧ items (pop h).2 = 0
  pop_some : ∀ h, items h ≠ 0 → ∃ x, (pop h).1 = some x ∧ items h = x ::ₘ items (pop h).2 ∧
    ∀ y ∈ items h, y ≤ x
  peek_eq : ∀ h, peek h = (pop h).1
  len_eq : ∀ h, len h = (items h).card
  append_items : ∀ h k, items (append h k).1 = items h + items k ∧ items (append h k).2 = 0
  isEmpty_iff : ∀ h, isEmpty h = true ↔ items h = 0
  items_clear : ∀ h, items (clear h) = 0
  sorted_perm : ∀ h, (intoSortedVec h : Multiset T) = items h
  sorted_le : ∀ h, (intoSortedVec h).Pairwise (· ≤ ·)

/-- `/repo/src/data_structure/min_heap.rs:4`, `struct MinHeap<T>(BinaryHeap<Reverse<T>>)`. -/
structure MinHeap {T : Type} [LE T] (B : BinaryHeap Tᵒᵈ) where
  inner : B.H

namespace MinHeap
variable {T : Type} [LE T] {B : BinaryHeap Tᵒᵈ}
open OrderDual

/-- `/repo/src/data_structure/min_heap.rs:10-12`, `new`. -/
def new : MinHeap B := ⟨B.new⟩

/-- `/repo/src/data_structure/min_heap.rs:14-16`, `with_capacity`. -/
def withCapacity (c : Nat) : MinHeap B := ⟨B.withCapacity c⟩

/-- `/repo/src/data_structure/min_heap.rs:18-20`, `push`. -/
def push (h : MinHeap B) (x : T) : MinHeap B := ⟨B.push h.inner (toDual x)⟩

/-- `/repo/src/data_structure/min_heap.rs:22-27`, `pop`. -/
def pop (h : MinHeap B) : Option T × MinHeap B :=
  match B.pop h.inner with
  | (some x, q) => (some (ofDual x), ⟨q⟩)
  | (none, q) => (none, ⟨q⟩)

/-- `/repo/src/data_structure/min_heap.rs:29-34`, `peek`. -/
def peek (h : MinHeap B) : Option T :=
  match B.peek h.inner with
  | some x => some (ofDual x)
  | none => none

/-- `/repo/src/data_structure/min_heap.rs:36-38`, `len`. -/
def len (h : MinHeap B) : Nat := B.len h.inner

/-- `/repo/src/data_structure/min_heap.rs:40-42`, `append`: returns `self` and `other`. -/
def append (h k : MinHeap B) : MinHeap B × MinHeap B :=
  let (a, b) := B.append h.inner k.inner
  (⟨a⟩, ⟨b⟩)

/-- `/repo/src/data_structure/min_heap.rs:44-46`, `is_empty`. -/
def isEmpty (h : MinHeap B) : Bool := B.isEmpty h.inner

/-- `/repo/src/data_structure/min_heap.rs:48-50`, `clear`. -/
def clear (h : MinHeap B) : MinHeap B := ⟨B.clear h.inner⟩

/-- `/repo/src/data_structure/min_heap.rs:52-54`, `into_sorted_vec`. -/
def intoSortedVec (h : MinHeap B) : List T := (B.intoSortedVec h.inner).map ofDual

end MinHeap

/-- A simple implementation of the `BinaryHeap` contract (a list kept in non-increasing order), which
shows that the contract is satisfiable and makes the examples executable. -/
def listHeap (T : Type) [Preorder T] [DecidableLE T] [Std.Total (α := T) (· ≤ ·)] : BinaryHeap T where
  H := {l : List T // l.Pairwise (· ≥ ·)}
  new := ⟨[], .nil⟩
  withCapacity _ := ⟨[], .nil⟩
  push h x := ⟨h.1.orderedInsert (· ≥ ·) x, h.2.orderedInsert x h.1⟩
  pop h := match h with
    | ⟨[], p⟩ => (none, ⟨[], p⟩)
    | ⟨x :: l, p⟩ => (some x, ⟨l, (List.pairwise_cons.1 p).2⟩)
  peek h := h.1.head?
  len h := h.1.length
  append h k := (⟨(h.1 ++ k.1).insertionSort (· ≥ ·), List.pairwise_insertionSort _ _⟩, ⟨[], .nil⟩)
  isEmpty h := h.1.isEmpty
  clear _ := ⟨[], .nil⟩
  intoSortedVec h := h.1.reverse
  items h := h.1
  items_new := rfl
  items_withCapacity _ := rfl
  items_push h x := by
    simpa using List.perm_orderedInsert (· ≥ ·) x h.1
  pop_none h e := by
    obtain ⟨l, p⟩ := h
    have : l = [] := by simpa using e
    subst this; exact ⟨rfl, rfl⟩
  pop_some h e := by
    obtain ⟨l, p⟩ := h
    cases l with
    | nil => exact absurd rfl e
    | cons x l =>
      refine ⟨x, rfl, by simp, ?_⟩
      intro y hy
      simp only [Multiset.mem_coe, List.mem_cons] at hy
      rcases hy with rfl | hy
      · exact le_refl _
      · exact (List.pairwise_cons.1 p).1 y hy
  peek_eq h := by
    obtain ⟨l, p⟩ := h
    cases l <;> rfl
  len_eq h := by simp
  append_items h k := by
    refine ⟨?_, rfl⟩
    simpa using List.perm_insertionSort (· ≥ ·) (h.1 ++ k.1)
  isEmpty_iff h := by simp
  items_clear _ := rfl
  sorted_perm h := by simp
  sorted_le h := by
    rw [List.pairwise_reverse]
    exact h.2

end Verif.Model
