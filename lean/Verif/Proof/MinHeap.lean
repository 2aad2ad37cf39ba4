import Mathlib.Data.Multiset.MapFold
import Verif.Model.MinHeap
import Verif.Spec.MinHeap
/-! The `MinHeap` calls on the ghost multiset. -/
namespace Verif.HeapP
open Model Spec OrderDual

variable {T : Type} [LE T] {B : BinaryHeap Tᵒᵈ}

/-- The ghost contents of a `MinHeap`. -/
def heapItems (h : MinHeap B) : Multiset T := (B.items h.inner).map ofDual

theorem heap_pop (h : MinHeap B) : IsMinOf (heapItems h) h.pop.1 ∧
    (match h.pop.1 with | some y => heapItems h = y ::ₘ heapItems h.pop.2 | none => heapItems h.pop.2 = 0) ∧
    heapItems h = (match h.pop.1 with | some y => y ::ₘ heapItems h.pop.2 | none => 0) := by
  by_cases e : B.items h.inner = 0
  · obtain ⟨h1, h2⟩ := B.pop_none _ e
    unfold MinHeap.pop
    rcases hp : B.pop h.inner with ⟨o, q⟩
    rw [hp] at h1 h2
    simp only at h1 h2
    subst h1
    simp [IsMinOf, heapItems, e, h2]
  · obtain ⟨x, h1, h2, h3⟩ := B.pop_some _ e
    unfold MinHeap.pop
    rcases hp : B.pop h.inner with ⟨o, q⟩
    rw [hp] at h1 h2
    simp only at h1 h2
    subst h1
    simp only [IsMinOf, heapItems, h2, Multiset.map_cons, and_true]
    refine ⟨by simp, ?_⟩
    intro y hy
    have : toDual y ∈ B.items h.inner := by
      rw [h2]
      simp only [Multiset.mem_cons, Multiset.mem_map] at hy ⊢
      rcases hy with rfl | ⟨z, hz, rfl⟩
      · left; rfl
      · right; exact hz
    exact h3 _ this

theorem heap_peek (h : MinHeap B) : h.peek = h.pop.1 := by
  unfold MinHeap.peek MinHeap.pop
  rw [B.peek_eq]
  rcases B.pop h.inner with ⟨o, q⟩
  cases o <;> rfl

theorem heap_push (h : MinHeap B) (x : T) : heapItems (h.push x) = x ::ₘ heapItems h := by
  simp [heapItems, MinHeap.push, B.items_push]

@[simp] theorem heap_new : heapItems (MinHeap.new : MinHeap B) = 0 := by
  simp [heapItems, MinHeap.new, B.items_new]

end Verif.HeapP
