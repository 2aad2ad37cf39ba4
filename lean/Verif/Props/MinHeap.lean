import Mathlib.Data.Nat.Basic
import Mathlib.Tactic.FinCases
import Verif.Proof.MinHeap
/-! C14: `MinHeap` is a multiset with minimum extraction, over any correct `BinaryHeap`. -/
namespace Verif.Props
open Model Spec OrderDual HeapP

variable {T : Type} [LE T] {B : BinaryHeap Tᵒᵈ}

/-- One call on a pool of model heaps. -/
def heapStep (p : Nat → MinHeap B) : HOp T → HOut T × (Nat → MinHeap B)
  | .new i => (.unit, Function.update p i MinHeap.new)
  | .withCapacity i c => (.unit, Function.update p i (MinHeap.withCapacity c))
  | .push i x => (.unit, Function.update p i ((p i).push x))
  | .pop i => (.item (p i).pop.1, Function.update p i (p i).pop.2)
  | .peek i => (.item (p i).peek, p)
  | .len i => (.num (p i).len, p)
  | .isEmpty i => (.bool (p i).isEmpty, p)
  | .append i j => (.unit, Function.update (Function.update p i ((p i).append (p j)).1) j
      ((p i).append (p j)).2)
  | .clear i => (.unit, Function.update p i (p i).clear)
  | .intoSortedVec i => (.vec (p i).intoSortedVec, Function.update p i MinHeap.new)

/-- A history of calls on a pool of model heaps: all answers and the final pool. -/
def heapRun (p : Nat → MinHeap B) : List (HOp T) → List (HOut T) × (Nat → MinHeap B)
  | [] => ([], p)
  | op :: ops =>
    let r := heapStep p op
    let r' := heapRun r.2 ops
    (r.1 :: r'.1, r'.2)

theorem comp_update {α β : Type} (f : α → β) (p : Nat → α) (i : Nat) (x : α) :
    (fun k => f (Function.update p i x k)) = Function.update (fun k => f (p k)) i (f x) := by
  funext k
  by_cases h : k = i
  · subst h; simp
  · simp [h]

theorem heapStep_ok (p : Nat → MinHeap B) (op : HOp T) (hw : op.Wf) :
    HStep (fun k => heapItems (p k)) op (heapStep p op).1
      (fun k => heapItems ((heapStep p op).2 k)) := by
  cases op with
  | new i => exact ⟨rfl, by simp [heapStep, comp_update heapItems]⟩
  | withCapacity i c =>
    refine ⟨rfl, ?_⟩
    simp only [heapStep, comp_update heapItems]
    simp [MinHeap.withCapacity, heapItems, B.items_withCapacity]
  | push i x => exact ⟨rfl, by simp [heapStep, comp_update heapItems, heap_push]⟩
  | pop i =>
    obtain ⟨h1, h2, _⟩ := heap_pop (p i)
    exact ⟨_, _, rfl, h1, by simp only [heapStep, comp_update heapItems], h2⟩
  | peek i =>
    obtain ⟨h1, h2, _⟩ := heap_pop (p i)
    exact ⟨_, rfl, by rw [heap_peek]; exact h1, rfl⟩
  | len i =>
    refine ⟨?_, rfl⟩
    simp [heapStep, MinHeap.len, B.len_eq, heapItems]
  | isEmpty i =>
    refine ⟨_, rfl, ?_, rfl⟩
    simp only [MinHeap.isEmpty, heapItems, Multiset.map_eq_zero]
    exact B.isEmpty_iff (p i).inner
  | append i j =>
    refine ⟨rfl, ?_⟩
    obtain ⟨h1, h2⟩ := B.append_items (p i).inner (p j).inner
    simp only [heapStep, comp_update heapItems]
    simp [heapItems, MinHeap.append, h1, h2]
  | clear i =>
    refine ⟨rfl, ?_⟩
    simp only [heapStep, comp_update heapItems]
    simp [MinHeap.clear, heapItems, B.items_clear]
  | intoSortedVec i =>
    refine ⟨_, rfl, ?_, ?_, ?_⟩
    · rw [MinHeap.intoSortedVec, ← Multiset.map_coe, B.sorted_perm]; rfl
    · rw [MinHeap.intoSortedVec, List.pairwise_map]
      exact (B.sorted_le (p i).inner).imp fun h => h
    · simp [heapStep, comp_update heapItems]

/-- C14: for every implementation of `BinaryHeap` and every history of calls on any number of heaps
(`append` between distinct heaps), all answers are those of the multiset semantics: `pop`/`peek`
give a least element (`None` iff empty), `append` moves everything, `into_sorted_vec` is a
non-increasing listing of the contents; and the final contents are those of the semantics. -/
theorem C14_history (ops : List (HOp T)) (hw : ∀ op ∈ ops, op.Wf) :
    HRun (fun _ => 0) ops (heapRun (fun _ => (MinHeap.new : MinHeap B)) ops).1
      (fun k => heapItems ((heapRun (fun _ => (MinHeap.new : MinHeap B)) ops).2 k)) := by
  suffices h : ∀ (ops : List (HOp T)) (p : Nat → MinHeap B), (∀ op ∈ ops, op.Wf) →
      HRun (fun k => heapItems (p k)) ops (heapRun p ops).1
        (fun k => heapItems ((heapRun p ops).2 k)) by
    simpa using h ops (fun _ => MinHeap.new) hw
  intro ops
  induction ops with
  | nil => intro p _; exact .nil _
  | cons op ops ih =>
    intro p hw
    exact .cons (heapStep_ok p op (hw op (by simp)))
      (ih _ fun o ho => hw o (List.mem_cons_of_mem _ ho))

/-- C14: on a linear order the semantics leaves no freedom: the answers and the final contents of a history are
determined by it. -/
theorem C14_deterministic {T : Type} [LinearOrder T] {s : Nat → Multiset T} {ops : List (HOp T)} {o1 o2 : List (HOut T)}
    {s1 s2 : Nat → Multiset T} (h1 : HRun s ops o1 s1) (h2 : HRun s ops o2 s2) :
    o1 = o2 ∧ s1 = s2 := by
  have huniq : ∀ (m : Multiset T) (x y : Option T), IsMinOf m x → IsMinOf m y → x = y := by
    intro m x y hx hy
    cases x with
    | none =>
      cases y with
      | none => rfl
      | some y => simp only [IsMinOf] at hx hy; rw [hx] at hy; simp at hy
    | some x =>
      cases y with
      | none => simp only [IsMinOf] at hx hy; rw [hy] at hx; simp at hx
      | some y => rw [le_antisymm (hx.2 y hy.1) (hy.2 x hx.1)]
  have hstep : ∀ (s : Nat → Multiset T) op oa ob sa sb, HStep s op oa sa → HStep s op ob sb →
      oa = ob ∧ sa = sb := by
    intro s op oa ob sa sb ha hb
    cases op with
    | pop i =>
      obtain ⟨x, m, rfl, hx, rfl, hm⟩ := ha
      obtain ⟨y, k, rfl, hy, rfl, hk⟩ := hb
      cases huniq _ _ _ hx hy
      cases x with
      | none => rw [hm, hk]; exact ⟨rfl, rfl⟩
      | some x => rw [(Multiset.cons_inj_right x).1 (hm.symm.trans hk)]; exact ⟨rfl, rfl⟩
    | isEmpty i =>
      obtain ⟨x, rfl, hx, rfl⟩ := ha
      obtain ⟨y, rfl, hy, rfl⟩ := hb
      rw [Bool.eq_iff_iff.2 (hx.trans hy.symm)]; exact ⟨rfl, rfl⟩
    | peek i =>
      obtain ⟨x, rfl, hx, rfl⟩ := ha
      obtain ⟨y, rfl, hy, rfl⟩ := hb
      rw [huniq _ _ _ hx hy]; exact ⟨rfl, rfl⟩
    | intoSortedVec i =>
      obtain ⟨v, rfl, hv, hsv, rfl⟩ := ha
      obtain ⟨w, rfl, hw, hsw, rfl⟩ := hb
      have hp : v.Perm w := Multiset.coe_eq_coe.1 (hv.trans hw.symm)
      rw [List.Perm.eq_of_pairwise (fun a b _ _ h1 h2 => le_antisymm h2 h1) hsv hsw hp]
      exact ⟨rfl, rfl⟩
    | _ =>
      obtain ⟨rfl, rfl⟩ := ha
      obtain ⟨rfl, rfl⟩ := hb
      exact ⟨rfl, rfl⟩
  induction h1 generalizing o2 s2 with
  | nil => cases h2; exact ⟨rfl, rfl⟩
  | cons a _ ih =>
    cases h2 with
    | cons b hb =>
      obtain ⟨rfl, rfl⟩ := hstep _ _ _ _ _ _ a b
      obtain ⟨rfl, rfl⟩ := ih hb
      exact ⟨rfl, rfl⟩

/-- C14: `into_sorted_vec` is not ascending in general. -/
theorem C14_sorted_vec_descending :
    ∀ B : BinaryHeap Natᵒᵈ,
      (((MinHeap.new : MinHeap B).push 1).push 2).intoSortedVec = [2, 1] := by
  intro B
  have h := C14_history (B := B) [.push 0 1, .push 0 2, .intoSortedVec 0]
    (by intro op hop; fin_cases hop <;> trivial)
  have h' := C14_history (B := listHeap Natᵒᵈ) [.push 0 1, .push 0 2, .intoSortedVec 0]
    (by intro op hop; fin_cases hop <;> trivial)
  have := (C14_deterministic h h').1
  simp only [heapRun, heapStep, List.cons.injEq, HOut.vec.injEq, true_and, and_true] at this
  simp only [Function.update_self] at this
  rw [this]
  decide +kernel

/-- The hypotheses are met by a history using every call. -/
example : ∀ op ∈ ([.push 0 3, .push 1 2, .append 0 1, .peek 0, .pop 0, .len 1, .isEmpty 1, .clear 0,
    .intoSortedVec 0, .new 2, .withCapacity 3 7] : List (HOp Nat)), op.Wf := by
  intro op hop; fin_cases hop <;> simp [HOp.Wf]

/-- A concrete run. -/
example : (((MinHeap.new : MinHeap (listHeap Natᵒᵈ)).push 3).push 1).pop.1 = some 1 := by
  decide +kernel

end Verif.Props
