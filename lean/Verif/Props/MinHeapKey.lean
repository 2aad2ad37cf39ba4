import Mathlib.Data.Multiset.Basic
import Mathlib.Data.Nat.Basic
import Verif.Props.MinHeap
/-! C71: `MinHeap` with elements that may compare equal without being the same (an `Ord` that looks at a key only). -/
namespace Verif.Spec

/-- The call with every element replaced by its key. -/
def HOp.key {T K : Type} (k : T → K) : HOp T → HOp K
  | .new i => .new i
  | .withCapacity i c => .withCapacity i c
  | .push i x => .push i (k x)
  | .pop i => .pop i
  | .peek i => .peek i
  | .len i => .len i
  | .isEmpty i => .isEmpty i
  | .append i j => .append i j
  | .clear i => .clear i
  | .intoSortedVec i => .intoSortedVec i

/-- The answer with every element replaced by its key. -/
def HOut.key {T K : Type} (k : T → K) : HOut T → HOut K
  | .unit => .unit
  | .item x => .item (x.map k)
  | .num n => .num n
  | .bool b => .bool b
  | .vec v => .vec (v.map k)

end Verif.Spec

namespace Verif.Props
open Model Spec OrderDual HeapP

variable {T K : Type} [LE T] [LinearOrder K] {key : T → K} {B B' : BinaryHeap Tᵒᵈ}

theorem isMinOf_key (hk : ∀ a b, a ≤ b ↔ key a ≤ key b) {s : Multiset T} {x : Option T} (h : IsMinOf s x) :
    IsMinOf (s.map key) (x.map key) := by
  cases x with
  | none => simp only [IsMinOf] at h; simp [IsMinOf, h]
  | some x =>
    refine ⟨Multiset.mem_map_of_mem _ h.1, fun y hy => ?_⟩
    obtain ⟨z, hz, rfl⟩ := Multiset.mem_map.1 hy
    exact (hk _ _).1 (h.2 z hz)

theorem hstep_key (hk : ∀ a b, a ≤ b ↔ key a ≤ key b) {s s' : Nat → Multiset T} {op : HOp T} {o : HOut T}
    (h : HStep s op o s') :
    HStep (fun i => (s i).map key) (op.key key) (o.key key) (fun i => (s' i).map key) := by
  cases op with
  | pop i =>
    obtain ⟨x, m, rfl, hx, rfl, hm⟩ := h
    refine ⟨_, _, rfl, isMinOf_key hk hx, comp_update (Multiset.map key) _ _ _, ?_⟩
    cases x with
    | none => simp only at hm; simp [hm]
    | some x => simp only at hm; simp [hm]
  | peek i =>
    obtain ⟨x, rfl, hx, rfl⟩ := h
    exact ⟨_, rfl, isMinOf_key hk hx, rfl⟩
  | len i =>
    obtain ⟨rfl, rfl⟩ := h
    exact ⟨by simp [HOut.key], rfl⟩
  | isEmpty i =>
    obtain ⟨b, rfl, hb, rfl⟩ := h
    exact ⟨b, rfl, by simpa using hb, rfl⟩
  | intoSortedVec i =>
    obtain ⟨v, rfl, hv, hs, rfl⟩ := h
    refine ⟨_, rfl, by simp only [← hv]; rfl, ?_, by rw [comp_update (Multiset.map key)]; rfl⟩
    rw [List.pairwise_map]
    exact hs.imp fun h => (hk _ _).1 h
  | push i x =>
    obtain ⟨rfl, rfl⟩ := h
    exact ⟨rfl, by rw [comp_update (Multiset.map key), Multiset.map_cons]⟩
  | append i j =>
    obtain ⟨rfl, rfl⟩ := h
    exact ⟨rfl, by rw [comp_update (Multiset.map key), comp_update (Multiset.map key), Multiset.map_add]; rfl⟩
  | _ =>
    obtain ⟨rfl, rfl⟩ := h
    exact ⟨rfl, by rw [comp_update (Multiset.map key)]; rfl⟩

/-- C71: the keys of all answers, and of the elements held at the end, are those of the same history on keys. -/
theorem C71_keys (hk : ∀ a b, a ≤ b ↔ key a ≤ key b) {s s' : Nat → Multiset T} {ops : List (HOp T)} {os : List (HOut T)}
    (h : HRun s ops os s') :
    HRun (fun i => (s i).map key) (ops.map (HOp.key key)) (os.map (HOut.key key)) (fun i => (s' i).map key) := by
  induction h with
  | nil => exact .nil _
  | cons a _ ih => exact .cons (hstep_key hk a) ih

/-- C71: when elements may compare equal, two correct heaps may answer differently, but the keys of all their answers
agree, and so do the keys of what they hold at the end. -/
theorem C71_deterministic (hk : ∀ a b, a ≤ b ↔ key a ≤ key b) (ops : List (HOp T)) (hw : ∀ op ∈ ops, op.Wf) :
    (heapRun (fun _ => (MinHeap.new : MinHeap B)) ops).1.map (HOut.key key) =
      (heapRun (fun _ => (MinHeap.new : MinHeap B')) ops).1.map (HOut.key key) ∧
    ∀ i, (heapItems ((heapRun (fun _ => (MinHeap.new : MinHeap B)) ops).2 i)).map key =
      (heapItems ((heapRun (fun _ => (MinHeap.new : MinHeap B')) ops).2 i)).map key := by
  have h := C14_deterministic (C71_keys hk (C14_history (B := B) ops hw)) (C71_keys hk (C14_history (B := B') ops hw))
  exact ⟨h.1, fun i => congrFun h.2 i⟩

/-- `k` calls of `pop`. -/
def popMany : Nat → MinHeap B → List (Option T) × MinHeap B
  | 0, h => ([], h)
  | k + 1, h => let r := popMany k h.pop.2; (h.pop.1 :: r.1, r.2)

/-- C71, sorting: popping as often as there are elements gives every element once, in non-decreasing order, and leaves
the heap empty; the next `pop` gives `None`. -/
theorem C71_drain (htr : ∀ a b c : T, a ≤ b → b ≤ c → a ≤ c) (h : MinHeap B) :
    ∃ l : List T, (popMany h.len h).1 = l.map some ∧ (l : Multiset T) = heapItems h ∧ l.Pairwise (· ≤ ·) ∧
      heapItems (popMany h.len h).2 = 0 ∧ (popMany h.len h).2.pop.1 = none := by
  suffices H : ∀ n (h : MinHeap B), (heapItems h).card = n →
      ∃ l : List T, (popMany n h).1 = l.map some ∧ (l : Multiset T) = heapItems h ∧ l.Pairwise (· ≤ ·) ∧
        heapItems (popMany n h).2 = 0 by
    obtain ⟨l, h1, h2, h3, h4⟩ := H h.len h (by simp [MinHeap.len, B.len_eq, heapItems])
    refine ⟨l, h1, h2, h3, h4, ?_⟩
    obtain ⟨h5, -, h6⟩ := heap_pop (popMany h.len h).2
    cases h7 : (popMany h.len h).2.pop.1 with
    | none => rfl
    | some x => rw [h4, h7] at h5; exact absurd h5.1 (Multiset.notMem_zero x)
  intro n
  induction n with
  | zero =>
    intro h hn
    have : heapItems h = 0 := Multiset.card_eq_zero.1 hn
    exact ⟨[], rfl, by rw [this]; rfl, .nil, this⟩
  | succ n ih =>
    intro h hn
    obtain ⟨h1, h2, -⟩ := heap_pop h
    cases h3 : h.pop.1 with
    | none =>
      rw [h3] at h1
      simp only [IsMinOf] at h1
      rw [h1] at hn; simp at hn
    | some x =>
      rw [h3] at h1 h2
      simp only at h2
      rw [h2, Multiset.card_cons] at hn
      obtain ⟨l, k1, k2, k3, k4⟩ := ih h.pop.2 (by omega)
      refine ⟨x :: l, by simp [popMany, h3, k1], ?_, List.pairwise_cons.2 ⟨?_, k3⟩, k4⟩
      · rw [h2, ← k2]; rfl
      · intro y hy
        refine h1.2 y ?_
        rw [h2, ← k2]
        exact Multiset.mem_cons_of_mem hy

/-- A job that is ordered by its cost only. -/
structure Job where
  cost : Nat
  id : Nat
  deriving DecidableEq, Repr

instance : Preorder Job where
  le a b := a.cost ≤ b.cost
  le_refl a := Nat.le_refl a.cost
  le_trans a b c := Nat.le_trans

instance : DecidableLE Job := fun a b => inferInstanceAs (Decidable (a.cost ≤ b.cost))
instance : Std.Total (α := Job) (· ≤ ·) := ⟨fun a b => Nat.le_total a.cost b.cost⟩

example : ∀ a b : Job, a ≤ b ↔ a.cost ≤ b.cost := fun _ _ => Iff.rfl

/-- Two jobs of the same cost both come out. -/
example : (popMany 3 ((((MinHeap.new : MinHeap (listHeap Jobᵒᵈ)).push ⟨2, 0⟩).push ⟨1, 7⟩).push ⟨1, 8⟩)).1.map
    (Option.map Job.cost) = [some 1, some 1, some 2] := by decide +kernel

end Verif.Props
