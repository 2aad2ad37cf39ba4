import Verif.Props.MinHeapKey
import Verif.Proof.Huffman
import Mathlib.Data.Prod.Lex
import Mathlib.Algebra.BigOperators.Group.Finset.Basic
import Mathlib.Algebra.Order.Group.Multiset
import Mathlib.Data.List.Induction
/-! C112: programs that use `MinHeap`: the `k` largest of a stream, merging sorted lists, Huffman's
algorithm. The programs are not part of
`/repo`. -/
namespace Verif.Props
open Model Spec OrderDual HeapP

section topk
variable {T : Type} [LinearOrder T] {B : BinaryHeap Tᵒᵈ}

/-- `for x in l { h.push(x); if h.len() > k { h.pop(); } }`. -/
def topK (k : Nat) (h : MinHeap B) : List T → MinHeap B
  | [] => h
  | x :: l => topK k (if k < (h.push x).len then (h.push x).pop.2 else h.push x) l

theorem heap_len (h : MinHeap B) : h.len = (heapItems h).card := by
  simp [MinHeap.len, B.len_eq, heapItems]

theorem heap_sorted (h : MinHeap B) : (h.intoSortedVec : Multiset T) = heapItems h ∧ h.intoSortedVec.Pairwise (· ≥ ·) := by
  constructor
  · rw [MinHeap.intoSortedVec, ← Multiset.map_coe, B.sorted_perm]; rfl
  · rw [MinHeap.intoSortedVec, List.pairwise_map]
    exact (B.sorted_le h.inner).imp fun h => h

theorem topK_inv (k : Nat) (l : List T) : ∀ (h : MinHeap B) (seen out : Multiset T), seen = heapItems h + out →
    (heapItems h).card = min k seen.card → (∀ x ∈ out, ∀ y ∈ heapItems h, x ≤ y) →
    ∃ out', seen + (l : Multiset T) = heapItems (topK k h l) + out' ∧
      (heapItems (topK k h l)).card = min k (seen.card + l.length) ∧ ∀ x ∈ out', ∀ y ∈ heapItems (topK k h l), x ≤ y := by
  induction l with
  | nil =>
    intro h seen out h1 h2 h3
    exact ⟨out, by rw [Multiset.coe_nil, Multiset.add_zero]; exact h1, by simpa [topK] using h2, h3⟩
  | cons x l ih =>
    intro h seen out h1 h2 h3
    have hp := heap_push h x
    have hl := heap_len (h.push x)
    rw [hp, Multiset.card_cons] at hl
    have hc : seen.card = (heapItems h).card + out.card := by rw [h1, Multiset.card_add]
    rw [topK]
    by_cases hk : k < (h.push x).len
    · rw [if_pos hk]
      obtain ⟨q1, -, q2⟩ := heap_pop (h.push x)
      cases hpop : (h.push x).pop.1 with
      | none =>
        rw [hpop] at q2
        simp only at q2
        rw [hp] at q2
        exact absurd q2 (Multiset.cons_ne_zero)
      | some y =>
        rw [hpop] at q1 q2
        simp only at q2
        rw [hp] at q2
        rw [hp] at q1
        have hcard : (heapItems h).card = (heapItems (h.push x).pop.2).card := by
          have := congrArg Multiset.card q2
          rw [Multiset.card_cons, Multiset.card_cons] at this
          omega
        obtain ⟨out', e1, e2, e3⟩ := ih (h.push x).pop.2 (x ::ₘ seen) (y ::ₘ out)
          (by rw [h1, ← Multiset.cons_add, q2, Multiset.cons_add, Multiset.add_cons]) (by rw [Multiset.card_cons]; omega)
          (by
            have hmem : ∀ b ∈ heapItems (h.push x).pop.2, b ∈ x ::ₘ heapItems h := fun b hb => by
              rw [q2]; exact Multiset.mem_cons_of_mem hb
            intro a ha b hb
            rcases Multiset.mem_cons.1 ha with rfl | ha
            · exact q1.2 b (hmem b hb)
            · have hb' := hmem b hb
              rcases Multiset.mem_cons.1 hb' with rfl | hb'
              · by_cases hy : y = b
                · subst hy
                  rcases Multiset.mem_cons.1 q1.1 with e | hym
                  · have : heapItems h = heapItems (h.push y).pop.2 := by simpa using q2
                    exact h3 a ha y (this ▸ hb)
                  · exact h3 a ha y hym
                · rcases Multiset.mem_cons.1 q1.1 with e | hym
                  · exact absurd e hy
                  · exact le_trans (h3 a ha y hym) (q1.2 b (Multiset.mem_cons_self _ _))
              · exact h3 a ha b hb')
        refine ⟨out', ?_, ?_, e3⟩
        · rw [← e1, ← Multiset.cons_coe, Multiset.add_cons, Multiset.cons_add]
        · rw [e2, Multiset.card_cons, List.length_cons]; congr 1; omega
    · rw [if_neg hk]
      have ho : out = 0 := by
        rw [← Multiset.card_eq_zero]
        omega
      subst ho
      obtain ⟨out', e1, e2, e3⟩ := ih (h.push x) (x ::ₘ seen) 0 (by rw [hp, h1, Multiset.cons_add])
        (by rw [hp, Multiset.card_cons, Multiset.card_cons]; omega) (by simp)
      refine ⟨out', ?_, ?_, e3⟩
      · rw [← e1, ← Multiset.cons_coe, Multiset.add_cons, Multiset.cons_add]
      · rw [e2, Multiset.card_cons, List.length_cons]; congr 1; omega

/-- C112: pushing every element and popping when there are more than `k` keeps the `k` largest; `into_sorted_vec` then
lists them in non-increasing order, so it is the beginning of the whole stream sorted that way. -/
theorem C112_top_k (B : BinaryHeap Tᵒᵈ) (k : Nat) (l : List T) :
    (topK k (MinHeap.new : MinHeap B) l).intoSortedVec = (l.insertionSort (· ≥ ·)).take k := by
  obtain ⟨out, e1, e2, e3⟩ := topK_inv k l (MinHeap.new : MinHeap B) 0 0 (by simp) (by simp) (by simp)
  obtain ⟨s1, s2⟩ := heap_sorted (topK k (MinHeap.new : MinHeap B) l)
  generalize topK k (MinHeap.new : MinHeap B) l = h at *
  have hout := Multiset.coe_toList out
  have hperm : (h.intoSortedVec ++ out.toList.insertionSort (· ≥ ·)).Perm l := by
    rw [← Multiset.coe_eq_coe, ← Multiset.coe_add, s1, Multiset.coe_eq_coe.2 (List.perm_insertionSort (· ≥ ·) out.toList),
      hout, ← e1, Multiset.zero_add]
  have hsort : (h.intoSortedVec ++ out.toList.insertionSort (· ≥ ·)).Pairwise (· ≥ ·) := by
    rw [List.pairwise_append]
    refine ⟨s2, List.pairwise_insertionSort _ _, fun a ha b hb => ?_⟩
    refine e3 b ?_ a ?_
    · rw [← hout, Multiset.mem_coe]
      exact (List.perm_insertionSort (· ≥ ·) out.toList).mem_iff.1 hb
    · rw [← s1]; exact ha
  have heq : h.intoSortedVec ++ out.toList.insertionSort (· ≥ ·) = l.insertionSort (· ≥ ·) :=
    List.Perm.eq_of_pairwise (fun a b _ _ h1 h2 => le_antisymm h2 h1) hsort (List.pairwise_insertionSort _ _)
      (hperm.trans (List.perm_insertionSort _ _).symm)
  have hlen : h.intoSortedVec.length = min k l.length := by
    rw [← Multiset.coe_card, s1, e2, Multiset.card_zero, Nat.zero_add]
  rw [← heq]
  by_cases hk : k ≤ l.length
  · rw [List.take_append_of_le_length (by omega), List.take_of_length_le (by omega)]
  · have : (h.intoSortedVec ++ out.toList.insertionSort (· ≥ ·)).length = l.length := hperm.length_eq
    rw [List.length_append] at this
    rw [List.take_of_length_le (by rw [List.length_append]; omega), List.length_eq_zero_iff.1 (by omega : (out.toList.insertionSort (· ≥ ·)).length = 0), List.append_nil]

example : (topK 2 (MinHeap.new : MinHeap (listHeap Natᵒᵈ)) [3, 1, 4, 1, 5, 9, 2, 6]).intoSortedVec = [9, 6] ∧
    (topK 3 (MinHeap.new : MinHeap (listHeap Natᵒᵈ)) [2, 2]).intoSortedVec = [2, 2] := by decide +kernel

end topk

section merge
variable {T : Type} [LinearOrder T] {B : BinaryHeap (T ×ₗ Nat)ᵒᵈ}

/-- Push the head of every list with the number of the list; keep the tails. -/
def mergeStart (i : Nat) (h : MinHeap B) : List (List T) → MinHeap B × List (List T)
  | [] => (h, [])
  | [] :: ls => ((mergeStart (i + 1) h ls).1, [] :: (mergeStart (i + 1) h ls).2)
  | (x :: t) :: ls =>
    ((mergeStart (i + 1) (h.push (toLex (x, i))) ls).1, t :: (mergeStart (i + 1) (h.push (toLex (x, i))) ls).2)

/-- Pop the least head; push the next element of its list. -/
def mergeLoop : Nat → MinHeap B → List (List T) → List T
  | 0, _, _ => []
  | f + 1, h, ls =>
    match h.pop with
    | (none, _) => []
    | (some p, h') =>
      match ls.getD (ofLex p).2 [] with
      | [] => (ofLex p).1 :: mergeLoop f h' ls
      | y :: t => (ofLex p).1 :: mergeLoop f (h'.push (toLex (y, (ofLex p).2))) (ls.set (ofLex p).2 t)

/-- Merging lists through a heap of their heads. -/
def kMerge (B : BinaryHeap (T ×ₗ Nat)ᵒᵈ) (ls : List (List T)) : List T :=
  mergeLoop ls.flatten.length (mergeStart 0 (MinHeap.new : MinHeap B) ls).1 (mergeStart 0 (MinHeap.new : MinHeap B) ls).2

omit [LinearOrder T] in
theorem flatten_set {ls : List (List T)} {i : Nat} {y : T} {t : List T} (h : ls.getD i [] = y :: t) :
    (ls.flatten : Multiset T) = y ::ₘ ((ls.set i t).flatten : Multiset T) := by
  induction ls generalizing i with
  | nil => simp at h
  | cons a ls ih =>
    cases i with
    | zero =>
      rw [List.getD_cons_zero] at h
      subst h
      rfl
    | succ i =>
      rw [List.getD_cons_succ] at h
      rw [List.set_cons_succ, List.flatten_cons, List.flatten_cons, ← Multiset.coe_add, ← Multiset.coe_add, ih h,
        Multiset.add_cons]

/-- What holds between the rounds. -/
structure MergeInv (h : MinHeap B) (ls : List (List T)) : Prop where
  le : ∀ p ∈ heapItems h, ∀ y ∈ ls.getD (ofLex p).2 [], (ofLex p).1 ≤ y
  sorted : ∀ i, (ls.getD i []).Pairwise (· ≤ ·)
  head : ∀ i, ∀ y ∈ ls.getD i [], ∃ p ∈ heapItems h, (ofLex p).2 = i

/-- All that is left. -/
def mergeRest (h : MinHeap B) (ls : List (List T)) : Multiset T := (heapItems h).map (fun p => (ofLex p).1) + ls.flatten

omit [LinearOrder T] in
theorem mem_flatten_getD {ls : List (List T)} {y : T} (h : y ∈ ls.flatten) : ∃ i, y ∈ ls.getD i [] := by
  obtain ⟨l, hl, hy⟩ := List.mem_flatten.1 h
  obtain ⟨i, hi, rfl⟩ := List.getElem_of_mem hl
  exact ⟨i, by rw [List.getD_eq_getElem?_getD, List.getElem?_eq_getElem hi]; exact hy⟩

theorem mergeLoop_ok (f : Nat) : ∀ (h : MinHeap B) (ls : List (List T)), MergeInv h ls → (mergeRest h ls).card ≤ f →
    (mergeLoop f h ls : Multiset T) = mergeRest h ls ∧ (mergeLoop f h ls).Pairwise (· ≤ ·) := by
  induction f with
  | zero =>
    intro h ls _ hf
    have : mergeRest h ls = 0 := Multiset.card_eq_zero.1 (by omega)
    rw [this, mergeLoop]
    exact ⟨rfl, .nil⟩
  | succ f ih =>
    intro h ls hI hf
    obtain ⟨q1, -, q2⟩ := heap_pop h
    rw [mergeLoop]
    rcases hpop : h.pop with ⟨o, h'⟩
    rw [hpop] at q1 q2
    cases o with
    | none =>
      simp only [IsMinOf] at q1
      have hfl : ls.flatten = [] := by
        rw [List.eq_nil_iff_forall_not_mem]
        intro y hy
        obtain ⟨i, hi⟩ := mem_flatten_getD hy
        obtain ⟨p, hp, -⟩ := hI.head i y hi
        rw [q1] at hp
        exact Multiset.notMem_zero _ hp
      simp [mergeRest, q1, hfl]
    | some p =>
      simp only at q2
      have hmin : ∀ p' ∈ heapItems h, (ofLex p).1 ≤ (ofLex p').1 := by
        intro p' hp'
        have := q1.2 p' hp'
        rcases Prod.Lex.le_iff.1 this with h | h
        · exact le_of_lt h
        · exact le_of_eq h.1
      have hall : ∀ y ∈ mergeRest h ls, (ofLex p).1 ≤ y := by
        intro y hy
        rcases Multiset.mem_add.1 hy with hy | hy
        · obtain ⟨p', hp', rfl⟩ := Multiset.mem_map.1 hy
          exact hmin p' hp'
        · obtain ⟨i, hi⟩ := mem_flatten_getD (Multiset.mem_coe.1 hy)
          obtain ⟨p', hp', rfl⟩ := hI.head i y hi
          exact le_trans (hmin p' hp') (hI.le p' hp' y hi)
      have fin : ∀ (h2 : MinHeap B) (ls2 : List (List T)), MergeInv h2 ls2 →
          mergeRest h ls = (ofLex p).1 ::ₘ mergeRest h2 ls2 →
          (((ofLex p).1 :: mergeLoop f h2 ls2 : List T) : Multiset T) = mergeRest h ls ∧
            ((ofLex p).1 :: mergeLoop f h2 ls2).Pairwise (· ≤ ·) := by
        intro h2 ls2 hI2 hr
        obtain ⟨k1, k2⟩ := ih h2 ls2 hI2 (by rw [hr, Multiset.card_cons] at hf; omega)
        refine ⟨by rw [hr, ← k1, Multiset.cons_coe], List.pairwise_cons.2 ⟨fun y hy => ?_, k2⟩⟩
        apply hall
        rw [hr, ← k1]
        exact Multiset.mem_cons_of_mem hy
      have hsub : ∀ p' ∈ heapItems h', p' ∈ heapItems h := fun p' hp' => by
        rw [q2]; exact Multiset.mem_cons_of_mem hp'
      simp only
      cases hl : ls.getD (ofLex p).2 [] with
      | nil =>
        simp only
        refine fin h' ls ⟨fun p' hp' => hI.le p' (hsub p' hp'), hI.sorted, fun i y hy => ?_⟩ ?_
        · obtain ⟨p', hp', hi⟩ := hI.head i y hy
          rw [q2] at hp'
          rcases Multiset.mem_cons.1 hp' with rfl | hp'
          · rw [← hi, hl] at hy
            cases hy
          · exact ⟨p', hp', hi⟩
        · rw [mergeRest, mergeRest, q2, Multiset.map_cons, Multiset.cons_add]
      | cons y t =>
        simp only
        have hlen : (ofLex p).2 < ls.length := by
          by_contra hge
          rw [List.getD_eq_getElem?_getD, List.getElem?_eq_none (by omega)] at hl
          cases hl
        have hset : ∀ i, (ls.set (ofLex p).2 t).getD i [] = if i = (ofLex p).2 then t else ls.getD i [] := by
          intro i
          rw [List.getD_eq_getElem?_getD, List.getElem?_set]
          by_cases hi : i = (ofLex p).2
          · subst hi
            simp [hlen]
          · rw [if_neg (Ne.symm hi), if_neg hi, List.getD_eq_getElem?_getD]
        have hsrt := hI.sorted (ofLex p).2
        rw [hl] at hsrt
        obtain ⟨hs1, hs2⟩ := List.pairwise_cons.1 hsrt
        have hq : ofLex (toLex (y, (ofLex p).2)) = (y, (ofLex p).2) := rfl
        refine fin (h'.push (toLex (y, (ofLex p).2))) (ls.set (ofLex p).2 t) ⟨?_, ?_, ?_⟩ ?_
        · intro p' hp' z hz
          rw [hset] at hz
          rw [heap_push] at hp'
          rcases Multiset.mem_cons.1 hp' with rfl | hp'
          · rw [hq] at hz ⊢
            rw [if_pos rfl] at hz
            exact hs1 z hz
          · by_cases hi : (ofLex p').2 = (ofLex p).2
            · rw [if_pos hi] at hz
              exact hI.le p' (hsub p' hp') z (by rw [hi, hl]; exact List.mem_cons_of_mem _ hz)
            · rw [if_neg hi] at hz
              exact hI.le p' (hsub p' hp') z hz
        · intro i
          rw [hset]
          split
          · exact hs2
          · exact hI.sorted i
        · intro i z hz
          rw [hset] at hz
          rw [heap_push]
          by_cases hi : i = (ofLex p).2
          · exact ⟨_, Multiset.mem_cons_self _ _, hi.symm⟩
          · rw [if_neg hi] at hz
            obtain ⟨p', hp', hi'⟩ := hI.head i z hz
            rw [q2] at hp'
            rcases Multiset.mem_cons.1 hp' with rfl | hp'
            · exact absurd hi'.symm hi
            · exact ⟨p', Multiset.mem_cons_of_mem hp', hi'⟩
        · rw [mergeRest, mergeRest, q2, heap_push, Multiset.map_cons, Multiset.map_cons, flatten_set hl, hq,
            Multiset.cons_add, Multiset.cons_add, Multiset.add_cons]

theorem mergeStart_ok (ls : List (List T)) : ∀ (i : Nat) (h : MinHeap B),
    (∀ l ∈ ls, l.Pairwise (· ≤ ·)) →
    (∃ new, heapItems (mergeStart i h ls).1 = heapItems h + new ∧
      (∀ p ∈ new, i ≤ (ofLex p).2 ∧ ∀ y ∈ (mergeStart i h ls).2.getD ((ofLex p).2 - i) [], (ofLex p).1 ≤ y) ∧
      (∀ k, ∀ y ∈ (mergeStart i h ls).2.getD k [], ∃ p ∈ new, (ofLex p).2 = i + k) ∧
      new.map (fun p => (ofLex p).1) + ((mergeStart i h ls).2.flatten : Multiset T) = (ls.flatten : Multiset T)) ∧
    ∀ k, ((mergeStart i h ls).2.getD k []).Pairwise (· ≤ ·) := by
  induction ls with
  | nil =>
    intro i h _
    refine ⟨⟨0, ?_, ?_, ?_, ?_⟩, ?_⟩ <;> simp [mergeStart]
  | cons l ls ih =>
    intro i h hs
    cases l with
    | nil =>
      obtain ⟨⟨new, e1, e2, e3, e4⟩, e5⟩ := ih (i + 1) h fun l hl => hs l (List.mem_cons_of_mem _ hl)
      rw [mergeStart]
      generalize mergeStart (i + 1) h ls = r at *
      refine ⟨⟨new, e1, fun p hp => ?_, fun k y hy => ?_, ?_⟩, fun k => ?_⟩
      · obtain ⟨h1, h2⟩ := e2 p hp
        refine ⟨by omega, fun y hy => h2 y ?_⟩
        rw [show (ofLex p).2 - i = (ofLex p).2 - (i + 1) + 1 by omega, List.getD_cons_succ] at hy
        exact hy
      · cases k with
        | zero => simp at hy
        | succ k =>
          rw [List.getD_cons_succ] at hy
          obtain ⟨p, hp, hk⟩ := e3 k y hy
          exact ⟨p, hp, by omega⟩
      · simpa using e4
      · cases k with
        | zero => simp
        | succ k => rw [List.getD_cons_succ]; exact e5 k
    | cons x t =>
      obtain ⟨⟨new, e1, e2, e3, e4⟩, e5⟩ := ih (i + 1) (h.push (toLex (x, i))) fun l hl => hs l (List.mem_cons_of_mem _ hl)
      rw [mergeStart]
      generalize mergeStart (i + 1) (h.push (toLex (x, i))) ls = r at *
      obtain ⟨hx1, hx2⟩ := List.pairwise_cons.1 (hs (x :: t) (by simp))
      have hq : ofLex (toLex (x, i)) = (x, i) := rfl
      refine ⟨⟨toLex (x, i) ::ₘ new, ?_, fun p hp => ?_, fun k y hy => ?_, ?_⟩, fun k => ?_⟩
      · simp only
        rw [e1, heap_push, Multiset.cons_add, Multiset.add_cons]
      · rcases Multiset.mem_cons.1 hp with rfl | hp
        · rw [hq]
          refine ⟨Nat.le_refl _, fun y hy => ?_⟩
          rw [Nat.sub_self, List.getD_cons_zero] at hy
          exact hx1 y hy
        · obtain ⟨h1, h2⟩ := e2 p hp
          refine ⟨by omega, fun y hy => h2 y ?_⟩
          rw [show (ofLex p).2 - i = (ofLex p).2 - (i + 1) + 1 by omega, List.getD_cons_succ] at hy
          exact hy
      · cases k with
        | zero => exact ⟨toLex (x, i), Multiset.mem_cons_self _ _, rfl⟩
        | succ k =>
          rw [List.getD_cons_succ] at hy
          obtain ⟨p, hp, hk⟩ := e3 k y hy
          exact ⟨p, Multiset.mem_cons_of_mem hp, by omega⟩
      · rw [Multiset.map_cons, hq, List.flatten_cons, List.flatten_cons, List.cons_append, ← Multiset.cons_coe,
          ← Multiset.coe_add, ← Multiset.coe_add, ← e4, Multiset.cons_add, ← Multiset.add_assoc, ← Multiset.add_assoc,
          Multiset.add_comm (Multiset.map _ new)]
      · cases k with
        | zero => rw [List.getD_cons_zero]; exact hx2
        | succ k => rw [List.getD_cons_succ]; exact e5 k

/-- C112: merging sorted lists through a heap of their heads gives all their elements in order. -/
theorem C112_merge (B : BinaryHeap (T ×ₗ Nat)ᵒᵈ) (ls : List (List T)) (hs : ∀ l ∈ ls, l.Pairwise (· ≤ ·)) :
    kMerge B ls = ls.flatten.insertionSort (· ≤ ·) := by
  obtain ⟨⟨new, e1, e2, e3, e4⟩, e5⟩ := mergeStart_ok ls 0 (MinHeap.new : MinHeap B) hs
  rw [heap_new, Multiset.zero_add] at e1
  have hr : mergeRest (mergeStart 0 (MinHeap.new : MinHeap B) ls).1 (mergeStart 0 (MinHeap.new : MinHeap B) ls).2 =
      (ls.flatten : Multiset T) := by rw [mergeRest, e1, e4]
  obtain ⟨k1, k2⟩ := mergeLoop_ok ls.flatten.length (mergeStart 0 (MinHeap.new : MinHeap B) ls).1
    (mergeStart 0 (MinHeap.new : MinHeap B) ls).2
    ⟨fun p hp => (e2 p (e1 ▸ hp)).2, e5, fun i y hy => by
      obtain ⟨p, hp, hk⟩ := e3 i y hy
      exact ⟨p, by rw [e1]; exact hp, by omega⟩⟩ (by rw [hr, Multiset.coe_card])
  rw [hr, Multiset.coe_eq_coe] at k1
  exact List.Perm.eq_of_pairwise (fun a b _ _ h1 h2 => le_antisymm h1 h2) k2 (List.pairwise_insertionSort _ _)
    (k1.trans (List.perm_insertionSort _ _).symm)

example : (∀ l ∈ [[1, 4, 7], [], [2, 4], [0, 9]], l.Pairwise (· ≤ ·)) ∧
    kMerge (listHeap (Nat ×ₗ Nat)ᵒᵈ) [[1, 4, 7], [], [2, 4], [0, 9]] = [0, 1, 2, 4, 4, 7, 9] := by decide +kernel

end merge

section huffman
variable {B : BinaryHeap Natᵒᵈ}

/-- `for x in l { h.push(x) }`. -/
def pushAll (h : MinHeap B) (l : List Nat) : MinHeap B := l.foldl MinHeap.push h

/-- Huffman's loop: pop two, add their sum to the cost, push the sum; at most `f` rounds. -/
def huffmanLoop : Nat → MinHeap B → Nat
  | 0, _ => 0
  | f + 1, h =>
    match h.pop with
    | (none, _) => 0
    | (some a, h1) =>
      match h1.pop with
      | (none, _) => 0
      | (some b, h2) => a + b + huffmanLoop f (h2.push (a + b))

theorem huffmanLoop_merged (f : Nat) : ∀ h : MinHeap B, (heapItems h).card ≤ f + 1 →
    HuffmanP.Merged (heapItems h) (huffmanLoop f h) := by
  induction f with
  | zero =>
    intro h hf
    rcases Nat.lt_or_ge (heapItems h).card 1 with h1 | h1
    · rw [Multiset.card_eq_zero.1 (by omega : (heapItems h).card = 0)]
      exact .none
    · obtain ⟨w, hw⟩ := Multiset.card_eq_one.1 (by omega : (heapItems h).card = 1)
      rw [hw]
      exact .one w
  | succ f ih =>
    intro h hf
    obtain ⟨q1, -, q2⟩ := heap_pop h
    rw [huffmanLoop]
    rcases hpop : h.pop with ⟨o, h1⟩
    rw [hpop] at q1 q2
    cases o with
    | none =>
      simp only at q2 ⊢
      rw [q2]
      exact .none
    | some a =>
      simp only at q2 ⊢
      obtain ⟨p1, -, p2⟩ := heap_pop h1
      rcases hpop1 : h1.pop with ⟨o, h2⟩
      rw [hpop1] at p1 p2
      cases o with
      | none =>
        simp only at p2 ⊢
        rw [q2, p2]
        exact .one a
      | some b =>
        simp only at p2 ⊢
        have hp := heap_push h2 (a + b)
        have := ih (h2.push (a + b)) (by
          rw [hp, Multiset.card_cons]
          rw [q2, p2, Multiset.card_cons, Multiset.card_cons] at hf
          omega)
        rw [hp] at this
        rw [q2, p2]
        refine .merge (q1.2 b ?_) (fun w hw => p1.2 w ?_) this
        · rw [q2, p2]; simp
        · rw [p2]; exact Multiset.mem_cons_of_mem hw

theorem pushAll_items (l : List Nat) : ∀ h : MinHeap B, heapItems (pushAll h l) = (l : Multiset Nat) + heapItems h := by
  induction l with
  | nil => intro h; simp [pushAll]
  | cons x l ih =>
    intro h
    have := ih (h.push x)
    rw [pushAll] at this ⊢
    rw [List.foldl_cons, this, heap_push, ← Multiset.cons_coe, Multiset.add_cons, Multiset.cons_add]

/-- C112: Huffman's algorithm with a `MinHeap`: the sum it returns is the least sum of weight times depth over all
binary trees with these leaf weights, and some tree attains it. -/
theorem C112_huffman (B : BinaryHeap Natᵒᵈ) (l : List Nat) (hl : l ≠ []) :
    (∀ t : BinTree, t.leaves = (l : Multiset Nat) →
      huffmanLoop l.length (pushAll (MinHeap.new : MinHeap B) l) ≤ t.pathCost 0) ∧
    ∃ t : BinTree, t.leaves = (l : Multiset Nat) ∧
      t.pathCost 0 = huffmanLoop l.length (pushAll (MinHeap.new : MinHeap B) l) := by
  have hi := pushAll_items l (MinHeap.new : MinHeap B)
  rw [heap_new, Multiset.add_zero] at hi
  have hm := huffmanLoop_merged l.length (pushAll (MinHeap.new : MinHeap B) l) (by rw [hi, Multiset.coe_card]; omega)
  rw [hi] at hm
  refine ⟨fun t ht => hm.le_tree t ht, ?_⟩
  obtain ⟨t, e1, e2⟩ := hm.attained (by simpa using hl) ((l.map BinTree.leaf : List BinTree) : Multiset BinTree) (by
    simp [HuffmanP.weight, BinTree.leaves, Function.comp_def])
  refine ⟨t, ?_, ?_⟩
  · rw [e1]
    clear e1 e2 hm hi hl
    induction l with
    | nil => rfl
    | cons x l ih =>
      simp only [List.map_cons, ← Multiset.cons_coe, Multiset.map_cons, Multiset.sum_cons, BinTree.leaves]
      rw [ih, Multiset.singleton_add]
  · rw [e2]
    have : ((((l.map BinTree.leaf : List BinTree) : Multiset BinTree)).map fun s => s.pathCost 0).sum = 0 := by
      clear e1 e2 hm hi hl
      induction l with
      | nil => rfl
      | cons x l ih =>
        simp only [List.map_cons, ← Multiset.cons_coe, Multiset.map_cons, Multiset.sum_cons, BinTree.pathCost]
        rw [ih, Nat.mul_zero]
    rw [this, Nat.zero_add]

example : huffmanLoop 6 (pushAll (MinHeap.new : MinHeap (listHeap Natᵒᵈ)) [45, 13, 12, 16, 9, 5]) = 224 := by
  decide +kernel

end huffman
end Verif.Props
