import Verif.Proof.CostDijkstra
import Verif.Props.Dijkstra
import Verif.Prelude.Post
/-! C70: the work of `dijkstra`. -/
namespace Verif.Props
open Res Model Spec DijkstraP HeapP

variable {B : BinaryHeap (Nat ×ₗ Nat)ᵒᵈ} {g : List (List (Nat × Nat))} {s : Nat}

theorem sum_deg_le (g : List (List (Nat × Nat))) {l : List Nat} (hd : l.Nodup) :
    (l.map (deg g)).sum ≤ (g.map List.length).sum := by
  rw [← List.sum_toFinset _ hd, ← rest_empty]
  unfold rest
  rw [Finset.sdiff_empty]
  have h0 : ∀ u, ¬ u < g.length → deg g u = 0 := by
    intro u hu
    unfold deg
    rw [List.getD_eq_getElem?_getD, List.getElem?_eq_none (by omega)]; rfl
  rw [← Finset.sum_filter_add_sum_filter_not l.toFinset (· < g.length),
    Finset.sum_eq_zero (s := l.toFinset.filter (¬ · < g.length)) (fun u hu => h0 u (Finset.mem_filter.1 hu).2), Nat.add_zero]
  refine Finset.sum_le_sum_of_subset ?_
  intro u hu
  exact Finset.mem_range.2 (Finset.mem_filter.1 hu).2

/-- C70: the edges of every reachable vertex are looked at exactly once, the vertices coming in order of non-decreasing
distance and each with its final distance. Everything pushed is popped, there are at most as many pushes as edges
looked at plus one, and the heap never holds more elements than that number of edges (or one, at the start). -/
theorem C70_work (hs : s < g.length) (hE : ¬ LeavesGraph g s) (ho : ¬ DistOverflow g s) :
    ∃ dis w, dijkstraCost B g s = ok (dis, w) ∧ dijkstra B g s = ok dis ∧
      (w.expanded.map Prod.fst).Nodup ∧
      (∀ v d, (v, d) ∈ w.expanded ↔ IsDist g s v d) ∧
      w.expanded.reverse.Pairwise (fun a b => a.2 ≤ b.2) ∧
      w.looks = (w.expanded.map fun e => (g.getD e.1 []).length).sum ∧
      w.looks ≤ (g.map List.length).sum ∧
      w.pops = w.pushes ∧ w.expanded.length ≤ w.pops ∧ w.pushes ≤ w.looks + 1 ∧ w.peak ≤ max 1 w.looks := by
  obtain ⟨⟨dis, w⟩, h1, h2, h3, h4, F, W, ht, hF⟩ := (dijkstraCost_satOr (B := B) hs).sat (by tauto)
  simp only at h2 h3 h4 ht
  have h5 := dijkstraCost_fst (B := B) (g := g) (s := s)
  rw [h1, ok_bind] at h5
  have hl := ht.looks
  rw [Nat.add_zero] at hl
  refine ⟨dis, w, h1, h5.symm, ht.nodup, ?_, List.pairwise_reverse.2 ht.sorted, hl, ?_, ?_, ht.exp, ht.push, ht.peak⟩
  · intro v d
    constructor
    · intro h
      exact (h4 v d (ht.dis _ h)).1
    · intro h
      obtain ⟨e, he, rfl⟩ := List.mem_map.1 ((ht.fin v).1 ((hF v).2 ⟨d, h.1⟩))
      have h6 := (h4 _ _ (ht.dis e he)).1
      rw [Nat.le_antisymm (h.2 _ h6.1) (h6.2 _ h.1)]
      exact he
  · rw [hl]
    have := sum_deg_le g ht.nodup
    rwa [List.map_map] at this
  · have := ht.heap; omega

/-- C70: forgetting the counts gives `dijkstra`, also when it panics. -/
theorem C70_counters : (dijkstraCost B g s >>= fun r => ok r.1) = dijkstra B g s := dijkstraCost_fst

/-- `m` parallel edges of decreasing weight. -/
def dijLadder (m : Nat) : List (List (Nat × Nat)) := [(List.range m).map fun i => (1, m - i), []]

theorem post_forList {I : List α → σ → Prop} {f : α → σ → Res σ} {l : List α} {s : σ} (h : I l s)
    (hf : ∀ x xs s, I (x :: xs) s → Post (f x s) (I xs)) : Post (forList l s f) (I []) := by
  induction l generalizing s with
  | nil => exact post_ok h
  | cons x xs ih =>
    rw [forList_cons]
    exact post_bind ((hf x xs s h).mono fun s' h' => ih h')

theorem dijLadder_post (m : Nat) :
    Post (dijkstraCost B (dijLadder m) 0) (fun r => m + 1 ≤ r.2.pushes ∧ m ≤ r.2.peak) := by
  unfold dijkstraCost
  simp only [dijLadder, List.length_cons, List.length_nil]
  refine post_bind ?_
  rw [upd_of_lt (by simp)]
  refine post_ok ?_
  refine post_loop (I := fun st : (List (Option Nat) × MinHeap B) × DijWork =>
    (st.1.1 = [some 0, none] ∧ heapItems st.1.2 = {toLex (0, 0)} ∧ st.2.pushes = 1) ∨
    (m + 1 ≤ st.2.pushes ∧ m ≤ max st.2.peak st.1.2.len)) (.inl ⟨rfl, by simp [heap_push], rfl⟩) ?_
  rintro ⟨⟨dis, q⟩, w⟩ hI
  simp only at hI ⊢
  obtain ⟨hp1, -, hp2⟩ := heap_pop q
  rcases hq : q.pop with ⟨o, q'⟩
  rw [hq] at hp1 hp2
  simp only at hp1 hp2
  cases o with
  | none =>
    simp only at hp2
    refine post_ok ?_
    rcases hI with ⟨-, h, -⟩ | h
    · rw [h] at hp2; simp at hp2
    · exact h
  | some x =>
    simp only at hp2 ⊢
    refine post_bind (post_idx.mono fun du hdu => ?_)
    rcases hI with ⟨h1, h2, h3⟩ | h
    · rw [h2] at hp1 hp2
      have hx : x = toLex (0, 0) := by simpa using hp1.1
      subst hx
      simp only [ofLex_toLex, h1] at hdu ⊢
      have hdu : some 0 = du := by simpa using hdu
      rw [if_neg (by simp [hdu])]
      refine post_bind (post_idx.mono fun gu hgu => ?_)
      have hgu : (List.range m).map (fun i => (1, m - i)) = gu := by simpa using hgu
      subst hgu
      have hq' : heapItems q' = 0 := by
        have := congrArg Multiset.card hp2
        simpa using this
      refine post_bind (Post.mono (post_forList (I := fun (l : List (Nat × Nat)) (st : (List (Option Nat) × MinHeap B) × DijWork) =>
        ∃ k, k ≤ m ∧ l = ((List.range m).map fun i => (1, m - i)).drop k ∧
          st.1.1 = [some 0, if k = 0 then none else some (m - k + 1)] ∧ (heapItems st.1.2).card = k ∧
          st.2.pushes = 1 + k) ⟨0, Nat.zero_le _, rfl, ?_, ?_, h3⟩ ?_) ?_)
      · simpa using h1
      · simp [hq']
      · rintro ⟨v, c⟩ xs ⟨⟨dis, q⟩, w⟩ ⟨k, hk, hl, h4, h5, h6⟩
        simp only at h4 h5 h6 ⊢
        have hkm : k < m := by
          by_contra hc
          rw [List.drop_of_length_le (by simp; omega)] at hl
          cases hl
        rw [List.drop_eq_getElem_cons (by simpa using hkm)] at hl
        simp only [List.getElem_map, List.getElem_range, List.cons.injEq, Prod.mk.injEq] at hl
        obtain ⟨⟨rfl, rfl⟩, rfl⟩ := hl
        subst h4
        refine post_bind (post_idx.mono fun dv hdv => ?_)
        have hdv : (if k = 0 then none else some (m - k + 1)) = dv := by simpa using hdv
        subst hdv
        refine post_bind (Post.mono (P := fun b => b = true) ?_ ?_)
        · by_cases hk0 : k = 0
          · subst hk0
            exact post_ok rfl
          · simp only [hk0, if_false, Option.isNone_some, Bool.false_eq_true, unwrap_some, ok_bind]
            refine post_bind fun dc e => ?_
            have : dc = 0 + (m - k) := by
              unfold addU at e; split at e <;> cases e; rfl
            subst this
            refine post_ok ?_
            simp
        · rintro _ rfl
          simp only [if_true]
          refine post_bind fun dc e => ?_
          have : dc = 0 + (m - k) := by
            unfold addU at e; split at e <;> cases e; rfl
          subst this
          refine post_bind (post_upd.mono ?_)
          rintro _ ⟨-, rfl⟩
          rw [e]
          refine post_ok ⟨k + 1, hkm, rfl, ?_, ?_, ?_⟩
          · simp; omega
          · rw [heap_push, Multiset.card_cons, h5]
          · simp only; omega
      · rintro st ⟨k, hk, hl, h4, h5, h6⟩
        have : k = m := by
          have := congrArg List.length hl
          simp at this; omega
        subst this
        refine post_ok (.inr ⟨by omega, ?_⟩)
        rw [heap_len, h5]; omega
    · split
      · exact post_ok (.inr ⟨h.1, by simp only; omega⟩)
      · refine post_bind (post_idx.mono fun gu _ => ?_)
        refine post_bind (Post.mono (post_forList (I := fun _ (st : (List (Option Nat) × MinHeap B) × DijWork) =>
          m + 1 ≤ st.2.pushes ∧ m ≤ st.2.peak) h ?_) ?_)
        · rintro ⟨v, c⟩ xs ⟨⟨dis, q⟩, w⟩ h
          simp only at h ⊢
          refine post_bind (post_idx.mono fun dv _ => post_bind (post_eq.mono fun b _ => ?_))
          split
          · refine post_bind (post_eq.mono fun _ _ => post_bind (post_eq.mono fun _ _ => post_bind (post_eq.mono fun _ _ => ?_)))
            exact post_ok ⟨by simp only; omega, h.2⟩
          · exact post_ok h
        · intro st h
          exact post_ok (.inr ⟨h.1, by omega⟩)

theorem dijLadder_edge {m u v c : Nat} (h : (v, c) ∈ (dijLadder m).getD u []) : u = 0 ∧ v = 1 ∧ c ≤ m := by
  rcases u with _ | _ | u
  · simp only [dijLadder, List.getD_cons_zero, List.mem_map, Prod.mk.injEq] at h
    obtain ⟨i, -, rfl, rfl⟩ := h
    exact ⟨rfl, rfl, by omega⟩
  · simp [dijLadder] at h
  · simp [dijLadder] at h

theorem dijLadder_ok {m : Nat} (hm : m < 2 ^ 64) : ¬ LeavesGraph (dijLadder m) 0 ∧ ¬ DistOverflow (dijLadder m) 0 := by
  constructor
  · rintro ⟨u, d, v, c, -, he, hv⟩
    have := (dijLadder_edge he).2.1
    simp only [dijLadder, List.length_cons, List.length_nil] at hv
    omega
  · rintro ⟨u, d, v, c, hd, he, hv⟩
    obtain ⟨rfl, rfl, hc⟩ := dijLadder_edge he
    have := hd.2 0 .nil
    omega

/-- C70: the bounds are attained, for every number of edges. -/
theorem C70_attained {m : Nat} (h1 : 1 ≤ m) (hm : m < 2 ^ 64) :
    ∃ dis w, dijkstraCost B (dijLadder m) 0 = ok (dis, w) ∧ w.looks = m ∧ w.pushes = m + 1 ∧ w.peak = m := by
  obtain ⟨dis, w, h2, -, -, -, -, -, h3, -, -, h4, h5⟩ :=
    C70_work (B := B) (g := dijLadder m) (s := 0) (by simp [dijLadder]) (dijLadder_ok hm).1 (dijLadder_ok hm).2
  obtain ⟨h6, h7⟩ := dijLadder_post (B := B) m _ h2
  simp only at h6 h7
  have h8 : ((dijLadder m).map List.length).sum = m := by simp [dijLadder]
  exact ⟨dis, w, h2, by omega, by omega, by omega⟩

/-- The graph of `Props/Dijkstra.lean`: vertex 1 is pushed three times. -/
example : dijkstraCost (listHeap _) dijkstraExample 0 =
    ok ([some 0, some 3, some 1, none], ⟨[(1, 3), (2, 1), (0, 0)], 7, 5, 5, 3⟩) := by
  decide +kernel

end Verif.Props
