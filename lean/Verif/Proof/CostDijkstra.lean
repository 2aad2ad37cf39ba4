import Verif.Proof.Dijkstra
import Verif.Proof.CostDinic
import Verif.Model.CostDijkstra
/-! The work of `dijkstra`: the proof of `Proof/Dijkstra.lean` with the counts in the invariant. -/
namespace Verif.DijkstraP
open Res Model Spec HeapP

variable {B : BinaryHeap (Nat ×ₗ Nat)ᵒᵈ} {g : List (List (Nat × Nat))} {s : Nat}

/-- Invariant of the counts. `F` is the set of expanded vertices, `W` the last popped key, `n` the size of the heap, `x`
the number of edges of the last expanded vertex still to be looked at. -/
structure Tr (g : List (List (Nat × Nat))) (F : Finset Nat) (W : Nat) (dis : List (Option Nat)) (n x : Nat) (w : DijWork) :
    Prop where
  nodup : (w.expanded.map Prod.fst).Nodup
  fin : ∀ v, v ∈ F ↔ v ∈ w.expanded.map Prod.fst
  dis : ∀ e ∈ w.expanded, dis.getD e.1 none = some e.2
  le : ∀ e ∈ w.expanded, e.2 ≤ W
  sorted : w.expanded.Pairwise (fun a b => b.2 ≤ a.2)
  looks : w.looks + x = (w.expanded.map fun e => deg g e.1).sum
  heap : w.pushes = w.pops + n
  push : w.pushes ≤ w.looks + 1
  peak : w.peak ≤ max 1 w.looks
  exp : w.expanded.length ≤ w.pops

theorem Tr.card {F : Finset Nat} {W : Nat} {dis : List (Option Nat)} {n : Nat} {w : DijWork} (h : Tr g F W dis n 0 w) :
    max w.peak n ≤ max 1 w.looks := by
  have h1 := h.peak; have h2 := h.exp; have h3 := h.heap; have h4 := h.push; have h5 := h.looks
  by_cases hp : w.pops = 0
  · have : w.expanded = [] := List.eq_nil_of_length_eq_zero (by omega)
    rw [this] at h5
    simp only [List.map_nil, List.sum_nil] at h5
    omega
  · omega

theorem heap_len {T : Type} [LE T] {B : BinaryHeap Tᵒᵈ} (q : MinHeap B) : q.len = (heapItems q).card := by
  unfold MinHeap.len heapItems
  rw [B.len_eq]; simp

theorem sim_forList {p q : Prop} {Q : σ → τ → Prop} {f : α → σ → Res σ} {g : α → τ → Res τ}
    (hf : ∀ x s t, Q s t → Sim p q Q (f x s) (g x t)) : ∀ (l : List α) (s : σ) (t : τ), Q s t →
    Sim p q Q (forList l s f) (forList l t g) := by
  intro l
  induction l with
  | nil => intro s t h; exact sim_ok h
  | cons x xs ih =>
    intro s t h
    rw [forList_cons, forList_cons]
    exact sim_bind (hf x s t h) fun a b hab => ih a b hab

/-- Forgetting the counts gives `dijkstra`. -/
theorem dijkstraCost_sim : Sim False False (fun a b => a.1 = b) (dijkstraCost B g s) (dijkstra B g s) := by
  unfold dijkstraCost dijkstra
  refine sim_bind sim_refl ?_
  rintro dis _ rfl
  refine sim_loop (Q := fun a b => a.1 = b) rfl ?_
  rintro ⟨⟨dis, q⟩, w⟩ _ rfl
  simp only
  rcases q.pop with ⟨_ | x, q'⟩
  · exact sim_ok rfl
  simp only
  refine sim_bind sim_refl ?_
  rintro du _ rfl
  refine sim_ite (sim_ok rfl) (sim_bind sim_refl ?_)
  rintro gu _ rfl
  refine sim_bind (sim_forList ?_ gu _ _ rfl) fun a b h => sim_ok h
  rintro ⟨v, c⟩ ⟨⟨dis, q⟩, w⟩ _ rfl
  simp only
  refine sim_bind sim_refl ?_
  rintro dv _ rfl
  refine sim_bind sim_refl ?_
  rintro better _ rfl
  refine sim_ite ?_ (sim_ok rfl)
  refine sim_bind sim_refl ?_
  rintro dc _ rfl
  refine sim_bind sim_refl ?_
  rintro dis _ rfl
  refine sim_bind sim_refl ?_
  rintro dc' _ rfl
  exact sim_ok rfl

theorem dijkstraCost_fst : (dijkstraCost B g s >>= fun r => ok r.1) = dijkstra B g s := DinicP.sim_fst dijkstraCost_sim

theorem dijkstraCost_satOr (hs : s < g.length) :
    SatOr (DistOverflow g s ∨ LeavesGraph g s) (dijkstraCost B g s) (fun r => r.1.length = g.length ∧
      (∀ v, v < g.length → r.1.getD v none = none → ∀ d, ¬ Walk g s v d) ∧
      (∀ v d, r.1.getD v none = some d → IsDist g s v d ∧
        ∀ e ∈ g.getD v [], d + e.2 < 2 ^ 64 ∧ e.1 < g.length) ∧
      ∃ F W, Tr g F W r.1 0 0 r.2 ∧ ∀ v, v ∈ F ↔ ∃ d, Walk g s v d) := by
  unfold dijkstraCost
  simp only []
  refine satOr_bind ?_
  have hs' : s < (List.replicate g.length (none : Option Nat)).length := by simpa using hs
  rw [upd_of_lt hs']
  simp only [satOr_ok]
  refine loop_satOrG
    (fun (st : (List (Option Nat) × MinHeap B) × DijWork) k => ∃ F W,
      Inv g s F W (fun u => g.getD u []) st.1.1 (heapItems st.1.2) ∧
      Tr g F W st.1.1 (heapItems st.1.2).card 0 st.2 ∧
      (heapItems st.1.2).card + rest g F ≤ k) _ ?_ _ _
      ((g.map List.length).sum + 1) ?_ (by omega)
  · rintro ⟨⟨dis, q⟩, w⟩ k ⟨F, W, hi, ht, hk⟩
    simp only at hi ht hk ⊢
    have hlen : q.len = (heapItems q).card := heap_len q
    obtain ⟨hp1, -, hp2⟩ := heap_pop q
    rcases hq : q.pop with ⟨o, q'⟩
    rw [hq] at hp1 hp2
    simp only at hp1 hp2
    cases o with
    | none =>
      simp only [satOr_ok]
      simp only at hp2
      have hF : ∀ v w, Walk g s v w → v ∈ F ∧ ∃ x, dis.getD v none = some x ∧ x ≤ w := by
        intro v w hw
        rcases hi.bound (d := w + 1) (by rw [hp2]; simp) hw with h | h
        · exact h
        · omega
      refine ⟨hi.len, ?_, ?_, F, W, ?_, ?_⟩
      rotate_left 2
      · rw [hp2] at hlen ht
        refine ⟨ht.nodup, ht.fin, ht.dis, ht.le, ht.sorted, ht.looks, ht.heap, ht.push, ?_, ht.exp⟩
        have := ht.peak
        simp only [hlen, Multiset.card_zero]; omega
      · intro v
        constructor
        · intro hv
          obtain ⟨_, d, hd, _⟩ := hi.done v hv
          exact ⟨d, hi.walk v d hd⟩
        · rintro ⟨d, hd⟩; exact (hF v d hd).1
      · intro v hv hn d hw
        obtain ⟨_, x, hx, _⟩ := hF v d hw
        rw [hn] at hx; simp at hx
      · intro v d hd
        obtain ⟨hvF, _⟩ := hF v d (hi.walk v d hd)
        obtain ⟨_, d', hd', _, hr⟩ := hi.done v hvF
        rw [hd] at hd'; cases hd'
        refine ⟨⟨hi.walk v d hd, ?_⟩, fun e he => ⟨(hr e he).1, ?_⟩⟩
        rotate_left
        · obtain ⟨_, x, hx, _⟩ := hr e he
          rw [← hi.len]; exact getD_lt hx
        intro w hw
        obtain ⟨_, x, hx, hxw⟩ := hF v w hw
        rw [hd] at hx; cases hx
        exact hxw
    | some x =>
      rcases hx : ofLex x with ⟨d, u⟩
      have hx' : x = toLex (d, u) := by rw [← hx]; rfl
      subst hx'
      simp only at hp2 ⊢
      obtain ⟨hmem, hmin⟩ := hp1
      have hmin' : ∀ k v, toLex (k, v) ∈ heapItems q → d ≤ k := by
        intro k v hkv
        have := hmin _ hkv
        rw [Prod.Lex.toLex_le_toLex] at this
        rcases this with h | h
        · exact Nat.le_of_lt h
        · exact Nat.le_of_eq h.1
      obtain ⟨hWd, du, hdu, hdud⟩ := hi.heap d u hmem
      have hul : u < dis.length := getD_lt hdu
      refine satOr_bind ?_
      rw [ofLex_toLex]
      simp only []
      rw [idx_of_some (getD_some hul), satOr_ok, hdu]
      have hcard : (heapItems q).card = (heapItems q').card + 1 := by rw [hp2]; simp
      have hsub : ∀ y, y ∈ heapItems q' → y ∈ heapItems q := by
        intro y hy; rw [hp2]; exact Multiset.mem_cons_of_mem hy
      by_cases hne : d = du
      · subst hne
        simp only [ne_eq, not_true_eq_false, if_false]
        have hug : u < g.length := by rw [← hi.len]; exact hul
        have hgu : g[u]? = some (g.getD u []) := by
          rw [List.getD_eq_getElem?_getD]; simp [hug]
        refine satOr_bind ?_
        rw [idx_of_some hgu, satOr_ok]
        have huF : u ∉ F := by
          intro huF
          have := hi.cnt u d hdu
          rw [if_pos huF] at this
          have := Multiset.count_pos.2 hmem
          omega
        have hdist : IsDist g s u d := by
          refine ⟨hi.walk u d hdu, fun w hw => ?_⟩
          rcases hi.bound hmin' hw with h | h
          · exact absurd h.1 huF
          · exact h
        have hrest := rest_insert hug huF
        refine satOr_bind (SatOr.mono (P := fun st : (List (Option Nat) × MinHeap B) × DijWork =>
          Inv g s (insert u F) d (fun u => g.getD u []) st.1.1 (heapItems st.1.2) ∧
            Tr g (insert u F) d st.1.1 (heapItems st.1.2).card 0 st.2 ∧
            (heapItems st.1.2).card ≤ (heapItems q').card + (g.getD u []).length) ?_ ?_)
        · have := forList_satOr (b := DistOverflow g s ∨ LeavesGraph g s) (f := fun (p : Nat × Nat)
              (st : (List (Option Nat) × MinHeap B) × DijWork) => (do
            let (v, c) := p
            let ((dis, q), w) := st
            let w := { w with looks := w.looks + 1 }
            let dv ← idx dis v
            let better ← (if dv.isNone then ok true else do
              let x ← unwrap dv
              let dc ← addU 64 d c
              ok (decide (x > dc)) : Res Bool)
            if better then do
              let dc ← addU 64 d c
              let dis ← upd dis v (some dc)
              let dc ← addU 64 d c
              ok ((dis, q.push (toLex (dc, v))), { w with pushes := w.pushes + 1 })
            else ok ((dis, q), w) : Res ((List (Option Nat) × MinHeap B) × DijWork)))
            (I := fun pre st => Inv g s (insert u F) d (Function.update (fun u => g.getD u []) u pre)
              st.1.1 (heapItems st.1.2) ∧ st.1.1.getD u none = some d ∧
              Tr g (insert u F) d st.1.1 (heapItems st.1.2).card (deg g u - pre.length) st.2 ∧
              (heapItems st.1.2).card ≤ (heapItems q').card + pre.length) (g.getD u []) []
              ((dis, q'), (⟨(u, d) :: w.expanded, w.looks, w.pushes, w.pops + 1, max w.peak q.len⟩ : DijWork)) ?_ ?_
          · refine this.mono ?_
            rintro st ⟨h1, -, h3, h2⟩
            refine ⟨?_, ?_, by simpa using h2⟩
            · simpa using h1
            · simpa [deg] using h3
          · refine ⟨⟨hi.len, hi.walk, hi.src, ?_, ?_, ?_⟩, hdu, ?_, by simp⟩
            rotate_right
            · refine ⟨?_, ?_, ?_, ?_, ?_, ?_, ?_, ht.push, ?_, ?_⟩
              · simp only [List.map_cons, List.nodup_cons]
                exact ⟨fun h => huF ((ht.fin u).2 h), ht.nodup⟩
              · intro v
                simp only [Finset.mem_insert, List.map_cons, List.mem_cons, ht.fin v]
              · rintro e he
                rcases List.mem_cons.1 he with rfl | he
                · exact hdu
                · exact ht.dis e he
              · rintro e he
                rcases List.mem_cons.1 he with rfl | he
                · exact Nat.le_refl _
                · exact Nat.le_trans (ht.le e he) hWd
              · exact List.pairwise_cons.2 ⟨fun e he => Nat.le_trans (ht.le e he) hWd, ht.sorted⟩
              · have := ht.looks
                simp only [List.map_cons, List.sum_cons, List.length_nil]; omega
              · have := ht.heap
                simp only; omega
              · rw [hlen]; exact ht.card
              · have := ht.exp
                simp only [List.length_cons]; omega
            · intro k v hkv
              exact ⟨hmin' k v (hsub _ hkv), (hi.heap k v (hsub _ hkv)).2⟩
            · intro v dv hdv
              have h1 := hi.cnt v dv hdv
              have h2 : (heapItems q).count (toLex (dv, v)) = (heapItems q').count (toLex (dv, v)) +
                  if toLex (dv, v) = toLex (d, u) then 1 else 0 := by
                rw [hp2, Multiset.count_cons]
              by_cases hvu : v = u
              · subst hvu
                rw [hdu] at hdv; cases hdv
                rw [if_neg huF] at h1
                rw [if_pos rfl] at h2
                rw [if_pos (by simp)]
                show (heapItems q').count (toLex (d, v)) = 0
                omega
              · have : toLex (dv, v) ≠ toLex (d, u) := by
                  intro h; exact hvu (congrArg Prod.snd (toLex.injective h))
                rw [if_neg this] at h2
                simp only [Finset.mem_insert, hvu, false_or]
                omega
            · intro v hv
              by_cases hvu : v = u
              · subst hvu
                exact ⟨hug, d, hdu, Nat.le_refl _, by simp⟩
              · have hvF : v ∈ F := by simpa [hvu] using hv
                obtain ⟨h1, dv, h2, h3, h4⟩ := hi.done v hvF
                refine ⟨h1, dv, h2, by omega, ?_⟩
                simpa [hvu] using h4
          · rintro pre ⟨v, c⟩ post ⟨⟨dis1, q1⟩, w1⟩ hpre ⟨hj, hjd, hjt, hjc⟩
            simp only at hj hjd hjt hjc ⊢
            have hpl : pre.length < deg g u := by
              rw [List.nil_append] at hpre
              unfold deg; rw [hpre]; simp
            have hmem_e : (v, c) ∈ g.getD u [] := by
              rw [List.nil_append] at hpre; rw [hpre]; simp
            by_cases hvg : v < g.length
            swap
            · have hb : DistOverflow g s ∨ LeavesGraph g s :=
                .inr ⟨u, d, v, c, hdist.1, hmem_e, Nat.not_lt.1 hvg⟩
              rw [idx_panic (by rw [hj.len]; omega)]
              simpa using satOr_panic hb
            have hvl : v < dis1.length := by rw [hj.len]; exact hvg
            by_cases hov : 2 ^ 64 ≤ d + c
            · have hb : DistOverflow g s ∨ LeavesGraph g s :=
                .inl ⟨u, d, v, c, hdist, hmem_e, hov⟩
              have hpan : addU 64 d c = .panic := if_neg (Nat.not_lt.2 hov)
              rw [idx_of_some (getD_some hvl)]
              cases hdv : dis1.getD v none with
              | none =>
                simpa [hpan] using satOr_panic hb
              | some dv =>
                simpa [hpan] using satOr_panic hb
            · have hadd : addU 64 d c = .ok (d + c) := addU_of_lt (by omega)
              rw [idx_of_some (getD_some hvl)]
              have hbetter : ∀ x : Option Nat, (if x.isNone = true then ok true else do
                  let x ← unwrap x
                  ok (decide (x > d + c)) : Res Bool) = ok (x.all (d + c < ·)) := by
                intro x
                cases x <;> simp
              have hall : (dis1.getD v none).all (d + c < ·) = true ↔
                  ∀ y, dis1.getD v none = some y → d + c < y := by
                cases dis1.getD v none <;> simp
              simp only [ok_bind, hadd, hbetter, hall]
              by_cases hlt : ∀ y, dis1.getD v none = some y → d + c < y
              · rw [if_pos hlt, upd_of_lt hvl]
                simp only [ok_bind, satOr_ok]
                have hgs := getD_set (x := some (d + c)) hvl
                have hvu : v ≠ u := by
                  rintro rfl
                  have := hlt _ hjd
                  omega
                have hvs : v ≠ s := by
                  rintro rfl
                  have := hlt _ hj.src
                  omega
                have hvF : v ∉ insert u F := by
                  intro hvF
                  obtain ⟨_, x, hx, hxd, _⟩ := hj.done v hvF
                  have := hlt _ hx
                  omega
                refine ⟨⟨by simp [hj.len], ?_, ?_, ?_, ?_, ?_⟩, ?_, ?_, ?_⟩
                rotate_right 2
                · rw [heap_push, Multiset.card_cons]
                  refine ⟨hjt.nodup, hjt.fin, ?_, hjt.le, hjt.sorted, ?_, ?_, ?_, ?_, hjt.exp⟩
                  · intro e he
                    rw [hgs, if_neg]
                    · exact hjt.dis e he
                    · rintro rfl
                      exact hvF ((hjt.fin _).2 (List.mem_map_of_mem he))
                  · have := hjt.looks
                    simp only [List.length_append, List.length_singleton]; omega
                  · have := hjt.heap; simp only; omega
                  · have := hjt.push; simp only; omega
                  · have := hjt.peak; simp only; omega
                · rw [heap_push, Multiset.card_cons, List.length_append, List.length_singleton]
                  omega
                · intro w x hx
                  rw [hgs] at hx
                  by_cases hwv : w = v
                  · subst hwv
                    rw [if_pos rfl] at hx; cases hx
                    exact .snoc hdist.1 hmem_e
                  · rw [if_neg hwv] at hx
                    exact hj.walk w x hx
                · rw [hgs, if_neg (Ne.symm hvs)]; exact hj.src
                · intro k w hkw
                  rw [heap_push, Multiset.mem_cons] at hkw
                  rw [hgs]
                  rcases hkw with hkw | hkw
                  · have := toLex.injective hkw
                    cases this
                    exact ⟨by omega, d + c, by simp, Nat.le_refl _⟩
                  · obtain ⟨h1, x, hx, hxk⟩ := hj.heap k w hkw
                    refine ⟨h1, ?_⟩
                    by_cases hwv : w = v
                    · subst hwv
                      have := hlt x hx
                      exact ⟨d + c, by simp, by omega⟩
                    · exact ⟨x, by rw [if_neg hwv]; exact hx, hxk⟩
                · intro w x hx
                  rw [hgs] at hx
                  rw [heap_push, Multiset.count_cons]
                  by_cases hwv : w = v
                  · subst hwv
                    rw [if_pos rfl] at hx; cases hx
                    rw [if_pos rfl, if_neg hvF]
                    have : Multiset.count (toLex (d + c, w)) (heapItems q1) = 0 := by
                      rw [Multiset.count_eq_zero]
                      intro hm
                      obtain ⟨_, y, hy, hyk⟩ := hj.heap _ _ hm
                      have := hlt y hy
                      omega
                    omega
                  · rw [if_neg hwv] at hx
                    have : toLex (x, w) ≠ toLex (d + c, v) := by
                      intro h; exact hwv (congrArg Prod.snd (toLex.injective h))
                    rw [if_neg this]
                    exact hj.cnt w x hx
                · intro w hw
                  obtain ⟨h1, x, h2, h3, h4⟩ := hj.done w hw
                  have hwv : w ≠ v := fun h => hvF (h ▸ hw)
                  refine ⟨h1, x, by rw [hgs, if_neg hwv]; exact h2, h3, ?_⟩
                  intro e he
                  have hold : e ∈ Function.update (fun u => g.getD u []) u pre w ∨
                      (w = u ∧ e = (v, c)) := by
                    by_cases hwu : w = u
                    · subst hwu
                      simp only [Function.update_self, List.mem_append, List.mem_singleton] at he ⊢
                      rcases he with he | he
                      · exact .inl he
                      · exact .inr ⟨trivial, he⟩
                    · simp only [ne_eq, hwu, not_false_eq_true, Function.update_of_ne] at he ⊢
                      exact .inl he
                  rcases hold with he | ⟨rfl, rfl⟩
                  · obtain ⟨h5, y, h6, h7⟩ := h4 e he
                    refine ⟨h5, ?_⟩
                    rw [hgs]
                    by_cases hev : e.1 = v
                    · have := hlt y (hev ▸ h6)
                      exact ⟨d + c, by rw [if_pos hev], by omega⟩
                    · exact ⟨y, by rw [if_neg hev]; exact h6, h7⟩
                  · rw [hjd] at h2; cases h2
                    exact ⟨by omega, d + c, by rw [hgs, if_pos rfl], Nat.le_refl _⟩
                · rw [hgs, if_neg (Ne.symm hvu)]; exact hjd
              · rw [if_neg hlt]
                simp only [satOr_ok]
                simp only [not_forall, Nat.not_lt, exists_prop] at hlt
                obtain ⟨y, hy, hyle⟩ := hlt
                refine ⟨⟨hj.len, hj.walk, hj.src, hj.heap, hj.cnt, ?_⟩, hjd, ?_, ?_⟩
                rotate_right 2
                · refine ⟨hjt.nodup, hjt.fin, hjt.dis, hjt.le, hjt.sorted, ?_, hjt.heap, ?_, ?_, hjt.exp⟩
                  · have := hjt.looks
                    simp only [List.length_append, List.length_singleton]; omega
                  · have := hjt.push; simp only; omega
                  · have := hjt.peak; simp only; omega
                · rw [List.length_append, List.length_singleton]; omega
                · intro w hw
                  obtain ⟨h1, x, h2, h3, h4⟩ := hj.done w hw
                  refine ⟨h1, x, h2, h3, ?_⟩
                  intro e he
                  have hold : e ∈ Function.update (fun u => g.getD u []) u pre w ∨
                      (w = u ∧ e = (v, c)) := by
                    by_cases hwu : w = u
                    · subst hwu
                      simp only [Function.update_self, List.mem_append, List.mem_singleton] at he ⊢
                      rcases he with he | he
                      · exact .inl he
                      · exact .inr ⟨trivial, he⟩
                    · simp only [ne_eq, hwu, not_false_eq_true, Function.update_of_ne] at he ⊢
                      exact .inl he
                  rcases hold with he | ⟨rfl, rfl⟩
                  · exact h4 e he
                  · rw [hjd] at h2; cases h2
                    exact ⟨by omega, y, hy, hyle⟩
        · rintro st ⟨h1, h3, h2⟩
          simp only [satOr_ok]
          refine ⟨k - 1, ?_, insert u F, d, h1, h3, ?_⟩
          · omega
          · unfold deg at hrest; omega
      · have hne' : ¬ (some d = some du) := by simpa using hne
        rw [if_pos hne']
        simp only [satOr_ok]
        refine ⟨k - 1, by omega, F, W, ⟨hi.len, hi.walk, hi.src, ?_, ?_, hi.done⟩, ?_, by omega⟩
        rotate_right
        · have := ht.heap; have := ht.push; have := ht.peak
          refine ⟨ht.nodup, ht.fin, ht.dis, ht.le, ht.sorted, ht.looks, ?_, ht.push, ?_, ?_⟩
          · simp only; omega
          · rw [hlen]; exact ht.card
          · have := ht.exp; simp only; omega
        · intro k v hkv
          exact hi.heap k v (hsub _ hkv)
        · intro v dv hdv
          have h1 := hi.cnt v dv hdv
          have : toLex (dv, v) ≠ toLex (d, u) := by
            intro h
            have := toLex.injective h
            cases this
            rw [hdu] at hdv; cases hdv
            exact hne rfl
          rw [hp2, Multiset.count_cons, if_neg this] at h1
          exact h1
  · refine ⟨∅, 0, ⟨by simp, ?_, ?_, ?_, ?_, by simp⟩, ?_, ?_⟩
    rotate_right 2
    · rw [heap_push, heap_new]
      exact ⟨List.nodup_nil, by simp, by simp, by simp, .nil, rfl, by simp, by simp, by simp, by simp⟩
    · rw [rest_empty, heap_push, heap_new]; simp; omega
    · intro v d hd
      simp only at hd
      rw [getD_set hs'] at hd
      by_cases hv : v = s
      · subst hv; rw [if_pos rfl] at hd; cases hd; exact .nil
      · rw [if_neg hv] at hd
        simp [List.getD_eq_getElem?_getD, List.getElem?_replicate] at hd
        split at hd <;> simp at hd
    · simp only; rw [getD_set hs']; simp
    · intro k v hkv
      rw [heap_push, heap_new] at hkv
      have : toLex (k, v) = toLex (0, s) := by simpa using hkv
      cases toLex.injective this
      exact ⟨Nat.le_refl _, 0, by simp only; rw [getD_set hs']; simp, Nat.le_refl _⟩
    · intro v d hd
      simp only at hd
      rw [getD_set hs'] at hd
      by_cases hv : v = s
      · subst hv; rw [if_pos rfl] at hd; cases hd
        rw [heap_push, heap_new]; simp
      · rw [if_neg hv] at hd
        simp [List.getD_eq_getElem?_getD, List.getElem?_replicate] at hd
        split at hd <;> simp at hd

end Verif.DijkstraP
