import Verif.Spec.MatchDuality
import Verif.Props.FlowMatching
import Verif.Prelude.Post
/-! Consequences of König's theorem, and what one round of `solve` achieves. -/
namespace Verif.BipP
open Res Model Spec Finset Props FMP

theorem mem_nbrs {E : List (Nat × Nat)} {A : Finset Nat} {y : Nat} : y ∈ nbrs E A ↔ ∃ x ∈ A, (x, y) ∈ E := by
  simp only [nbrs, List.mem_toFinset, List.mem_map, List.mem_filter, decide_eq_true_eq]
  constructor
  · rintro ⟨⟨x, z⟩, ⟨h1, h2⟩, rfl⟩; exact ⟨x, h2, h1⟩
  · rintro ⟨x, h1, h2⟩; exact ⟨(x, y), ⟨h2, h1⟩, rfl⟩

theorem ore {n m k : Nat} {E : List (Nat × Nat)} (hE : ∀ e ∈ E, e.1 < n ∧ e.2 < m) (hk : IsMinCover E k) :
    (∃ A ⊆ range n, k + A.card = n + (nbrs E A).card) ∧
      ∀ A ⊆ range n, k + A.card ≤ n + (nbrs E A).card := by
  have up : ∀ A ⊆ range n, k + A.card ≤ n + (nbrs E A).card := by
    intro A hA
    have h1 := hk.2 (range n \ A) (nbrs E A) (by
      rintro ⟨x, y⟩ he
      by_cases hx : x ∈ A
      · exact .inr (mem_nbrs.2 ⟨x, hx, he⟩)
      · exact .inl (mem_sdiff.2 ⟨mem_range.2 (hE _ he).1, hx⟩))
    have h2 := card_sdiff_add_card_eq_card hA
    rw [card_range] at h2
    omega
  refine ⟨?_, up⟩
  obtain ⟨C, D, h1, h2⟩ := hk.1
  refine ⟨range n \ C, sdiff_subset, Nat.le_antisymm (up _ sdiff_subset) ?_⟩
  have h3 : nbrs E (range n \ C) ⊆ D := by
    intro y hy
    obtain ⟨x, hx, he⟩ := mem_nbrs.1 hy
    exact (h1 _ he).resolve_left (mem_sdiff.1 hx).2
  have h4 := card_le_card h3
  have h5 := le_card_sdiff C (range n)
  rw [card_range] at h5
  omega

theorem maxIndep {n m k : Nat} {E : List (Nat × Nat)} (hE : ∀ e ∈ E, e.1 < n ∧ e.2 < m) (hk : IsMinCover E k) :
    k ≤ n + m ∧ IsMaxIndep n m E (n + m - k) := by
  have hu : ∀ I J, I ⊆ range n → J ⊆ range m → IsIndep E I J → k + (I.card + J.card) ≤ n + m := by
    intro I J hI hJ h
    have h1 := hk.2 (range n \ I) (range m \ J) (by
      intro e he
      by_contra hc
      simp only [mem_sdiff, mem_range, not_or, not_and, not_not] at hc
      exact h e he ⟨hc.1 (hE e he).1, hc.2 (hE e he).2⟩)
    have h2 := card_sdiff_add_card_eq_card hI
    have h3 := card_sdiff_add_card_eq_card hJ
    rw [card_range] at h2 h3
    omega
  have h0 := hu ∅ ∅ (by simp) (by simp) (by intro e _; simp)
  refine ⟨by omega, ?_, fun I J hI hJ h => by have := hu I J hI hJ h; omega⟩
  obtain ⟨C, D, h1, h2⟩ := hk.1
  have hi : IsIndep E (range n \ C) (range m \ D) := by
    intro e he ⟨a, b⟩
    rcases h1 e he with h | h
    · exact (mem_sdiff.1 a).2 h
    · exact (mem_sdiff.1 b).2 h
  have h3 := hu _ _ sdiff_subset sdiff_subset hi
  have h5 := le_card_sdiff C (range n)
  have h6 := le_card_sdiff D (range m)
  rw [card_range] at h5 h6
  exact ⟨_, _, sdiff_subset, sdiff_subset, hi, by omega⟩

theorem indep_le_edgeCover {n m : Nat} {E F : List (Nat × Nat)} {I J : Finset Nat} (hI : I ⊆ range n)
    (hJ : J ⊆ range m) (h : IsIndep E I J) (hF : IsEdgeCover n m E F) : I.card + J.card ≤ F.length := by
  classical
  have h1 : I.card ≤ (F.toFinset.filter fun e => e.1 ∈ I).card := by
    refine (card_le_card fun x hx => ?_).trans (card_image_le (f := Prod.fst))
    obtain ⟨e, he, rfl⟩ := hF.left x (mem_range.1 (hI hx))
    exact mem_image.2 ⟨e, mem_filter.2 ⟨List.mem_toFinset.2 he, hx⟩, rfl⟩
  have h2 : J.card ≤ (F.toFinset.filter fun e => e.2 ∈ J).card := by
    refine (card_le_card fun x hx => ?_).trans (card_image_le (f := Prod.snd))
    obtain ⟨e, he, rfl⟩ := hF.right x (mem_range.1 (hJ hx))
    exact mem_image.2 ⟨e, mem_filter.2 ⟨List.mem_toFinset.2 he, hx⟩, rfl⟩
  have h3 : Disjoint (F.toFinset.filter fun e => e.1 ∈ I) (F.toFinset.filter fun e => e.2 ∈ J) := by
    rw [disjoint_left]
    intro e a b
    exact h e (hF.sub e (List.mem_toFinset.1 (mem_filter.1 a).1)) ⟨(mem_filter.1 a).2, (mem_filter.1 b).2⟩
  have h4 := card_union_of_disjoint h3
  have h5 := card_le_card (union_subset (filter_subset (fun e => e.1 ∈ I) F.toFinset)
    (filter_subset (fun e => e.2 ∈ J) F.toFinset))
  have h6 := List.toFinset_card_le F
  omega

/-- Edges for the vertices `l`, one each. -/
theorem pick_edges {E : List (Nat × Nat)} (f : Nat × Nat → Nat) : ∀ l : List Nat, (∀ x ∈ l, ∃ e ∈ E, f e = x) →
    ∃ F : List (Nat × Nat), F.length = l.length ∧ (∀ e ∈ F, e ∈ E) ∧ ∀ x ∈ l, ∃ e ∈ F, f e = x
  | [], _ => ⟨[], rfl, by simp, by simp⟩
  | x :: l, h => by
    obtain ⟨F, h1, h2, h3⟩ := pick_edges f l fun y hy => h y (List.mem_cons_of_mem _ hy)
    obtain ⟨e, he, hx⟩ := h x (List.mem_cons_self ..)
    refine ⟨e :: F, by simp [h1], ?_, ?_⟩
    · intro e' he'
      rcases List.mem_cons.1 he' with rfl | h'
      · exact he
      · exact h2 _ h'
    · intro y hy
      rcases List.mem_cons.1 hy with rfl | h'
      · exact ⟨e, List.mem_cons_self .., hx⟩
      · obtain ⟨e', a, b⟩ := h3 y h'
        exact ⟨e', List.mem_cons_of_mem _ a, b⟩

theorem rest_length {n : Nat} {l : List Nat} (hl : l.Nodup) (hn : ∀ x ∈ l, x < n) :
    ((List.range n).filter fun x => x ∉ l).length + l.length = n := by
  have h1 : ((List.range n).filter fun x => x ∈ l).length = l.length := by
    apply List.Perm.length_eq
    rw [List.perm_ext_iff_of_nodup (List.nodup_range.filter _) hl]
    intro x
    simp only [List.mem_filter, List.mem_range, decide_eq_true_eq]
    exact ⟨fun h => h.2, fun h => ⟨hn x h, h⟩⟩
  have h2 := List.length_eq_length_filter_add (l := List.range n) (fun x => decide (x ∈ l))
  rw [List.length_range, h1] at h2
  have h3 : (List.range n).filter (fun x => !decide (x ∈ l)) = (List.range n).filter fun x => x ∉ l := by
    apply List.filter_congr
    intro x _
    simp
  rw [h3] at h2
  omega

theorem minEdgeCover {n m k : Nat} {E : List (Nat × Nat)} (hE : ∀ e ∈ E, e.1 < n ∧ e.2 < m)
    (hl : ∀ x < n, ∃ e ∈ E, e.1 = x) (hr : ∀ y < m, ∃ e ∈ E, e.2 = y) (hm : IsMaxMatching E k)
    (hk : IsMinCover E k) : IsMinEdgeCover n m E (n + m - k) := by
  obtain ⟨h0, ⟨I, J, hI, hJ, hi, hc⟩, -⟩ := maxIndep hE hk
  refine ⟨?_, fun F hF => hc ▸ indep_le_edgeCover hI hJ hi hF⟩
  obtain ⟨M, hM, rfl⟩ := hm.1
  have r1 := rest_length (n := n) hM.left (by
    intro x hx
    obtain ⟨e, he, rfl⟩ := List.mem_map.1 hx
    exact (hE e (hM.sub e he)).1)
  have r2 := rest_length (n := m) hM.right (by
    intro x hx
    obtain ⟨e, he, rfl⟩ := List.mem_map.1 hx
    exact (hE e (hM.sub e he)).2)
  rw [List.length_map] at r1 r2
  obtain ⟨F1, a1, b1, c1⟩ := pick_edges Prod.fst ((List.range n).filter fun x => x ∉ M.map Prod.fst)
    fun x hx => hl x (List.mem_range.1 (List.mem_filter.1 hx).1)
  obtain ⟨F2, a2, b2, c2⟩ := pick_edges Prod.snd ((List.range m).filter fun x => x ∉ M.map Prod.snd)
    fun x hx => hr x (List.mem_range.1 (List.mem_filter.1 hx).1)
  refine ⟨M ++ F1 ++ F2, ⟨?_, ?_, ?_⟩, ?_⟩
  · intro e he
    simp only [List.mem_append] at he
    rcases he with (h | h) | h
    exacts [hM.sub e h, b1 e h, b2 e h]
  · intro x hx
    by_cases hxm : x ∈ M.map Prod.fst
    · obtain ⟨e, he, rfl⟩ := List.mem_map.1 hxm
      exact ⟨e, by simp [he], rfl⟩
    · obtain ⟨e, he, h⟩ := c1 x (List.mem_filter.2 ⟨List.mem_range.2 hx, by simpa using hxm⟩)
      exact ⟨e, by simp [he], h⟩
  · intro x hx
    by_cases hxm : x ∈ M.map Prod.snd
    · obtain ⟨e, he, rfl⟩ := List.mem_map.1 hxm
      exact ⟨e, by simp [he], rfl⟩
    · obtain ⟨e, he, h⟩ := c2 x (List.mem_filter.2 ⟨List.mem_range.2 hx, by simpa using hxm⟩)
      exact ⟨e, by simp [he], h⟩
  · rw [List.length_append, List.length_append, a1, a2]
    omega

/-! ### One round of `solve` -/

theorem satOr_post {b : Prop} {x : Res α} {P Q : α → Prop} (h : SatOr b x P) (h' : Post x Q) :
    SatOr b x fun a => P a ∧ Q a := by
  rcases h with ⟨a, e, h⟩ | h
  · exact .inl ⟨a, e, h, h' a e⟩
  · exact .inr h

/-- What `dfs u` does to `vis` and `r`. -/
structure DfsPost (u : Nat) (s : BState) (o : BState × Bool) : Prop where
  same : o.2 = false → o.1.r = s.r
  vis : ∀ x, o.1.vis.getD x false = true → s.vis.getD x false = true ∨ x = u ∨ ∃ v, s.r.getD v none = some x
  keep : ∀ v, (s.r.getD v none).isSome = true → (o.1.r.getD v none).isSome = true

theorem dfs_post {g : List (List Nat)} : ∀ (fuel u : Nat) (s : BState),
    Post (AugmentedPath.dfs fuel u g s) (DfsPost u s) := by
  intro fuel
  induction fuel with
  | zero => intro u s a e; cases e
  | succ fuel ih =>
    intro u s
    unfold AugmentedPath.dfs
    refine post_bind (post_idx.mono fun b hb => ?_)
    split
    · exact post_ok ⟨fun _ => rfl, fun x hx => .inl hx, fun _ h => h⟩
    refine post_bind (post_upd.mono ?_)
    rintro vis ⟨hu, rfl⟩
    refine post_bind (post_idx.mono fun gu _ => ?_)
    have hv : ∀ x, (s.vis.set u true).getD x false = true →
        s.vis.getD x false = true ∨ x = u ∨ ∃ v, s.r.getD v none = some x := by
      intro x hx
      rw [getD_set hu] at hx
      split at hx
      · rename_i h; exact .inr (.inl h)
      · exact .inl hx
    have hk : ∀ {v : Nat} {r : List (Option Nat)} {y : Nat}, y < r.length →
        (∀ v, (s.r.getD v none).isSome = true → (r.getD v none).isSome = true) → (s.r.getD v none).isSome = true →
        ((r.set y (some u)).getD v none).isSome = true := by
      intro v r y hy h h1
      rw [getD_set hy]
      split
      · rfl
      · exact h v h1
    refine post_bind ((post_forBrk (I := fun _ _ => True) (Q := fun s1 : BState => DfsPost u s (s1, true)) trivial
      ?_).mono ?_)
    · intro v _ _ _
      refine post_bind (post_idx.mono fun rv _ => ?_)
      split
      · refine post_bind (post_upd.mono ?_)
        rintro l ⟨-, rfl⟩
        refine post_bind (post_upd.mono ?_)
        rintro r ⟨hr, rfl⟩
        exact post_ok ⟨fun h => by simp at h, hv, fun w => hk hr fun _ h => h⟩
      · exact post_ok trivial
    · rintro (_ | s1) hc
      · simp only []
        refine post_bind ((post_forBrk (I := fun _ (s1 : BState) => s1.r = s.r ∧ ∀ x, s1.vis.getD x false = true →
          s.vis.getD x false = true ∨ x = u ∨ ∃ v, s.r.getD v none = some x)
          (Q := fun s1 : BState => DfsPost u s (s1, true)) (s := { s with vis := s.vis.set u true }) ⟨rfl, hv⟩ ?_).mono ?_)
        · rintro v _ s1 ⟨h1, h2⟩
          refine post_bind (post_idx.mono fun rv hrv => ?_)
          cases rv with
          | none => intro a e; cases e
          | some w =>
            rw [unwrap_some, ok_bind]
            rw [h1] at hrv
            have hw : s.r.getD v none = some w := by rw [List.getD_eq_getElem?_getD, hrv]; rfl
            refine post_bind ((ih w s1).mono ?_)
            rintro ⟨s2, b⟩ hd
            have hv2 : ∀ x, s2.vis.getD x false = true →
                s.vis.getD x false = true ∨ x = u ∨ ∃ v, s.r.getD v none = some x := by
              intro x hx
              rcases hd.vis x hx with h | rfl | ⟨y, hy⟩
              · exact h2 x h
              · exact .inr (.inr ⟨v, hw⟩)
              · rw [h1] at hy; exact .inr (.inr ⟨y, hy⟩)
            cases b with
            | true =>
              simp only [if_true]
              refine post_bind (post_upd.mono ?_)
              rintro l ⟨-, rfl⟩
              refine post_bind (post_upd.mono ?_)
              rintro r ⟨hr, rfl⟩
              refine post_ok ⟨fun h => by simp at h, hv2, fun w => hk hr fun y hy => hd.keep y (by rw [h1]; exact hy)⟩
            | false =>
              simp only [Bool.false_eq_true, if_false]
              exact post_ok ⟨(hd.same rfl).trans h1, hv2⟩
        · rintro (s1 | s1) hc
          · exact post_ok ⟨fun _ => hc.1, hc.2, fun v h => by rw [hc.1]; exact h⟩
          · exact post_ok hc
      · exact post_ok hc

/-- What holds in a round of `solve` that has tried the vertices below `j`. -/
structure Tried (g : List (List Nat)) (m j : Nat) (s : BState) : Prop where
  sok : SOk g m s
  vis : ∀ x, s.vis.getD x false = true → (s.l.getD x none).isSome = true ∨ x < j
  free : ∀ x < j, s.l.getD x none = none → ∀ v ∈ g.getD x [], (s.r.getD v none).isSome = true

theorem phase_tried {g : List (List Nat)} {m n : Nat} {s0 : BState} (hn : n = g.length) (h0 : SOk g m s0) :
    SatOr (RightOut g m) (AugmentedPath.phase n g s0) fun o => Tried g m n o.1 := by
  unfold AugmentedPath.phase
  simp only []
  refine (forRange_satOr (σ := BState × Bool) (fun j o => Tried g m j o.1) (Nat.zero_le _) ?_ ?_)
  · have hrep : ∀ x, (List.replicate s0.vis.length false).getD x false = false := by
      intro x
      rw [List.getD_eq_getElem?_getD, List.getElem?_replicate]
      split <;> rfl
    refine ⟨⟨by simpa using h0.vis, h0.l, h0.r, h0.mat⟩, ?_, by omega⟩
    intro x hx; rw [hrep] at hx; cases hx
  · rintro j ⟨s, found⟩ _ hj ⟨h1, h2, h3⟩
    simp only [] at h1 h2 h3 ⊢
    rw [idx_of_some (some_getD none (by rw [h1.l]; omega)), ok_bind]
    cases hlj : s.l.getD j none with
    | some w =>
      simp only [Option.isNone_some, Bool.false_eq_true, if_false, satOr_ok]
      refine ⟨h1, fun x hx => (h2 x hx).imp_right fun h => by omega, fun x hx hxn => ?_⟩
      by_cases e : x = j
      · subst e; rw [hlj] at hxn; cases hxn
      · exact h3 x (by omega) hxn
    | none =>
      simp only [Option.isNone_none, if_true]
      refine satOr_bind ?_
      refine (satOr_post (dfs_satOr (n + 1) j s h1 (by omega) ?_) (dfs_post _ _ _)).mono ?_
      · have := count_tf s.vis
        have := h1.vis
        omega
      · rintro ⟨s', b⟩ ⟨hb, hd⟩
        have hnv : s.vis.getD j false = false := by
          cases h : s.vis.getD j false with
          | false => rfl
          | true =>
            rcases h2 j h with h | h
            · rw [hlj] at h; cases h
            · omega
        cases b with
        | true =>
          simp only [if_true, Bool.or_true, satOr_ok] at hb ⊢
          have hm := hb.mat
          rw [hlj] at hm
          simp only [reduceCtorEq, if_false] at hm
          refine ⟨⟨by rw [hb.vle.1]; exact h1.vis, hb.l, hb.r, hm⟩, ?_, ?_⟩
          · intro x hx
            rcases hd.vis x hx with h | rfl | ⟨v, hv⟩
            · rcases h2 x h with h | h
              · exact .inl ((hb.some x).2 (.inl h))
              · exact .inr (by omega)
            · exact .inr (by omega)
            · refine .inl ((hb.some x).2 (.inl ?_))
              have := (h1.mat.inv x v).2 hv
              rw [this]; rfl
          · intro x hx hxn v hv
            have hxs : ¬(s'.l.getD x none).isSome = true := by rw [hxn]; simp
            rw [hb.some x] at hxs
            have hxj : x ≠ j := fun h => hxs (.inr h)
            have hxl : s.l.getD x none = none := by
              cases h : s.l.getD x none with
              | none => rfl
              | some => exact absurd (.inl (by rw [h]; rfl)) hxs
            exact hd.keep v (h3 x (by omega) hxl v hv)
        | false =>
          simp only [Bool.false_eq_true, if_false, satOr_ok] at hb ⊢
          refine ⟨⟨by rw [hb.vle.1]; exact h1.vis, by rw [hb.l]; exact h1.l,
            by rw [hb.r]; exact h1.r, by rw [hb.l, hb.r]; exact h1.mat⟩, ?_, ?_⟩
          · intro x hx
            rw [hb.l]
            rcases hd.vis x hx with h | rfl | ⟨v, hv⟩
            · rcases h2 x h with h | h
              · exact .inl h
              · exact .inr (by omega)
            · exact .inr (by omega)
            · have := (h1.mat.inv x v).2 hv
              exact .inl (by rw [this]; rfl)
          · intro x hx hxn v hv
            rw [hb.l] at hxn
            rw [hb.r]
            by_cases e : x = j
            · subst e
              obtain ⟨y, hy, -⟩ := hb.closed x hb.self hnv v hv
              rw [hy]; rfl
            · exact h3 x (by omega) hxn v hv

theorem matched_card (l : List (Option Nat)) :
    ((range l.length).filter fun x => (l.getD x none).isSome = true).card = matched l := by
  have hnd : ((List.range l.length).filter fun x => (l.getD x none).isSome).Nodup := List.Nodup.filter _ List.nodup_range
  rw [matched_eq, ← List.toFinset_card_of_nodup hnd]
  congr 1
  ext x
  simp

/-- After a round every edge has a matched end, so at least half as many pairs are matched as can be. -/
theorem tried_half {g : List (List Nat)} {m : Nat} {s : BState} (h : Tried g m g.length s)
    {E : List (Nat × Nat)} (hE : ∀ x v, (x, v) ∈ E ↔ v ∈ g.getD x []) {k : Nat} (hk : IsMaxMatching E k) :
    k ≤ 2 * matched s.l := by
  obtain ⟨M, hM, rfl⟩ := hk.1
  have hc : IsCover E ((range s.l.length).filter fun x => (s.l.getD x none).isSome = true)
      ((range s.r.length).filter fun x => (s.r.getD x none).isSome = true) := by
    rintro ⟨x, v⟩ he
    have hadj := (hE x v).1 he
    cases hl : s.l.getD x none with
    | some w => exact .inl (mem_filter.2 ⟨mem_range.2 (lt_of_getD hl), by simp only []; rw [hl]; rfl⟩)
    | none =>
      have hx : x < g.length := by
        apply Nat.lt_of_not_le
        intro h'
        rw [List.getD_eq_getElem?_getD, List.getElem?_eq_none h'] at hadj
        simp at hadj
      have h1 := h.free x hx hl v hadj
      obtain ⟨w, hw⟩ := Option.isSome_iff_exists.1 h1
      exact .inr (mem_filter.2 ⟨mem_range.2 (lt_of_getD hw), h1⟩)
  have h1 := matching_le_cover hM hc
  have h2 : ((range s.r.length).filter fun x => (s.r.getD x none).isSome = true).card ≤
      ((range s.l.length).filter fun x => (s.l.getD x none).isSome = true).card := by
    refine Finset.card_le_card_of_injOn (fun v => (s.r.getD v none).getD 0) ?_ ?_
    · intro v hv
      obtain ⟨y, hy⟩ := Option.isSome_iff_exists.1 (mem_filter.1 (Finset.mem_coe.1 hv)).2
      have h4 : s.l.getD y none = some v := (h.sok.mat.inv y v).2 hy
      rw [Finset.mem_coe, mem_filter, mem_range]
      simp only [hy, Option.getD_some]
      exact ⟨lt_of_getD h4, by rw [h4]; rfl⟩
    · intro v hv w hw hvw
      obtain ⟨y, hy⟩ := Option.isSome_iff_exists.1 (mem_filter.1 (Finset.mem_coe.1 hv)).2
      obtain ⟨z, hz⟩ := Option.isSome_iff_exists.1 (mem_filter.1 (Finset.mem_coe.1 hw)).2
      simp only [hy, hz, Option.getD_some] at hvw
      subst hvw
      have h4 := (h.sok.mat.inv y v).2 hy
      have h5 := (h.sok.mat.inv y w).2 hz
      rw [h4] at h5
      exact Option.some.inj h5
  rw [matched_card s.l] at h1 h2
  omega

end Verif.BipP
