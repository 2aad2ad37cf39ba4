import Mathlib.Algebra.BigOperators.Group.Finset.Basic
import Mathlib.Data.Multiset.Count
import Mathlib.Tactic.Linarith
import Verif.Model.Dijkstra
import Verif.Spec.Dijkstra
import Verif.Proof.MinHeap
/-! Correctness of the `dijkstra` model. -/
namespace Verif.DijkstraP
open Res Model Spec HeapP

variable {B : BinaryHeap (Nat ×ₗ Nat)ᵒᵈ} {g : List (List (Nat × Nat))} {s : Nat}

/-- Loop invariant. `F` is the set of expanded vertices, `W` the last popped key, `R u` the edges
of `u` relaxed so far. -/
structure Inv (g : List (List (Nat × Nat))) (s : Nat) (F : Finset Nat) (W : Nat)
    (R : Nat → List (Nat × Nat)) (dis : List (Option Nat)) (h : Multiset (Nat ×ₗ Nat)) :
    Prop where
  len : dis.length = g.length
  walk : ∀ v d, dis.getD v none = some d → Walk g s v d
  src : dis.getD s none = some 0
  heap : ∀ k v, toLex (k, v) ∈ h → W ≤ k ∧ ∃ d, dis.getD v none = some d ∧ d ≤ k
  cnt : ∀ v d, dis.getD v none = some d → h.count (toLex (d, v)) = if v ∈ F then 0 else 1
  done : ∀ u ∈ F, u < g.length ∧ ∃ d, dis.getD u none = some d ∧ d ≤ W ∧
    ∀ e ∈ R u, d + e.2 < 2 ^ 64 ∧ ∃ d', dis.getD e.1 none = some d' ∧ d' ≤ d + e.2

theorem Inv.bound {F : Finset Nat} {W : Nat} {dis : List (Option Nat)}
    {h : Multiset (Nat ×ₗ Nat)} (hi : Inv g s F W (fun u => g.getD u []) dis h) {d : Nat}
    (hd : ∀ k v, toLex (k, v) ∈ h → d ≤ k) {v w : Nat} (hw : Walk g s v w) :
    (v ∈ F ∧ ∃ x, dis.getD v none = some x ∧ x ≤ w) ∨ d ≤ w := by
  have key : ∀ v x, dis.getD v none = some x → v ∈ F ∨ d ≤ x := by
    intro v x hx
    by_cases hv : v ∈ F
    · exact .inl hv
    · right
      have := hi.cnt v x hx
      rw [if_neg hv] at this
      exact hd x v (Multiset.count_pos.1 (by omega))
  induction hw with
  | nil =>
    rcases key s 0 hi.src with h1 | h1
    · exact .inl ⟨h1, 0, hi.src, Nat.le_refl _⟩
    · exact .inr h1
  | @snoc u v w c _ he ih =>
    rcases ih with ⟨h1, x, hx, hxw⟩ | h1
    · obtain ⟨_, x', hx', _, hr⟩ := hi.done u h1
      rw [hx] at hx'; cases hx'
      obtain ⟨_, y, hy, hyx⟩ := hr _ he
      simp only at hy hyx
      rcases key v y hy with h2 | h2
      · exact .inl ⟨h2, y, hy, by omega⟩
      · exact .inr (by omega)
    · exact .inr (by omega)

theorem getD_lt {dis : List (Option Nat)} {v d : Nat} (h : dis.getD v none = some d) :
    v < dis.length := by
  by_contra hv
  rw [List.getD_eq_getElem?_getD, List.getElem?_eq_none (by omega)] at h
  simp at h

theorem getD_some {dis : List (Option Nat)} {v : Nat} (h : v < dis.length) :
    dis[v]? = some (dis.getD v none) := by
  rw [List.getD_eq_getElem?_getD]
  simp [h]

theorem getD_set {dis : List (Option Nat)} {v : Nat} {x : Option Nat} (hv : v < dis.length)
    (w : Nat) : (dis.set v x).getD w none = if w = v then x else dis.getD w none := by
  simp only [List.getD_eq_getElem?_getD, List.getElem?_set]
  by_cases h : v = w
  · subst h; simp [hv]
  · simp [h, Ne.symm h]

/-- The degree of a vertex. -/
def deg (g : List (List (Nat × Nat))) (u : Nat) : Nat := (g.getD u []).length

/-- Edges not yet looked at. -/
def rest (g : List (List (Nat × Nat))) (F : Finset Nat) : Nat :=
  ∑ u ∈ Finset.range g.length \ F, deg g u

theorem rest_empty (g : List (List (Nat × Nat))) : rest g ∅ = (g.map List.length).sum := by
  unfold rest
  rw [Finset.sdiff_empty]
  induction g using List.reverseRecOn with
  | nil => rfl
  | append_singleton g x ih =>
    rw [List.length_append, List.length_singleton, Finset.sum_range_succ, List.map_append,
      List.sum_append, ← ih]
    congr 1
    · apply Finset.sum_congr rfl
      intro u hu
      unfold deg
      simp only [List.getD_eq_getElem?_getD]
      rw [List.getElem?_append_left (Finset.mem_range.1 hu)]
    · simp [deg, List.getD_eq_getElem?_getD]

theorem rest_insert {g : List (List (Nat × Nat))} {F : Finset Nat} {u : Nat} (hu : u < g.length)
    (hF : u ∉ F) : rest g (insert u F) + deg g u = rest g F := by
  unfold rest
  rw [Finset.sdiff_insert]
  exact Finset.sum_erase_add _ _ (by simp [hu, hF])

theorem dijkstra_satOr (hs : s < g.length) :
    SatOr (DistOverflow g s ∨ LeavesGraph g s) (dijkstra B g s) (fun dis => dis.length = g.length ∧
      (∀ v, v < g.length → dis.getD v none = none → ∀ d, ¬ Walk g s v d) ∧
      (∀ v d, dis.getD v none = some d → IsDist g s v d ∧
        ∀ e ∈ g.getD v [], d + e.2 < 2 ^ 64 ∧ e.1 < g.length)) := by
  unfold dijkstra
  simp only []
  refine satOr_bind ?_
  have hs' : s < (List.replicate g.length (none : Option Nat)).length := by simpa using hs
  rw [upd_of_lt hs']
  simp only [satOr_ok]
  refine loop_satOrG
    (fun (st : List (Option Nat) × MinHeap B) k => ∃ F W,
      Inv g s F W (fun u => g.getD u []) st.1 (heapItems st.2) ∧
      (heapItems st.2).card + rest g F ≤ k) _ ?_ _ _
      ((g.map List.length).sum + 1) ?_ (by omega)
  · rintro ⟨dis, q⟩ k ⟨F, W, hi, hk⟩
    simp only at hi hk ⊢
    obtain ⟨hp1, -, hp2⟩ := heap_pop q
    rcases hq : q.pop with ⟨o, q'⟩
    rw [hq] at hp1 hp2
    simp only at hp1 hp2
    cases o with
    | none =>
      simp only [satOr_ok]
      simp only at hp2
      have hF : ∀ v w, Walk g s v w → v ∈ F ∧ ∃ x, dis.getD v none = some x ∧ x ≤ w := by
        intro v w hw
        rcases hi.bound (d := w + 1) (by rw [hp2]; simp) hw with h | h
        · exact h
        · omega
      refine ⟨hi.len, ?_, ?_⟩
      · intro v hv hn d hw
        obtain ⟨_, x, hx, _⟩ := hF v d hw
        rw [hn] at hx; simp at hx
      · intro v d hd
        obtain ⟨hvF, _⟩ := hF v d (hi.walk v d hd)
        obtain ⟨_, d', hd', _, hr⟩ := hi.done v hvF
        rw [hd] at hd'; cases hd'
        refine ⟨⟨hi.walk v d hd, ?_⟩, fun e he => ⟨(hr e he).1, ?_⟩⟩
        rotate_left
        · obtain ⟨_, x, hx, _⟩ := hr e he
          rw [← hi.len]; exact getD_lt hx
        intro w hw
        obtain ⟨_, x, hx, hxw⟩ := hF v w hw
        rw [hd] at hx; cases hx
        exact hxw
    | some x =>
      rcases hx : ofLex x with ⟨d, u⟩
      have hx' : x = toLex (d, u) := by rw [← hx]; rfl
      subst hx'
      simp only at hp2 ⊢
      obtain ⟨hmem, hmin⟩ := hp1
      have hmin' : ∀ k v, toLex (k, v) ∈ heapItems q → d ≤ k := by
        intro k v hkv
        have := hmin _ hkv
        rw [Prod.Lex.toLex_le_toLex] at this
        rcases this with h | h
        · exact Nat.le_of_lt h
        · exact Nat.le_of_eq h.1
      obtain ⟨hWd, du, hdu, hdud⟩ := hi.heap d u hmem
      have hul : u < dis.length := getD_lt hdu
      refine satOr_bind ?_
      rw [ofLex_toLex]
      simp only []
      rw [idx_of_some (getD_some hul), satOr_ok, hdu]
      have hcard : (heapItems q).card = (heapItems q').card + 1 := by rw [hp2]; simp
      have hsub : ∀ y, y ∈ heapItems q' → y ∈ heapItems q := by
        intro y hy; rw [hp2]; exact Multiset.mem_cons_of_mem hy
      by_cases hne : d = du
      · subst hne
        simp only [ne_eq, not_true_eq_false, if_false]
        have hug : u < g.length := by rw [← hi.len]; exact hul
        have hgu : g[u]? = some (g.getD u []) := by
          rw [List.getD_eq_getElem?_getD]; simp [hug]
        refine satOr_bind ?_
        rw [idx_of_some hgu, satOr_ok]
        have huF : u ∉ F := by
          intro huF
          have := hi.cnt u d hdu
          rw [if_pos huF] at this
          have := Multiset.count_pos.2 hmem
          omega
        have hdist : IsDist g s u d := by
          refine ⟨hi.walk u d hdu, fun w hw => ?_⟩
          rcases hi.bound hmin' hw with h | h
          · exact absurd h.1 huF
          · exact h
        have hrest := rest_insert hug huF
        refine satOr_bind (SatOr.mono (P := fun st : List (Option Nat) × MinHeap B =>
          Inv g s (insert u F) d (fun u => g.getD u []) st.1 (heapItems st.2) ∧
            (heapItems st.2).card ≤ (heapItems q').card + (g.getD u []).length) ?_ ?_)
        · have := forList_satOr (b := DistOverflow g s ∨ LeavesGraph g s) (f := fun (p : Nat × Nat)
              (st : List (Option Nat) × MinHeap B) => (do
            let (v, c) := p
            let (dis, q) := st
            let dv ← idx dis v
            let better ← (if dv.isNone then ok true else do
              let x ← unwrap dv
              let dc ← addU 64 d c
              ok (decide (x > dc)) : Res Bool)
            if better then do
              let dc ← addU 64 d c
              let dis ← upd dis v (some dc)
              let dc ← addU 64 d c
              ok (dis, q.push (toLex (dc, v)))
            else ok (dis, q) : Res (List (Option Nat) × MinHeap B)))
            (I := fun pre st => Inv g s (insert u F) d (Function.update (fun u => g.getD u []) u pre)
              st.1 (heapItems st.2) ∧ st.1.getD u none = some d ∧
              (heapItems st.2).card ≤ (heapItems q').card + pre.length) (g.getD u []) []
              (dis, q') ?_ ?_
          · refine this.mono ?_
            rintro st ⟨h1, -, h2⟩
            refine ⟨?_, by simpa using h2⟩
            simpa using h1
          · refine ⟨⟨hi.len, hi.walk, hi.src, ?_, ?_, ?_⟩, hdu, by simp⟩
            · intro k v hkv
              exact ⟨hmin' k v (hsub _ hkv), (hi.heap k v (hsub _ hkv)).2⟩
            · intro v dv hdv
              have h1 := hi.cnt v dv hdv
              have h2 : (heapItems q).count (toLex (dv, v)) = (heapItems q').count (toLex (dv, v)) +
                  if toLex (dv, v) = toLex (d, u) then 1 else 0 := by
                rw [hp2, Multiset.count_cons]
              by_cases hvu : v = u
              · subst hvu
                rw [hdu] at hdv; cases hdv
                rw [if_neg huF] at h1
                rw [if_pos rfl] at h2
                rw [if_pos (by simp)]
                show (heapItems q').count (toLex (d, v)) = 0
                omega
              · have : toLex (dv, v) ≠ toLex (d, u) := by
                  intro h; exact hvu (congrArg Prod.snd (toLex.injective h))
                rw [if_neg this] at h2
                simp only [Finset.mem_insert, hvu, false_or]
                omega
            · intro v hv
              by_cases hvu : v = u
              · subst hvu
                exact ⟨hug, d, hdu, Nat.le_refl _, by simp⟩
              · have hvF : v ∈ F := by simpa [hvu] using hv
                obtain ⟨h1, dv, h2, h3, h4⟩ := hi.done v hvF
                refine ⟨h1, dv, h2, by omega, ?_⟩
                simpa [hvu] using h4
          · rintro pre ⟨v, c⟩ post ⟨dis1, q1⟩ hpre ⟨hj, hjd, hjc⟩
            simp only at hj hjd hjc ⊢
            have hmem_e : (v, c) ∈ g.getD u [] := by
              rw [List.nil_append] at hpre; rw [hpre]; simp
            by_cases hvg : v < g.length
            swap
            · have hb : DistOverflow g s ∨ LeavesGraph g s :=
                .inr ⟨u, d, v, c, hdist.1, hmem_e, Nat.not_lt.1 hvg⟩
              rw [idx_panic (by rw [hj.len]; omega)]
              simpa using satOr_panic hb
            have hvl : v < dis1.length := by rw [hj.len]; exact hvg
            by_cases hov : 2 ^ 64 ≤ d + c
            · have hb : DistOverflow g s ∨ LeavesGraph g s :=
                .inl ⟨u, d, v, c, hdist, hmem_e, hov⟩
              have hpan : addU 64 d c = .panic := if_neg (Nat.not_lt.2 hov)
              rw [idx_of_some (getD_some hvl)]
              cases hdv : dis1.getD v none with
              | none =>
                simpa [hpan] using satOr_panic hb
              | some dv =>
                simpa [hpan] using satOr_panic hb
            · have hadd : addU 64 d c = .ok (d + c) := addU_of_lt (by omega)
              rw [idx_of_some (getD_some hvl)]
              have hbetter : ∀ x : Option Nat, (if x.isNone = true then ok true else do
                  let x ← unwrap x
                  ok (decide (x > d + c)) : Res Bool) = ok (x.all (d + c < ·)) := by
                intro x
                cases x <;> simp
              have hall : (dis1.getD v none).all (d + c < ·) = true ↔
                  ∀ y, dis1.getD v none = some y → d + c < y := by
                cases dis1.getD v none <;> simp
              simp only [ok_bind, hadd, hbetter, hall]
              by_cases hlt : ∀ y, dis1.getD v none = some y → d + c < y
              · rw [if_pos hlt, upd_of_lt hvl]
                simp only [ok_bind, satOr_ok]
                have hgs := getD_set (x := some (d + c)) hvl
                have hvu : v ≠ u := by
                  rintro rfl
                  have := hlt _ hjd
                  omega
                have hvs : v ≠ s := by
                  rintro rfl
                  have := hlt _ hj.src
                  omega
                have hvF : v ∉ insert u F := by
                  intro hvF
                  obtain ⟨_, x, hx, hxd, _⟩ := hj.done v hvF
                  have := hlt _ hx
                  omega
                refine ⟨⟨by simp [hj.len], ?_, ?_, ?_, ?_, ?_⟩, ?_, ?_⟩
                · intro w x hx
                  rw [hgs] at hx
                  by_cases hwv : w = v
                  · subst hwv
                    rw [if_pos rfl] at hx; cases hx
                    exact .snoc hdist.1 hmem_e
                  · rw [if_neg hwv] at hx
                    exact hj.walk w x hx
                · rw [hgs, if_neg (Ne.symm hvs)]; exact hj.src
                · intro k w hkw
                  rw [heap_push, Multiset.mem_cons] at hkw
                  rw [hgs]
                  rcases hkw with hkw | hkw
                  · have := toLex.injective hkw
                    cases this
                    exact ⟨by omega, d + c, by simp, Nat.le_refl _⟩
                  · obtain ⟨h1, x, hx, hxk⟩ := hj.heap k w hkw
                    refine ⟨h1, ?_⟩
                    by_cases hwv : w = v
                    · subst hwv
                      have := hlt x hx
                      exact ⟨d + c, by simp, by omega⟩
                    · exact ⟨x, by rw [if_neg hwv]; exact hx, hxk⟩
                · intro w x hx
                  rw [hgs] at hx
                  rw [heap_push, Multiset.count_cons]
                  by_cases hwv : w = v
                  · subst hwv
                    rw [if_pos rfl] at hx; cases hx
                    rw [if_pos rfl, if_neg hvF]
                    have : Multiset.count (toLex (d + c, w)) (heapItems q1) = 0 := by
                      rw [Multiset.count_eq_zero]
                      intro hm
                      obtain ⟨_, y, hy, hyk⟩ := hj.heap _ _ hm
                      have := hlt y hy
                      omega
                    omega
                  · rw [if_neg hwv] at hx
                    have : toLex (x, w) ≠ toLex (d + c, v) := by
                      intro h; exact hwv (congrArg Prod.snd (toLex.injective h))
                    rw [if_neg this]
                    exact hj.cnt w x hx
                · intro w hw
                  obtain ⟨h1, x, h2, h3, h4⟩ := hj.done w hw
                  have hwv : w ≠ v := fun h => hvF (h ▸ hw)
                  refine ⟨h1, x, by rw [hgs, if_neg hwv]; exact h2, h3, ?_⟩
                  intro e he
                  have hold : e ∈ Function.update (fun u => g.getD u []) u pre w ∨
                      (w = u ∧ e = (v, c)) := by
                    by_cases hwu : w = u
                    · subst hwu
                      simp only [Function.update_self, List.mem_append, List.mem_singleton] at he ⊢
                      rcases he with he | he
                      · exact .inl he
                      · exact .inr ⟨trivial, he⟩
                    · simp only [ne_eq, hwu, not_false_eq_true, Function.update_of_ne] at he ⊢
                      exact .inl he
                  rcases hold with he | ⟨rfl, rfl⟩
                  · obtain ⟨h5, y, h6, h7⟩ := h4 e he
                    refine ⟨h5, ?_⟩
                    rw [hgs]
                    by_cases hev : e.1 = v
                    · have := hlt y (hev ▸ h6)
                      exact ⟨d + c, by rw [if_pos hev], by omega⟩
                    · exact ⟨y, by rw [if_neg hev]; exact h6, h7⟩
                  · rw [hjd] at h2; cases h2
                    exact ⟨by omega, d + c, by rw [hgs, if_pos rfl], Nat.le_refl _⟩
                · rw [hgs, if_neg (Ne.symm hvu)]; exact hjd
                · rw [heap_push, Multiset.card_cons, List.length_append, List.length_singleton]
                  omega
              · rw [if_neg hlt]
                simp only [satOr_ok]
                simp only [not_forall, Nat.not_lt, exists_prop] at hlt
                obtain ⟨y, hy, hyle⟩ := hlt
                refine ⟨⟨hj.len, hj.walk, hj.src, hj.heap, hj.cnt, ?_⟩, hjd, ?_⟩
                · intro w hw
                  obtain ⟨h1, x, h2, h3, h4⟩ := hj.done w hw
                  refine ⟨h1, x, h2, h3, ?_⟩
                  intro e he
                  have hold : e ∈ Function.update (fun u => g.getD u []) u pre w ∨
                      (w = u ∧ e = (v, c)) := by
                    by_cases hwu : w = u
                    · subst hwu
                      simp only [Function.update_self, List.mem_append, List.mem_singleton] at he ⊢
                      rcases he with he | he
                      · exact .inl he
                      · exact .inr ⟨trivial, he⟩
                    · simp only [ne_eq, hwu, not_false_eq_true, Function.update_of_ne] at he ⊢
                      exact .inl he
                  rcases hold with he | ⟨rfl, rfl⟩
                  · exact h4 e he
                  · rw [hjd] at h2; cases h2
                    exact ⟨by omega, y, hy, hyle⟩
                · rw [List.length_append, List.length_singleton]; omega
        · rintro st ⟨h1, h2⟩
          simp only [satOr_ok]
          refine ⟨k - 1, ?_, insert u F, d, h1, ?_⟩
          · omega
          · unfold deg at hrest; omega
      · have hne' : ¬ (some d = some du) := by simpa using hne
        rw [if_pos hne']
        simp only [satOr_ok]
        refine ⟨k - 1, by omega, F, W, ⟨hi.len, hi.walk, hi.src, ?_, ?_, hi.done⟩, by omega⟩
        · intro k v hkv
          exact hi.heap k v (hsub _ hkv)
        · intro v dv hdv
          have h1 := hi.cnt v dv hdv
          have : toLex (dv, v) ≠ toLex (d, u) := by
            intro h
            have := toLex.injective h
            cases this
            rw [hdu] at hdv; cases hdv
            exact hne rfl
          rw [hp2, Multiset.count_cons, if_neg this] at h1
          exact h1
  · refine ⟨∅, 0, ⟨by simp, ?_, ?_, ?_, ?_, by simp⟩, ?_⟩
    · intro v d hd
      simp only at hd
      rw [getD_set hs'] at hd
      by_cases hv : v = s
      · subst hv; rw [if_pos rfl] at hd; cases hd; exact .nil
      · rw [if_neg hv] at hd
        simp [List.getD_eq_getElem?_getD, List.getElem?_replicate] at hd
        split at hd <;> simp at hd
    · simp only; rw [getD_set hs']; simp
    · intro k v hkv
      rw [heap_push, heap_new] at hkv
      have : toLex (k, v) = toLex (0, s) := by simpa using hkv
      cases toLex.injective this
      exact ⟨Nat.le_refl _, 0, by simp only; rw [getD_set hs']; simp, Nat.le_refl _⟩
    · intro v d hd
      simp only at hd
      rw [getD_set hs'] at hd
      by_cases hv : v = s
      · subst hv; rw [if_pos rfl] at hd; cases hd
        rw [heap_push, heap_new]; simp
      · rw [if_neg hv] at hd
        simp [List.getD_eq_getElem?_getD, List.getElem?_replicate] at hd
        split at hd <;> simp at hd
    · rw [rest_empty, heap_push, heap_new]; simp; omega

end Verif.DijkstraP
