import Verif.Proof.CostDinic
import Verif.Proof.DinicDfs
/-! Runs of the flow algorithm on networks that differ in capacities that are not positive. -/
namespace Verif.DinicNeg
open Res Model DinicP

variable {ty : IntTy} {C : Nat → Prop}

/-- The same edges, except that those in `C` have some capacities that are not positive. -/
structure ERel (C : Nat → Prop) (l m : List FEdge) : Prop where
  len : l.length = m.length
  even : l.length % 2 = 0
  rel : ∀ (i : Nat) (a b : FEdge), l[i]? = some a → m[i]? = some b →
    a.to = b.to ∧ (C i → a.cap ≤ 0 ∧ b.cap ≤ 0) ∧ (¬ C i → a.cap = b.cap)

/-- The same states but for edges in `C`. -/
structure NR (C : Nat → Prop) (d d' : Dinic) : Prop where
  n : d.n = d'.n
  g : d.g = d'.g
  cur : d.cur = d'.cur
  h : d.h = d'.h
  e : ERel C d.e d'.e

theorem idx_sim {l m : List FEdge} (h : ERel C l m) (i : Nat) :
    Sim False False (fun a b => a.to = b.to ∧ (C i → a.cap ≤ 0 ∧ b.cap ≤ 0) ∧ (¬ C i → a.cap = b.cap))
      (idx l i) (idx m i) := by
  by_cases hi : i < l.length
  · have hi' : i < m.length := h.len ▸ hi
    rw [idx_of_lt hi, idx_of_lt hi']
    exact sim_ok (h.rel i _ _ (List.getElem?_eq_getElem hi) (List.getElem?_eq_getElem hi'))
  · rw [idx_panic (Nat.le_of_not_lt hi), idx_panic (h.len ▸ Nat.le_of_not_lt hi)]
    exact sim_panic

theorem upd_sim {l m : List FEdge} (h : ERel C l m) {i : Nat} (hi : ¬ C i) {a b : FEdge} (hab : a = b) :
    Sim False False (ERel C) (upd l i a) (upd m i b) := by
  subst hab
  by_cases hl : i < l.length
  · rw [upd_of_lt hl, upd_of_lt (h.len ▸ hl)]
    refine sim_ok ⟨by simp [h.len], by rw [List.length_set]; exact h.even, ?_⟩
    intro j x y hx hy
    rw [List.getElem?_set] at hx hy
    by_cases e : i = j
    · subst e
      rw [if_pos rfl] at hx hy
      rw [if_pos hl] at hx
      rw [if_pos (h.len ▸ hl)] at hy
      cases hx; cases hy
      exact ⟨rfl, fun hc => (hi hc).elim, fun _ => rfl⟩
    · rw [if_neg e] at hx hy
      exact h.rel j x y hx hy
  · rw [upd_panic (Nat.le_of_not_lt hl), upd_panic (h.len ▸ Nat.le_of_not_lt hl)]
    exact sim_panic

theorem pos_iff {a b : FEdge} {i : Nat} (h : a.to = b.to ∧ (C i → a.cap ≤ 0 ∧ b.cap ≤ 0) ∧ (¬ C i → a.cap = b.cap)) :
    (0 < a.cap ↔ 0 < b.cap) ∧ (0 < a.cap → ¬ C i ∧ a = b) := by
  obtain ⟨h1, h2, h3⟩ := h
  by_cases hc : C i
  · have := h2 hc
    exact ⟨by omega, fun h => by omega⟩
  · have := h3 hc
    refine ⟨by omega, fun h => ⟨hc, ?_⟩⟩
    cases a; cases b; simp only at *; subst h1; subst this; rfl

theorem bfs_sim {d d' : Dinic} (h : NR C d d') (s t : Nat) :
    Sim False False (fun a b => NR C a.1 b.1 ∧ a.2 = b.2) (d.bfs s t) (d'.bfs s t) := by
  unfold Dinic.bfs
  rw [← h.h, ← h.n, ← h.g]
  refine sim_bind sim_refl ?_
  rintro hh _ rfl
  refine sim_bind (Q := Eq) (sim_loop (Q := Eq) rfl ?_) ?_
  · rintro ⟨hh, q⟩ _ rfl
    cases q with
    | nil => exact sim_ok rfl
    | cons u q =>
      simp only
      refine sim_bind sim_refl ?_
      rintro gu _ rfl
      refine sim_bind (sim_forBrk (Q := Eq) (P := Eq) rfl ?_) ?_
      · rintro i ⟨hh, q⟩ _ rfl
        simp only
        refine sim_bind (idx_sim h.e i) ?_
        rintro e e' he
        obtain ⟨h1, h2⟩ := pos_iff he
        rw [← he.1]
        refine sim_bind (Q := Eq) ?_ ?_
        · by_cases hp : 0 < e.cap
          · rw [if_pos hp, if_pos (h1.1 hp)]; exact sim_refl
          · rw [if_neg hp, if_neg fun k => hp (h1.2 k)]; exact sim_ok rfl
        rintro b _ rfl
        cases b
        · simp only [Bool.false_eq_true, if_false]
          exact sim_ok rfl
        · simp only [if_true]
          refine sim_bind sim_refl ?_
          rintro hu _ rfl
          refine sim_bind sim_refl ?_
          rintro hv _ rfl
          refine sim_bind sim_refl ?_
          rintro h _ rfl
          exact sim_ite (sim_ok rfl) (sim_ok rfl)
      · rintro (⟨h1, q1⟩ | h1) (⟨h2, q2⟩ | h2) hc
        · cases hc; exact sim_ok rfl
        · exact hc.elim
        · exact hc.elim
        · cases hc; exact sim_ok rfl
  · rintro ⟨h1, b1⟩ _ rfl
    exact sim_ok ⟨⟨rfl, rfl, h.cur, rfl, h.e⟩, rfl⟩

theorem dfs_sim (hC : ∀ j, C j ↔ C (j ^^^ 1)) (fuel : Nat) {d d' : Dinic} (h : NR C d d') (u t : Nat) (f : Int) :
    Sim False False (fun a b => NR C a.1 b.1 ∧ a.2 = b.2) (Dinic.dfs ty fuel d u t f) (Dinic.dfs ty fuel d' u t f) := by
  induction fuel generalizing d d' u f with
  | zero => exact sim_diverge
  | succ fuel ih =>
    unfold Dinic.dfs
    refine sim_ite (sim_ok ⟨h, rfl⟩) ?_
    rw [← h.cur, ← h.g]
    refine sim_bind sim_refl ?_
    rintro i _ rfl
    refine sim_bind sim_refl ?_
    rintro gu0 _ rfl
    refine sim_bind (Q := fun a b => NR C a.1 b.1 ∧ a.2 = b.2)
      (sim_loop (Q := fun a b => NR C a.1 b.1 ∧ a.2 = b.2) ⟨h, rfl⟩ ?_) ?_
    · rintro ⟨d, r, i⟩ ⟨d', r', i'⟩ ⟨h, e⟩
      cases e
      simp only at h ⊢
      rw [← h.g]
      refine sim_bind sim_refl ?_
      rintro gu _ rfl
      refine sim_ite ?_ (sim_ok ⟨h, rfl⟩)
      refine sim_bind sim_refl ?_
      rintro j _ rfl
      refine sim_bind (idx_sim h.e j) ?_
      rintro e e' he
      obtain ⟨h1, h2⟩ := pos_iff he
      rw [← he.1, ← h.h]
      refine sim_bind (Q := fun a b => a = b ∧ (a = true → 0 < e.cap)) ?_ ?_
      · by_cases hp : 0 < e.cap
        · rw [if_pos hp, if_pos (h1.1 hp)]; exact sim_refl.mono fun a b hab => ⟨hab, fun _ => hp⟩
        · rw [if_neg hp, if_neg fun k => hp (h1.2 k)]; exact sim_ok ⟨rfl, fun h => by cases h⟩
      rintro go _ ⟨rfl, hgo⟩
      refine sim_bind (Q := fun a b => NR C a.1 b.1 ∧ a.2 = b.2) ?_ ?_
      · cases go
        · exact sim_ok ⟨h, rfl⟩
        · obtain ⟨hj, rfl⟩ := h2 (hgo rfl)
          have hj' : ¬ C (j ^^^ 1) := fun k => hj ((hC j).2 k)
          simp only [if_true]
          refine sim_bind (ih h _ _) ?_
          rintro ⟨d1, a⟩ ⟨d1', a'⟩ ⟨k, rfl⟩
          simp only at k ⊢
          refine sim_bind (idx_sim k.e j) ?_
          rintro e1 e1' he1
          have : e1 = e1' := by
            have := he1.2.2 hj; have := he1.1
            cases e1; cases e1'; simp only at *; subst_vars; rfl
          subst this
          refine sim_bind sim_refl ?_
          rintro c1 _ rfl
          refine sim_bind (upd_sim k.e hj rfl) ?_
          rintro es es' hes
          refine sim_bind (idx_sim hes (j ^^^ 1)) ?_
          rintro e2 e2' he2
          have : e2 = e2' := by
            have := he2.2.2 hj'; have := he2.1
            cases e2; cases e2'; simp only at *; subst_vars; rfl
          subst this
          refine sim_bind sim_refl ?_
          rintro c2 _ rfl
          refine sim_bind (upd_sim hes hj' rfl) ?_
          rintro es2 es2' hes2
          refine sim_bind sim_refl ?_
          rintro r _ rfl
          exact sim_ok ⟨⟨k.n, k.g, k.cur, k.h, hes2⟩, rfl⟩
      · rintro ⟨d1, r1, b⟩ ⟨d1', r1', b'⟩ ⟨k, e⟩
        cases e
        simp only at k ⊢
        refine sim_ite (sim_ok ⟨k, rfl⟩) ?_
        rw [← k.cur]
        refine sim_bind sim_refl ?_
        rintro cur _ rfl
        exact sim_ok ⟨⟨k.n, k.g, rfl, k.h, k.e⟩, rfl⟩
    · rintro ⟨d1, r1⟩ ⟨d1', r1'⟩ ⟨k, e⟩
      cases e
      simp only at k ⊢
      refine sim_bind sim_refl ?_
      rintro _ _ rfl
      exact sim_ok ⟨k, rfl⟩

theorem toNat_sum {l m : List FEdge} (h : ERel C l m) : (l.map fun e => e.cap.toNat) = m.map fun e => e.cap.toNat := by
  apply List.ext_getElem
  · simp [h.len]
  · intro i h1 h2
    simp only [List.length_map] at h1 h2
    simp only [List.getElem_map]
    obtain ⟨-, h3, h4⟩ := h.rel i _ _ (List.getElem?_eq_getElem h1) (List.getElem?_eq_getElem h2)
    by_cases hc : C i
    · have := h3 hc; omega
    · rw [h4 hc]

theorem getMaxFlow_sim (hC : ∀ j, C j ↔ C (j ^^^ 1)) {d d' : Dinic} (h : NR C d d') (s t : Nat) :
    Sim False False (fun a b => NR C a.1 b.1 ∧ a.2 = b.2) (d.getMaxFlow ty s t) (d'.getMaxFlow ty s t) := by
  unfold Dinic.getMaxFlow
  rw [← h.n, ← toNat_sum h.e]
  refine sim_assert fun _ => sim_assert fun _ => ?_
  refine sim_loop (Q := fun a b => NR C a.1 b.1 ∧ a.2 = b.2) ⟨h, rfl⟩ ?_
  rintro ⟨d, ans⟩ ⟨d', ans'⟩ ⟨h, e⟩
  cases e
  simp only at h ⊢
  refine sim_bind (bfs_sim h s t) ?_
  rintro ⟨d1, b⟩ ⟨d1', b'⟩ ⟨h1, e⟩
  cases e
  simp only at h1 ⊢
  refine sim_ite ?_ (sim_ok ⟨h1, rfl⟩)
  rw [← h1.n]
  refine sim_bind (dfs_sim hC _ (d := { d1 with cur := List.replicate d1.cur.length 0 })
    (d' := { n := d1.n, e := d1'.e, g := d1'.g, cur := List.replicate d1'.cur.length 0, h := d1'.h }) ⟨rfl, h1.g, by rw [h1.cur], h1.h, h1.e⟩ _ _ _) ?_
  rintro ⟨d2, a⟩ ⟨d2', a'⟩ ⟨h2, e⟩
  cases e
  simp only at h2 ⊢
  refine sim_bind sim_refl ?_
  rintro _ _ rfl
  exact sim_ok ⟨h2, rfl⟩

/-- Which edges are ignored after one more. -/
def ignored (C : Nat → Prop) (len : Nat) (c : Int) (j : Nat) : Prop := if j < len then C j else c < 0

theorem addEdge_sim {d d' : Dinic} (h : NR C d d') (u v : Nat) (c : Int) :
    Sim False False (NR (ignored C d.e.length c)) (d.addEdge u v c) (d'.addEdge u v (max 0 c)) := by
  unfold Dinic.addEdge
  rw [← h.g, ← h.e.len]
  refine sim_bind sim_refl ?_
  rintro gu _ rfl
  refine sim_bind sim_refl ?_
  rintro g _ rfl
  refine sim_bind sim_refl ?_
  rintro gv _ rfl
  simp only [List.length_append, List.length_singleton, ← h.e.len]
  refine sim_bind sim_refl ?_
  rintro g2 _ rfl
  have hev := h.e.even
  refine sim_ok ⟨h.n, rfl, h.cur, h.h, by simp [h.e.len], by
    simp only [List.length_append, List.length_singleton]; omega, ?_⟩
  intro i a b ha hb
  simp only [List.append_assoc, List.singleton_append] at ha hb
  unfold ignored
  by_cases hi : i < d.e.length
  · rw [if_pos hi]
    rw [List.getElem?_append_left hi] at ha
    rw [List.getElem?_append_left (h.e.len ▸ hi)] at hb
    exact h.e.rel i a b ha hb
  · rw [if_neg hi]
    rw [List.getElem?_append_right (by omega)] at ha
    rw [List.getElem?_append_right (by have := h.e.len; omega), ← h.e.len] at hb
    match k : i - d.e.length, ha, hb with
    | 0, ha, hb =>
      cases ha; cases hb
      exact ⟨rfl, fun hc => ⟨by simp only; omega, by simp only; omega⟩, fun hc => by simp only; omega⟩
    | 1, ha, hb =>
      cases ha; cases hb
      exact ⟨rfl, fun hc => ⟨by simp, by simp⟩, fun hc => rfl⟩
    | k + 2, ha, hb => simp at ha

theorem ignored_closed {len : Nat} {c : Int} (hl : len % 2 = 0) (hC : ∀ j, C j ↔ C (j ^^^ 1)) (j : Nat) :
    ignored C len c j ↔ ignored C len c (j ^^^ 1) := by
  unfold ignored
  have : j < len ↔ j ^^^ 1 < len := by
    rw [DinicP.xor_one]
    split <;> omega
  by_cases h : j < len
  · rw [if_pos h, if_pos (this.1 h)]; exact hC j
  · rw [if_neg h, if_neg fun k => h (this.2 k)]

end Verif.DinicNeg
