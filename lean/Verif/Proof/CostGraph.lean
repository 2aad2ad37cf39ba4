import Verif.Model.CostGraph
import Verif.Proof.CostDijkstra
import Verif.Proof.Bipartite
import Verif.Proof.Tarjan
import Verif.Proof.EffCount
import Mathlib.Algebra.BigOperators.Group.Finset.Basic
import Mathlib.Algebra.Order.BigOperators.Group.Finset
/-! Work done by `AugmentedPath::solve` and `scc`. -/
namespace Verif.CostG
open Model Res Spec DinicP DijkstraP EffP

/-! ### A weight of the visited vertices -/

/-- Total weight of the vertices below `n` that are marked. -/
def pot (n : Nat) (w : Nat → Nat) (f : Nat → Bool) : Nat := ∑ u ∈ Finset.range n, if f u then w u else 0

theorem pot_set {n u : Nat} {w : Nat → Nat} {f f' : Nat → Bool} (hu : u < n) (h0 : f u = false) (h1 : f' u = true)
    (h : ∀ x, x ≠ u → f' x = f x) : pot n w f' = pot n w f + w u := by
  unfold pot
  have hm : u ∈ Finset.range n := Finset.mem_range.2 hu
  rw [← Finset.add_sum_erase _ _ hm, ← Finset.add_sum_erase _ (fun u => if f u then w u else 0) hm, h0, h1]
  simp only [if_true, Bool.false_eq_true, if_false, Nat.zero_add]
  rw [Nat.add_comm]
  congr 1
  apply Finset.sum_congr rfl
  intro x hx
  rw [h x (Finset.ne_of_mem_erase hx)]

theorem pot_none (n : Nat) (w : Nat → Nat) {f : Nat → Bool} (h : ∀ x, f x = false) : pot n w f = 0 := by
  unfold pot
  simp [h]

theorem pot_all {n : Nat} {w : Nat → Nat} {f : Nat → Bool} (h : ∀ x, x < n → f x = true) :
    pot n w f = ∑ u ∈ Finset.range n, w u := by
  unfold pot
  apply Finset.sum_congr rfl
  intro x hx
  rw [h x (Finset.mem_range.1 hx), if_pos rfl]

theorem pot_le (n : Nat) (w : Nat → Nat) (f : Nat → Bool) : pot n w f ≤ ∑ u ∈ Finset.range n, w u := by
  unfold pot
  apply Finset.sum_le_sum
  intro x _
  split <;> omega

/-- Number of edges out of `u`. -/
def dg (g : List (List Nat)) (u : Nat) : Nat := (g.getD u []).length

theorem sum_dg (g : List (List Nat)) : ∑ u ∈ Finset.range g.length, dg g u = (g.map List.length).sum := by
  induction g using List.reverseRecOn with
  | nil => rfl
  | append_singleton g a ih =>
    rw [List.length_append, List.length_singleton, Finset.sum_range_succ, List.map_append, List.sum_append, ← ih]
    congr 1
    · apply Finset.sum_congr rfl
      intro x hx
      rw [Finset.mem_range] at hx
      unfold dg
      rw [List.getD_eq_getElem?_getD, List.getD_eq_getElem?_getD, List.getElem?_append_left hx]
    · simp [dg]

/-! ### Forgetting the counts -/

theorem match_dfs_sim (g : List (List Nat)) : ∀ (fuel u : Nat) (s : BState) (w : MatchWork),
    Sim False False (fun a b => a.1 = b) (AugmentedPath.dfsCost fuel u g (s, w)) (AugmentedPath.dfs fuel u g s) := by
  intro fuel
  induction fuel with
  | zero => intros; exact sim_diverge
  | succ fuel ih =>
    intro u s w
    unfold AugmentedPath.dfsCost AugmentedPath.dfs
    simp only
    refine sim_bind sim_refl ?_
    rintro b _ rfl
    refine sim_ite (sim_ok rfl) ?_
    refine sim_bind sim_refl ?_
    rintro vis _ rfl
    refine sim_bind sim_refl ?_
    rintro gu _ rfl
    refine sim_bind (sim_forBrk (Q := fun _ _ => True) (P := fun (a : BState × MatchWork) b => a.1 = b) trivial ?_) ?_
    · rintro v w' _ -
      refine sim_bind sim_refl ?_
      rintro rv _ rfl
      refine sim_ite ?_ (sim_ok trivial)
      refine sim_bind sim_refl ?_
      rintro l _ rfl
      refine sim_bind sim_refl ?_
      rintro r _ rfl
      exact sim_ok rfl
    · rintro (w1 | ⟨s1, w1⟩) (u2 | s2) hc
      · simp only
        refine sim_bind (sim_forBrk (Q := fun a b => a.1 = b) (P := fun (a : BState × MatchWork) b => a.1 = b) rfl ?_) ?_
        · rintro v ⟨s, w⟩ _ rfl
          simp only
          refine sim_bind sim_refl ?_
          rintro rv _ rfl
          refine sim_bind sim_refl ?_
          rintro x _ rfl
          refine sim_bind (ih x s w) ?_
          rintro ⟨⟨s3, b3⟩, w3⟩ _ rfl
          simp only
          refine sim_ite ?_ (sim_ok rfl)
          refine sim_bind sim_refl ?_
          rintro l _ rfl
          refine sim_bind sim_refl ?_
          rintro r _ rfl
          exact sim_ok rfl
        · rintro (⟨s1, w1⟩ | ⟨s1, w1⟩) (s2 | s2) hc
          · cases hc; exact sim_ok rfl
          · exact hc.elim
          · exact hc.elim
          · cases hc; exact sim_ok rfl
      · exact hc.elim
      · exact hc.elim
      · cases hc; exact sim_ok rfl

theorem phase_sim (n : Nat) (g : List (List Nat)) (s : BState) (w : MatchWork) :
    Sim False False (fun a b => a.1 = b) (AugmentedPath.phaseCost n g s w) (AugmentedPath.phase n g s) := by
  unfold AugmentedPath.phaseCost AugmentedPath.phase
  simp only
  refine sim_forRange (Q := fun (a : (BState × Bool) × MatchWork) b => a.1 = b) rfl ?_
  rintro i ⟨⟨s, found⟩, w⟩ _ rfl
  simp only
  refine sim_bind sim_refl ?_
  rintro li _ rfl
  refine sim_ite ?_ (sim_ok rfl)
  refine sim_bind (match_dfs_sim g _ _ _ _) ?_
  rintro ⟨⟨s3, b3⟩, w3⟩ _ rfl
  exact sim_ok rfl

theorem solve_sim (t : AugmentedPath) : Sim False False (fun a b => a.1 = b) t.solveCost t.solve := by
  unfold AugmentedPath.solveCost AugmentedPath.solve
  simp only
  refine sim_bind (Q := fun a b => a.1 = b) (sim_loop (Q := fun a b => a.1 = b) rfl ?_) ?_
  · rintro ⟨s, w⟩ _ rfl
    simp only
    refine sim_bind (phase_sim _ _ _ _) ?_
    rintro ⟨⟨s, found⟩, w⟩ _ rfl
    simp only
    exact sim_ite (sim_ok rfl) (sim_ok rfl)
  · rintro ⟨s, w⟩ _ rfl
    simp only
    refine sim_bind sim_refl ?_
    rintro ret _ rfl
    exact sim_ok rfl

theorem scc_dfs_sim (g : List (List Nat)) : ∀ (fuel u : Nat) (s : SCC) (w : SccWork),
    Sim False False (fun a b => a.1 = b) (SCC.dfsCost fuel u g (s, w)) (SCC.dfs fuel u g s) := by
  intro fuel
  induction fuel with
  | zero => intros; exact sim_diverge
  | succ fuel ih =>
    intro u s w
    unfold SCC.dfsCost SCC.dfs
    simp only
    refine sim_bind sim_refl ?_
    rintro order _ rfl
    refine sim_bind sim_refl ?_
    rintro low _ rfl
    refine sim_bind sim_refl ?_
    rintro pos _ rfl
    refine sim_bind sim_refl ?_
    rintro on _ rfl
    refine sim_bind sim_refl ?_
    rintro gu _ rfl
    refine sim_bind (sim_forList (Q := fun (a : SCC × SccWork) b => a.1 = b) ?_ gu _ _ rfl) ?_
    · rintro v ⟨s, w⟩ _ rfl
      simp only
      refine sim_bind sim_refl ?_
      rintro ov _ rfl
      refine sim_bind (sim_ite (ih v s _) (sim_ok rfl)) ?_
      rintro ⟨s, w⟩ _ rfl
      simp only
      refine sim_bind sim_refl ?_
      rintro b _ rfl
      refine sim_ite ?_ (sim_ok rfl)
      refine sim_bind sim_refl ?_
      rintro lu _ rfl
      refine sim_bind sim_refl ?_
      rintro lv _ rfl
      refine sim_bind sim_refl ?_
      rintro low _ rfl
      exact sim_ok rfl
    · rintro ⟨s, w⟩ _ rfl
      simp only
      refine sim_bind sim_refl ?_
      rintro lu _ rfl
      refine sim_bind sim_refl ?_
      rintro ou _ rfl
      refine sim_ite ?_ (sim_ok rfl)
      unfold SCC.popLoopCost SCC.popLoop
      refine sim_loop (Q := fun a b => a.1 = b) rfl ?_
      rintro ⟨s, w⟩ _ rfl
      simp only
      refine sim_bind sim_refl ?_
      rintro v _ rfl
      refine sim_bind sim_refl ?_
      rintro on _ rfl
      refine sim_bind sim_refl ?_
      rintro last _ rfl
      exact sim_ite (sim_ok rfl) (sim_ok rfl)

theorem scc_sim (g : List (List Nat)) : Sim False False (fun a b => a.1 = b) (sccCost g) (scc g) := by
  unfold sccCost scc
  simp only
  refine sim_bind (sim_forRange (Q := fun (a : SCC × SccWork) b => a.1 = b) rfl ?_) ?_
  · rintro i ⟨s, w⟩ _ rfl
    simp only
    refine sim_bind sim_refl ?_
    rintro o _ rfl
    exact sim_ite (scc_dfs_sim g _ _ _ _) (sim_ok rfl)
  · rintro ⟨s, w⟩ _ rfl
    simp only
    refine sim_bind sim_refl ?_
    rintro color _ rfl
    exact sim_ok rfl

theorem sim_run {α β : Type} {x : Res (α × β)} {y : Res α} (h : Sim False False (fun a b => a.1 = b) x y) {a : α × β}
    (e : x = ok a) : y = ok a.1 := by
  rw [← sim_fst h, e]; rfl

theorem sim_back {α β : Type} {x : Res (α × β)} {y : Res α} (h : Sim False False (fun a b => a.1 = b) x y) {a : α}
    (e : y = ok a) : ∃ b, x = ok (a, b) := by
  rw [← sim_fst h] at e
  obtain ⟨⟨a', b⟩, e1, e2⟩ := bind_eq_ok.1 e
  cases e2
  exact ⟨b, e1⟩

/-! ### Work of `solve` -/

/-- Vertices visited in this round. -/
def mk (s : BState) (x : Nat) : Bool := s.vis.getD x false

/-- Work of a call, against the vertices it visits. -/
def DfsW (g : List (List Nat)) (s : BState) (w : MatchWork) (o : (BState × Bool) × MatchWork) : Prop :=
  o.2.phases = w.phases ∧ o.2.looks + pot g.length (dg g) (mk s) ≤ w.looks + pot g.length (dg g) (mk o.1.1) ∧
    o.2.calls + pot g.length (dg g) (mk s) ≤ w.calls + 1 + pot g.length (dg g) (mk o.1.1)

theorem match_dfs_post (g : List (List Nat)) : ∀ (fuel u : Nat) (s : BState) (w : MatchWork),
    Post (AugmentedPath.dfsCost fuel u g (s, w)) (DfsW g s w) := by
  intro fuel
  induction fuel with
  | zero => intro u s w a e; cases e
  | succ fuel ih =>
    intro u s w
    unfold AugmentedPath.dfsCost
    simp only
    refine post_bind (post_idx.mono fun b hb => ?_)
    refine post_ite (fun hbt => post_ok ⟨rfl, Nat.le_refl _, Nat.le_refl _⟩) fun hbf => ?_
    refine post_bind (post_upd.mono ?_)
    rintro vis ⟨hu, rfl⟩
    refine post_bind (post_idx.mono fun gu hgu => ?_)
    have hug : u < g.length := by
      rw [List.getElem?_eq_some_iff] at hgu; exact hgu.1
    have hd : dg g u = gu.length := by
      unfold dg; rw [List.getD_eq_getElem?_getD, hgu]; rfl
    have hp : pot g.length (dg g) (mk { s with vis := s.vis.set u true }) = pot g.length (dg g) (mk s) + gu.length := by
      rw [← hd]
      refine pot_set hug ?_ ?_ ?_
      · unfold mk; rw [List.getD_eq_getElem?_getD, hb]; simpa using hbf
      · unfold mk; rw [getD_set hu, if_pos rfl]
      · intro x hx; unfold mk; rw [getD_set hu, if_neg hx]
    refine post_bind ((post_forBrk (I := fun xs (w' : MatchWork) => w'.phases = w.phases ∧
      w'.calls = w.calls + 1 ∧ w'.looks + xs.length = w.looks + gu.length)
      (Q := fun (o : BState × MatchWork) => o.1.vis = s.vis.set u true ∧ o.2.phases = w.phases ∧
        o.2.calls = w.calls + 1 ∧ o.2.looks ≤ w.looks + gu.length) (by exact ⟨rfl, rfl, rfl⟩) ?_).mono ?_)
    · rintro v xs w' ⟨h1, h2, h3⟩
      rw [List.length_cons] at h3
      refine post_skip fun rv => post_ite (fun _ => ?_) fun _ => ?_
      · refine post_skip fun l => post_skip fun r => post_ok ⟨rfl, h1, h2, ?_⟩
        simp only; omega
      · refine post_ok ⟨h1, h2, ?_⟩
        simp only; omega
    · rintro (w1 | ⟨s1, w1⟩) hc
      · obtain ⟨h1, h2, h3⟩ := hc
        rw [List.length_nil] at h3
        simp only
        refine post_bind ((post_forBrk (I := fun xs (o : BState × MatchWork) => o.2.phases = w.phases ∧
          o.2.looks + pot g.length (dg g) (mk s) ≤ w.looks + pot g.length (dg g) (mk o.1) ∧
          o.2.calls + pot g.length (dg g) (mk s) + xs.length ≤ w.calls + 1 + pot g.length (dg g) (mk o.1))
          (Q := fun (o : BState × MatchWork) => o.2.phases = w.phases ∧
          o.2.looks + pot g.length (dg g) (mk s) ≤ w.looks + pot g.length (dg g) (mk o.1) ∧
          o.2.calls + pot g.length (dg g) (mk s) ≤ w.calls + 1 + pot g.length (dg g) (mk o.1))
          ⟨h1, by simp only [hp]; omega, by simp only [hp]; omega⟩ ?_).mono ?_)
        · rintro v xs ⟨s2, w2⟩ ⟨g1, g2, g3⟩
          simp only [List.length_cons] at g1 g2 g3
          refine post_skip fun rv => post_skip fun x => post_bind ((ih x s2 w2).mono ?_)
          rintro ⟨⟨s3, b⟩, w3⟩ ⟨k1, k2, k3⟩
          simp only at k1 k2 k3 ⊢
          refine post_ite (fun _ => ?_) fun _ => ?_
          · refine post_skip fun l => post_skip fun r => post_ok ⟨by simp only; omega, ?_, ?_⟩
            · show _ ≤ w.looks + pot g.length (dg g) (mk s3); simp only; omega
            · show _ ≤ w.calls + 1 + pot g.length (dg g) (mk s3); simp only; omega
          · exact post_ok ⟨by simp only; omega, by simp only; omega, by simp only; omega⟩
        · rintro (⟨s2, w2⟩ | ⟨s2, w2⟩) hc
          · obtain ⟨g1, g2, g3⟩ := hc
            exact post_ok ⟨g1, g2, g3⟩
          · exact post_ok hc
      · obtain ⟨h1, h2, h3, h4⟩ := hc
        have e : mk s1 = mk { s with vis := s.vis.set u true } := by
          funext x; unfold mk; rw [show s1.vis = _ from h1]
        refine post_ok ⟨h2, ?_, ?_⟩
        · simp only at h4 ⊢; rw [e, hp]; omega
        · simp only at h3 ⊢; rw [e, hp]; omega

theorem phase_post (g : List (List Nat)) (s : BState) (w : MatchWork) :
    Post (AugmentedPath.phaseCost g.length g s w) fun o => o.2.phases = w.phases + 1 ∧
      o.2.looks ≤ w.looks + (g.map List.length).sum ∧ o.2.calls ≤ w.calls + (g.length + (g.map List.length).sum) := by
  unfold AugmentedPath.phaseCost
  simp only
  refine (post_forRange (I := fun i (o : (BState × Bool) × MatchWork) => o.2.phases = w.phases + 1 ∧
    o.2.looks ≤ w.looks + pot g.length (dg g) (mk o.1.1) ∧
    o.2.calls ≤ w.calls + i + pot g.length (dg g) (mk o.1.1)) (Nat.zero_le _) ⟨rfl, by simp, by simp⟩ ?_).mono ?_
  · rintro i ⟨⟨s1, found⟩, w1⟩ - hi ⟨h1, h2, h3⟩
    simp only at h1 h2 h3 ⊢
    refine post_skip fun li => post_ite (fun _ => ?_) fun _ => post_ok ⟨h1, h2, by simp only; omega⟩
    refine post_bind ((match_dfs_post g _ i s1 w1).mono ?_)
    rintro ⟨⟨s3, b⟩, w3⟩ ⟨k1, k2, k3⟩
    simp only at k1 k2 k3 ⊢
    exact post_ok ⟨by simp only; omega, by simp only; omega, by simp only; omega⟩
  · rintro ⟨⟨s1, found⟩, w1⟩ ⟨h1, h2, h3⟩
    have := pot_le g.length (dg g) (mk s1)
    rw [sum_dg] at this
    simp only at h1 h2 h3 ⊢
    exact ⟨h1, by omega, by omega⟩

theorem SatOr.toPost {p : Prop} {x : Res α} {P : α → Prop} (h : SatOr p x P) : Post x P := by
  rcases h with h | ⟨-, h⟩
  · exact h.post
  · intro a e; rw [h] at e; cases e

/-- Work of a call of `solve`: at most one round for each new pair of the matching and one more. -/
theorem solve_post {m : Nat} {t : AugmentedPath} (hs : BipP.SOk t.g m { vis := t.vis, l := t.l, r := t.r }) :
    Post t.solveCost fun o => 1 ≤ o.2.phases ∧ o.2.phases + BipP.matched t.l ≤ BipP.matched o.1.1.l + 1 ∧
      o.2.looks ≤ o.2.phases * (t.g.map List.length).sum ∧
      o.2.calls ≤ o.2.phases * (t.g.length + (t.g.map List.length).sum) := by
  unfold AugmentedPath.solveCost
  have hn : t.l.length = t.g.length := hs.l
  simp only
  rw [hn]
  refine post_bind ((post_loop (I := fun (o : BState × MatchWork) => BipP.SOk t.g m o.1 ∧
      o.2.phases + BipP.matched t.l ≤ BipP.matched o.1.l ∧
      o.2.looks ≤ o.2.phases * (t.g.map List.length).sum ∧
      o.2.calls ≤ o.2.phases * (t.g.length + (t.g.map List.length).sum))
    (Q := fun (o : BState × MatchWork) => 1 ≤ o.2.phases ∧ o.2.phases + BipP.matched t.l ≤ BipP.matched o.1.l + 1 ∧
      o.2.looks ≤ o.2.phases * (t.g.map List.length).sum ∧
      o.2.calls ≤ o.2.phases * (t.g.length + (t.g.map List.length).sum)) ⟨hs, by simp, by simp, by simp⟩ ?_).mono ?_)
  · rintro ⟨s, w⟩ ⟨h0, h1, h2, h3⟩
    simp only at h0 h1 h2 h3 ⊢
    have hq := (SatOr.toPost (BipP.phase_satOr rfl h0)) 
    refine post_bind (((phase_post t.g s w).and fun a e => hq a.1 (sim_run (phase_sim _ _ _ _) e)).mono ?_)
    rintro ⟨⟨s', found⟩, w'⟩ ⟨⟨g1, g2, g3⟩, k1, k2⟩
    simp only at g1 g2 g3 k1 k2 ⊢
    cases found with
    | true =>
      simp only [if_true] at k2
      simp only [Bool.not_true, Bool.false_eq_true, if_false]
      refine post_ok ⟨k1, ?_, ?_, ?_⟩ <;> simp only
      · omega
      · rw [g1, Nat.add_mul, Nat.one_mul]; omega
      · rw [g1, Nat.add_mul, Nat.one_mul]; omega
    | false =>
      simp only [Bool.false_eq_true, if_false] at k2
      simp only [Bool.not_false, if_true]
      refine post_ok ⟨?_, ?_, ?_, ?_⟩ <;> simp only
      · omega
      · rw [k2.1]; omega
      · rw [g1, Nat.add_mul, Nat.one_mul]; omega
      · rw [g1, Nat.add_mul, Nat.one_mul]; omega
  · rintro ⟨s, w⟩ h
    exact post_skip fun ret => post_ok h

/-! ### Work of `scc` -/

/-- Vertices already entered. -/
def en (s : SCC) (x : Nat) : Bool := decide (TarjanP.ord s x ≠ -1)

/-- Work of a call of `dfs`, against the vertices it enters. -/
structure SccW (g : List (List Nat)) (s : SCC) (w : SccWork) (o : SCC × SccWork) : Prop where
  len : o.1.order.length = s.order.length
  pos : 0 ≤ o.1.pos
  calls : o.2.calls + pot g.length (fun _ => 1) (en s) = w.calls + pot g.length (fun _ => 1) (en o.1)
  looks : o.2.looks + pot g.length (dg g) (en s) = w.looks + pot g.length (dg g) (en o.1)
  pops : o.1.stack.length + o.2.pops + w.calls = s.stack.length + w.pops + o.2.calls

theorem post_forList {α σ : Type} {I : List α → σ → Prop} {f : α → σ → Res σ} : ∀ {l : List α} {s : σ}, I l s →
    (∀ x xs s, I (x :: xs) s → Post (f x s) (I xs)) → Post (forList l s f) (I [])
  | [], _, h, _ => post_ok h
  | x :: xs, s, h, hf => by
    unfold forList
    exact post_bind ((hf x xs s h).mono fun s' h' => post_forList h' hf)

theorem popLoop_post (s : SCC) (w : SccWork) (u : Nat) : Post (SCC.popLoopCost s w u) fun o =>
    o.1.order = s.order ∧ o.1.pos = s.pos ∧ o.2.calls = w.calls ∧ o.2.looks = w.looks ∧
      o.1.stack.length + o.2.pops = s.stack.length + w.pops := by
  unfold SCC.popLoopCost
  refine post_loop (I := fun (o : SCC × SccWork) => o.1.order = s.order ∧ o.1.pos = s.pos ∧ o.2.calls = w.calls ∧
    o.2.looks = w.looks ∧ o.1.stack.length + o.2.pops = s.stack.length + w.pops) ⟨rfl, rfl, rfl, rfl, rfl⟩ ?_
  rintro ⟨s1, w1⟩ ⟨h1, h2, h3, h4, h5⟩
  simp only at h1 h2 h3 h4 h5 ⊢
  have hv : Post (unwrap s1.stack.getLast?) fun _ => 0 < s1.stack.length := by
    intro a e
    apply Nat.pos_of_ne_zero
    intro h0
    rw [List.length_eq_zero_iff.1 h0] at e
    cases e
  refine post_bind (hv.mono fun v hpos => post_skip fun on => post_skip fun last => ?_)
  have h5' : s1.stack.dropLast.length + (w1.pops + 1) = s.stack.length + w.pops := by
    rw [List.length_dropLast]; omega
  exact post_ite (fun _ => post_ok ⟨h1, h2, h3, h4, h5'⟩) fun _ => post_ok ⟨h1, h2, h3, h4, h5'⟩

theorem scc_dfs_post (g : List (List Nat)) : ∀ (fuel u : Nat) (s : SCC) (w : SccWork), s.order.length = g.length →
    0 ≤ s.pos → TarjanP.ord s u = -1 → Post (SCC.dfsCost fuel u g (s, w)) (SccW g s w) := by
  intro fuel
  induction fuel with
  | zero => intro u s w _ _ _ a e; cases e
  | succ fuel ih =>
    intro u s w hl hp hw
    unfold SCC.dfsCost
    simp only
    refine post_bind (post_upd.mono ?_)
    rintro order ⟨hu, rfl⟩
    refine post_skip fun low => ?_
    have hck : Post (ckI 32 (s.pos + 1)) fun p => p = s.pos + 1 := by
      intro a e
      unfold ckI at e
      split at e
      · cases e; rfl
      · cases e
    refine post_bind (hck.mono ?_)
    rintro pos rfl
    refine post_skip fun on => post_bind (post_idx.mono fun gu hgu => ?_)
    have hug : u < g.length := by rw [← hl]; exact hu
    have hd : dg g u = gu.length := by
      unfold dg; rw [List.getD_eq_getElem?_getD, hgu]; rfl
    have hset : ∀ (wt : Nat → Nat) (s' : SCC), s'.order = s.order.set u s.pos →
        pot g.length wt (en s') = pot g.length wt (en s) + wt u := by
      intro wt s' e
      refine pot_set hug ?_ ?_ ?_
      · unfold en; simp [hw]
      · unfold en TarjanP.ord; rw [e, getD_set hu, if_pos rfl]; simp; omega
      · intro x hx; unfold en TarjanP.ord; rw [e, getD_set hu, if_neg hx]
    refine post_bind ((post_forList (I := fun xs (o : SCC × SccWork) => o.1.order.length = s.order.length ∧ 0 ≤ o.1.pos ∧
      o.2.calls + pot g.length (fun _ => 1) (en s) = w.calls + pot g.length (fun _ => 1) (en o.1) ∧
      o.2.looks + pot g.length (dg g) (en s) + xs.length = w.looks + pot g.length (dg g) (en o.1) ∧
      o.1.stack.length + o.2.pops + w.calls = s.stack.length + w.pops + o.2.calls) ?_ ?_).mono ?_)
    · refine ⟨by simp, by simp only; omega, ?_, ?_, ?_⟩
      · have := hset (fun _ => 1) { s with order := s.order.set u s.pos, low := low, pos := s.pos + 1, stack := s.stack ++ [u],
                                           on_stack := on } rfl
        simp only at this ⊢; omega
      · have := hset (dg g) { s with order := s.order.set u s.pos, low := low, pos := s.pos + 1, stack := s.stack ++ [u],
                                     on_stack := on } rfl
        simp only at this ⊢; omega
      · simp only [List.length_append, List.length_singleton]; omega
    · rintro v xs ⟨s1, w1⟩ ⟨h1, h2, h3, h4, h5⟩
      simp only [List.length_cons] at h1 h2 h3 h4 h5 ⊢
      refine post_bind (post_idx.mono fun ov hov => ?_)
      refine post_bind (Post.mono (P := SccW g s1 { w1 with looks := w1.looks + 1 }) (post_ite (fun ho => ?_) fun _ => ?_) ?_)
      · refine ih v s1 _ (by omega) h2 ?_
        unfold TarjanP.ord; rw [List.getD_eq_getElem?_getD, hov]; exact ho
      · exact post_ok ⟨rfl, h2, rfl, rfl, rfl⟩
      · rintro ⟨s2, w2⟩ ⟨k1, k2, k3, k4, k5⟩
        simp only at k1 k2 k3 k4 k5 ⊢
        have hfin : ∀ s3 : SCC, s3.order = s2.order → s3.pos = s2.pos → s3.stack = s2.stack →
            s3.order.length = s.order.length ∧ 0 ≤ s3.pos ∧
            w2.calls + pot g.length (fun _ => 1) (en s) = w.calls + pot g.length (fun _ => 1) (en s3) ∧
            w2.looks + pot g.length (dg g) (en s) + xs.length = w.looks + pot g.length (dg g) (en s3) ∧
            s3.stack.length + w2.pops + w.calls = s.stack.length + w.pops + w2.calls := by
          intro s3 e1 e2 e3
          have : en s3 = en s2 := by funext x; unfold en TarjanP.ord; rw [e1]
          rw [this, e1, e2, e3]
          refine ⟨by omega, k2, by omega, by omega, by omega⟩
        refine post_skip fun b => post_ite (fun _ => ?_) fun _ => post_ok (hfin s2 rfl rfl rfl)
        exact post_skip fun lu => post_skip fun lv => post_skip fun low => post_ok (hfin _ rfl rfl rfl)
    · rintro ⟨s1, w1⟩ ⟨h1, h2, h3, h4, h5⟩
      simp only [List.length_nil, Nat.add_zero] at h1 h2 h3 h4 h5 ⊢
      refine post_skip fun lu => post_skip fun ou => post_ite (fun _ => ?_) fun _ => post_ok ⟨h1, h2, h3, h4, h5⟩
      refine (popLoop_post _ w1 u).mono ?_
      rintro ⟨s2, w2⟩ ⟨k1, k2, k3, k4, k5⟩
      simp only at k1 k2 k3 k4 k5
      have e : en s2 = en s1 := by funext x; unfold en TarjanP.ord; rw [k1]
      refine ⟨by simp only; rw [k1]; exact h1, by simp only; rw [k2]; exact h2, ?_, ?_, ?_⟩ <;> simp only
      · rw [e, k3]; exact h3
      · rw [e, k4]; exact h4
      · rw [k3]; omega

/-- Every vertex is entered once, every edge looked at once, every vertex taken off the stack once. -/
theorem scc_post (g : List (List Nat)) : Post (sccCost g) fun o =>
    o.2 = ⟨g.length, (g.map List.length).sum, g.length⟩ := by
  unfold sccCost
  simp only
  refine post_bind ((post_forRange (I := fun i (o : SCC × SccWork) => TarjanP.Inv g [] o.1 ∧
    (∀ x, x < i → TarjanP.ord o.1 x ≠ -1) ∧ o.2.calls = pot g.length (fun _ => 1) (en o.1) ∧
    o.2.looks = pot g.length (dg g) (en o.1) ∧ o.1.stack.length + o.2.pops = o.2.calls) (Nat.zero_le _) ?_ ?_).mono ?_)
  · have hnew : ∀ x, en (SCC.new g.length) x = false := by
      intro x
      have : TarjanP.ord (SCC.new g.length) x = -1 := getD_replicate
      simp [en, this]
    exact ⟨TarjanP.inv_new g, by omega, by simp only [pot_none _ _ hnew], by simp only [pot_none _ _ hnew], by simp [SCC.new]⟩
  · rintro i ⟨s, w⟩ - hi ⟨h0, h1, h2, h3, h4⟩
    simp only at h0 h1 h2 h3 h4 ⊢
    refine post_bind (post_idx.mono fun ov hov => ?_)
    have ho : TarjanP.ord s i = ov := by unfold TarjanP.ord; rw [List.getD_eq_getElem?_getD, hov]; rfl
    refine post_ite (fun hw => ?_) fun hw => post_ok ⟨h0, fun x hx => ?_, h2, h3, h4⟩
    · rw [← ho] at hw
      have hq := SatOr.toPost (TarjanP.dfs_satOr (g.length + 1) i [] s h0 hi hw (by simp) (by
        have := h0.pos_nonneg; push_cast; omega))
      refine ((scc_dfs_post g _ i s w h0.lo h0.pos_nonneg hw).and fun a e => hq a.1 (sim_run (scc_dfs_sim _ _ _ _ _) e)).mono ?_
      rintro ⟨s', w'⟩ ⟨⟨k1, k2, k3, k4, k5⟩, hP, -⟩
      simp only at k1 k2 k3 k4 k5 hP ⊢
      refine ⟨hP.inv, fun x hx => ?_, by omega, by omega, by omega⟩
      rcases Nat.lt_succ_iff_lt_or_eq.1 hx with hx | rfl
      · rw [(hP.keep x (h1 x hx)).1]; exact h1 x hx
      · exact hP.self
    · rcases Nat.lt_succ_iff_lt_or_eq.1 hx with hx | rfl
      · exact h1 x hx
      · simp only; rw [ho]; exact hw
  · rintro ⟨s, ⟨c, l, p⟩⟩ ⟨h0, h1, h2, h3, h4⟩
    simp only at h0 h1 h2 h3 h4 ⊢
    have hall : ∀ x, x < g.length → en s x = true := fun x hx => by simpa [en] using h1 x hx
    have hst : s.stack = [] := by
      rw [List.eq_nil_iff_forall_not_mem]
      intro x hx
      obtain ⟨y, hy, -⟩ := h0.up x hx
      simp at hy
    rw [pot_all hall] at h2 h3
    rw [sum_dg] at h3
    rw [hst] at h4
    simp at h2 h4
    refine post_skip fun color => post_ok ?_
    simp only [SccWork.mk.injEq]
    omega

end Verif.CostG
