import Verif.Prelude.Sim
import Verif.Prelude.Post
import Verif.Model.CostDinic
import Verif.Proof.Dinic
/-! Work done by `Dinic`: number of phases, arcs looked at, rounds of the blocking search. -/
namespace Verif.DinicP
open Res Model Spec FlowP Finset Relation

variable {N : List NEdge} {ty : IntTy}

/-! ### Forgetting the counts -/

theorem sim_forBrk {α σ τ ρ ρ' : Type} {p q : Prop} {Q : σ → τ → Prop} {P : ρ → ρ' → Prop}
    {f : α → σ → Res (Ctl σ ρ)} {g : α → τ → Res (Ctl τ ρ')} {l : List α} {s : σ} {t : τ} (h : Q s t)
    (hf : ∀ x s t, Q s t → Sim p q (CtlRel Q P) (f x s) (g x t)) :
    Sim p q (CtlRel Q P) (forBrk l s f) (forBrk l t g) := by
  induction l generalizing s t with
  | nil => exact sim_ok h
  | cons x xs ih =>
    unfold forBrk
    refine sim_bind (hf x s t h) ?_
    rintro (s' | r) (t' | r') hc
    · exact ih hc
    · exact hc.elim
    · exact hc.elim
    · exact sim_ok hc

theorem sim_fst {α β : Type} {x : Res (α × β)} {y : Res α} (h : Sim False False (fun a b => a.1 = b) x y) :
    (x >>= fun r => ok r.1) = y := by
  rcases h with ⟨h, -⟩ | ⟨h, -⟩ | ⟨e1, e2⟩ | ⟨e1, e2⟩ | ⟨a, b, e1, e2, rfl⟩
  · exact h.elim
  · exact h.elim
  · rw [e1, e2]; rfl
  · rw [e1, e2]; rfl
  · rw [e1, e2]; rfl

theorem bfsCost_sim (d : Dinic) (s t : Nat) :
    Sim False False (fun a b => a.1 = b) (d.bfsCost s t) (d.bfs s t) := by
  unfold Dinic.bfsCost Dinic.bfs
  refine sim_bind sim_refl ?_
  rintro h _ rfl
  refine sim_bind (Q := fun a b => a.1 = b) (sim_loop (Q := fun a b => a.1 = b.1 ∧ a.2.1 = b.2) ⟨rfl, rfl⟩ ?_) ?_
  · rintro ⟨h, q, c⟩ ⟨h', q'⟩ ⟨e1, e2⟩
    simp only at e1 e2
    subst e1; subst e2
    cases q with
    | nil => exact sim_ok rfl
    | cons u q =>
      simp only
      refine sim_bind sim_refl ?_
      rintro gu _ rfl
      refine sim_bind (sim_forBrk (Q := fun a b => a.1 = b.1 ∧ a.2.1 = b.2) (P := fun a b => a.1 = b) ⟨rfl, rfl⟩ ?_) ?_
      · rintro i ⟨h, q, c⟩ ⟨h', q'⟩ ⟨e1, e2⟩
        simp only at e1 e2
        subst e1; subst e2
        simp only
        refine sim_bind sim_refl ?_
        rintro e _ rfl
        refine sim_bind sim_refl ?_
        rintro b _ rfl
        cases b
        · simp only [Bool.false_eq_true, if_false]
          exact sim_ok ⟨rfl, rfl⟩
        · simp only [if_true]
          refine sim_bind sim_refl ?_
          rintro hu _ rfl
          refine sim_bind sim_refl ?_
          rintro hv _ rfl
          refine sim_bind sim_refl ?_
          rintro h _ rfl
          exact sim_ite (sim_ok rfl) (sim_ok ⟨rfl, rfl⟩)
      · rintro (⟨h1, q1, c1⟩ | ⟨h1, c1⟩) (⟨h2, q2⟩ | h2) hc
        · exact sim_ok hc
        · exact hc.elim
        · exact hc.elim
        · refine sim_ok ?_
          show (h1, true) = (h2, true)
          rw [show h1 = h2 from hc]
  · rintro ⟨⟨h1, b1⟩, c⟩ ⟨h2, b2⟩ e
    cases e
    exact sim_ok rfl

theorem dfsCost_sim (fuel : Nat) (d : Dinic) (u t : Nat) (f : Int) :
    Sim False False (fun a b => a.1 = b) (Dinic.dfsCost ty fuel d u t f) (Dinic.dfs ty fuel d u t f) := by
  induction fuel generalizing d u f with
  | zero => exact sim_diverge
  | succ fuel ih =>
    unfold Dinic.dfsCost Dinic.dfs
    refine sim_ite (sim_ok rfl) ?_
    refine sim_bind sim_refl ?_
    rintro i _ rfl
    refine sim_bind sim_refl ?_
    rintro gu0 _ rfl
    refine sim_bind (Q := fun a b => a.1 = b)
      (sim_loop (Q := fun a b => a.1 = b.1 ∧ a.2.1 = b.2.1 ∧ a.2.2.1 = b.2.2) ⟨rfl, rfl, rfl⟩ ?_) ?_
    · rintro ⟨d, r, i, na, nb⟩ ⟨d', r', i'⟩ ⟨e1, e2, e3⟩
      simp only at e1 e2 e3
      subst e1; subst e2; subst e3
      simp only
      refine sim_bind sim_refl ?_
      rintro gu _ rfl
      refine sim_ite ?_ (sim_ok rfl)
      refine sim_bind sim_refl ?_
      rintro j _ rfl
      refine sim_bind sim_refl ?_
      rintro e _ rfl
      refine sim_bind sim_refl ?_
      rintro go _ rfl
      refine sim_bind (Q := fun a b => a.1 = b) (sim_ite ?_ (sim_ok rfl)) ?_
      · refine sim_bind (ih _ _ _) ?_
        rintro ⟨⟨d1, a⟩, ka, kb⟩ _ rfl
        simp only
        refine sim_bind sim_refl ?_
        rintro _ _ rfl
        refine sim_bind sim_refl ?_
        rintro _ _ rfl
        refine sim_bind sim_refl ?_
        rintro _ _ rfl
        refine sim_bind sim_refl ?_
        rintro _ _ rfl
        refine sim_bind sim_refl ?_
        rintro _ _ rfl
        refine sim_bind sim_refl ?_
        rintro _ _ rfl
        refine sim_bind sim_refl ?_
        rintro _ _ rfl
        exact sim_ok rfl
      · rintro ⟨⟨d1, r1, b⟩, na1, nb1⟩ _ rfl
        simp only
        refine sim_ite (sim_ok rfl) ?_
        refine sim_bind sim_refl ?_
        rintro _ _ rfl
        exact sim_ok ⟨rfl, rfl, rfl⟩
    · rintro ⟨⟨d1, r1⟩, na1, nb1⟩ _ rfl
      simp only
      refine sim_bind sim_refl ?_
      rintro _ _ rfl
      exact sim_ok rfl

theorem getMaxFlowCost_sim (d : Dinic) (s t : Nat) :
    Sim False False (fun a b => a.1 = b) (d.getMaxFlowCost ty s t) (d.getMaxFlow ty s t) := by
  unfold Dinic.getMaxFlowCost Dinic.getMaxFlow
  refine sim_assert fun _ => sim_assert fun _ => ?_
  refine sim_loop (Q := fun a b => a.1 = b.1 ∧ a.2.1 = b.2) ⟨rfl, rfl⟩ ?_
  rintro ⟨d, ans, w⟩ ⟨d', ans'⟩ ⟨e1, e2⟩
  simp only at e1 e2
  subst e1; subst e2
  simp only
  refine sim_bind (bfsCost_sim d s t) ?_
  rintro ⟨⟨d1, b⟩, k⟩ _ rfl
  simp only
  refine sim_ite ?_ (sim_ok rfl)
  refine sim_bind (dfsCost_sim _ _ _ _ _) ?_
  rintro ⟨⟨d2, a⟩, ka, kb⟩ _ rfl
  simp only
  refine sim_bind sim_refl ?_
  rintro _ _ rfl
  exact sim_ok ⟨rfl, rfl⟩

theorem bfsCost_fst (d : Dinic) (s t : Nat) : (d.bfsCost s t >>= fun r => ok r.1) = d.bfs s t :=
  sim_fst (bfsCost_sim d s t)
theorem dfsCost_fst (fuel : Nat) (d : Dinic) (u t : Nat) (f : Int) :
    (Dinic.dfsCost ty fuel d u t f >>= fun r => ok r.1) = Dinic.dfs ty fuel d u t f := sim_fst (dfsCost_sim fuel d u t f)
theorem getMaxFlowCost_fst (d : Dinic) (s t : Nat) :
    (d.getMaxFlowCost ty s t >>= fun r => ok r.1) = d.getMaxFlow ty s t := sim_fst (getMaxFlowCost_sim d s t)

end Verif.DinicP
