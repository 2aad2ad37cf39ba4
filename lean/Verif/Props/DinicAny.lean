import Verif.Proof.DinicNeg
import Verif.Props.Dinic
import Verif.Spec.FlowAny
/-! C77: the flow algorithm with arbitrary arguments. -/
namespace Verif.Props
open Res Model Spec DinicP FlowP DinicNeg

theorem flowRun_clip (ty : IntTy) : ∀ (ops : List FlowOp) (C : Nat → Prop) (_ : ∀ j, C j ↔ C (j ^^^ 1)) (d d' : Dinic)
    (_ : NR C d d'),
    Sim False False (fun a b => a.1 = b.1) (flowRun ty d ops) (flowRun ty d' (ops.map FlowOp.clip)) := by
  intro ops
  induction ops with
  | nil => intro C _ d d' _; exact sim_ok rfl
  | cons o ops ih =>
    intro C hC d d' h
    cases o with
    | addEdge u v c =>
      show Sim _ _ _ (d.addEdge u v c >>= _) (d'.addEdge u v (max 0 c) >>= _)
      exact sim_bind (addEdge_sim h u v c) fun d1 d1' k => ih _ (ignored_closed h.e.even hC) _ _ k
    | maxFlow s t =>
      show Sim _ _ _ (d.getMaxFlow ty s t >>= _) (d'.getMaxFlow ty s t >>= _)
      refine sim_bind (getMaxFlow_sim hC h s t) ?_
      rintro ⟨d1, a⟩ ⟨d1', a'⟩ ⟨k, e⟩
      cases e
      refine sim_bind (ih C hC _ _ k) ?_
      rintro ⟨as, d2⟩ ⟨as', d2'⟩ e
      cases e
      exact sim_ok rfl

/-- C77: an edge of negative capacity is like one of capacity zero, in every history, whatever its arguments are: the runs
return the same answers, panic both, or do not end both. -/
theorem C77_clip (ty : IntTy) (n : Nat) (ops : List FlowOp) :
    Prod.fst <$> flowRun ty (Dinic.new n) ops = Prod.fst <$> flowRun ty (Dinic.new n) (ops.map FlowOp.clip) := by
  have h := flowRun_clip ty ops (fun _ => False) (fun _ => Iff.rfl) (Dinic.new n) (Dinic.new n)
    ⟨rfl, rfl, rfl, rfl, rfl, rfl, by intro i a b ha; simp [Dinic.new] at ha⟩
  rcases h with ⟨f, -⟩ | ⟨f, -⟩ | ⟨e1, e2⟩ | ⟨e1, e2⟩ | ⟨x, y, e1, e2, k⟩
  · exact f.elim
  · exact f.elim
  · rw [e1, e2]
  · rw [e1, e2]
  · rw [e1, e2]; exact congrArg ok k

theorem addEdge_panics {ty : IntTy} {n : Nat} {N : List NEdge} {d : Dinic} (h : FlowRep ty n N d) {u v : Nat} (c : Int)
    (huv : n ≤ u ∨ n ≤ v) : d.addEdge u v c = .panic := by
  have hgl : d.g.length = n := h.st.gl.trans h.nv
  unfold Dinic.addEdge
  by_cases hu : u < n
  · rw [idx_of_lt (by omega), ok_bind, upd_of_lt (by omega), ok_bind, idx_panic (by rw [List.length_set]; omega)]; rfl
  · rw [idx_panic (by omega)]; rfl

theorem flowRun_any {ty : IntTy} {n : Nat} (hmx : 0 < ty.mx) (hn : n < 2 ^ 31) :
    ∀ (ops : List FlowOp) (N : List NEdge) (d : Dinic), FlowRep ty n N d → (∀ o ∈ ops, 0 ≤ o.cap ∧ o.cap ≤ ty.mx) →
    (∃ outs d' M, flowRun ty d ops = ok (outs, d') ∧ FlowRunTo N ops outs M ∧ ∀ o ∈ ops, o.InRange n) ∨
    (flowRun ty d ops = .panic ∧ ∃ ops1 o ops2 outs M, ops = ops1 ++ o :: ops2 ∧ FlowRunTo N ops1 outs M ∧
      (¬ o.InRange n ∨ ∃ s t x, o = .maxFlow s t ∧ IsFlow M s t x ∧ ty.mx < netOut M x s)) := by
  intro ops
  induction ops with
  | nil => intro N d _ _; exact .inl ⟨[], d, N, rfl, .nil N, by simp⟩
  | cons o ops ih =>
    intro N d h hc
    have hc1 := hc o (by simp)
    have hc2 : ∀ o ∈ ops, 0 ≤ o.cap ∧ o.cap ≤ ty.mx := fun o ho => hc o (by simp [ho])
    by_cases hr : o.InRange n
    case neg =>
      refine .inr ⟨?_, [], o, ops, [], N, rfl, .nil N, .inl hr⟩
      cases o with
      | addEdge u v c =>
        have : n ≤ u ∨ n ≤ v := by
          have hr' : ¬ (u < n ∧ v < n) := hr
          omega
        rw [flowRun, addEdge_panics h c this]; rfl
      | maxFlow s t =>
        have : n ≤ s ∨ n ≤ t := by
          have hr' : ¬ (s < n ∧ t < n) := hr
          omega
        rw [flowRun, C19_terminals_panic ty h this]; rfl
    cases o with
    | addEdge u v c =>
      obtain ⟨d1, e, h1⟩ := flowAdd_sat (c := c) h hr.1 hr.2 hc1.1 hc1.2
      rw [flowRun, e, ok_bind]
      rcases ih _ d1 h1 hc2 with ⟨outs, d', M, e2, h2, h3⟩ | ⟨e2, ops1, o, ops2, outs, M, rfl, h2, h3⟩
      · exact .inl ⟨outs, d', M, e2, .add h2, by
          intro o ho
          rcases List.mem_cons.1 ho with rfl | ho
          · exact hr
          · exact h3 o ho⟩
      · exact .inr ⟨e2, _ :: ops1, o, ops2, outs, M, rfl, .add h2, h3⟩
    | maxFlow s t =>
      by_cases hfit : ∀ x, IsFlow N s t x → netOut N x s ≤ ty.mx
      · obtain ⟨d1, v, x, e, h1, -, h3, h4, h5⟩ := C19_get_max_flow h hmx hn hr.1 hr.2 hfit
        rw [flowRun, e, ok_bind]
        rcases ih _ d1 h5 hc2 with ⟨outs, d', M, e2, h6, h7⟩ | ⟨e2, ops1, o, ops2, outs, M, rfl, h6, h7⟩
        · refine .inl ⟨v :: outs, d', M, by simp only [e2]; rfl, .flow h1 h3 h4 h6, ?_⟩
          intro o ho
          rcases List.mem_cons.1 ho with rfl | ho
          · exact hr
          · exact h7 o ho
        · exact .inr ⟨by simp only [e2]; rfl, _ :: ops1, o, ops2, v :: outs, M, rfl, .flow h1 h3 h4 h6, h7⟩
      · push_neg at hfit
        obtain ⟨x, hx, hlt⟩ := hfit
        refine .inr ⟨?_, [], _, ops, [], N, rfl, .nil N, .inr ⟨s, t, x, rfl, hx, hlt⟩⟩
        rw [flowRun, C19_overflow_panics h hmx hn hr.1 hr.2 hx hlt]; rfl

/-- C77: every history, whatever its arguments: either all vertices exist and it returns maximum flows of the network in
which negative capacities count as zero, or it panics, and this at a call with a vertex that does not exist or a
maximum flow that does not fit the type. -/
theorem C77_history (ty : IntTy) (hmx : 0 < ty.mx) (n : Nat) (hn : n < 2 ^ 31) (ops : List FlowOp)
    (hc : ∀ o ∈ ops, o.cap ≤ ty.mx) :
    (∃ outs d M, flowRun ty (Dinic.new n) ops = ok (outs, d) ∧ FlowRunTo [] (ops.map FlowOp.clip) outs M ∧
      ∀ o ∈ ops, o.InRange n) ∨
    (flowRun ty (Dinic.new n) ops = .panic ∧ ∃ ops1 o ops2 outs M, ops = ops1 ++ o :: ops2 ∧
      FlowRunTo [] (ops1.map FlowOp.clip) outs M ∧
      (¬ o.InRange n ∨ ∃ s t x, o = .maxFlow s t ∧ IsFlow M s t x ∧ ty.mx < netOut M x s)) := by
  have hcl := C77_clip ty n ops
  have hir : ∀ o : FlowOp, o.clip.InRange n ↔ o.InRange n := by intro o; cases o <;> exact Iff.rfl
  rcases flowRun_any hmx hn (ops.map FlowOp.clip) [] _ (flowRep_new ty n) (by
    intro o ho
    obtain ⟨o', ho', rfl⟩ := List.mem_map.1 ho
    have := hc o' ho'
    cases o' with
    | addEdge u v c => simp only [FlowOp.clip, FlowOp.cap] at *; omega
    | maxFlow s t => simp only [FlowOp.clip, FlowOp.cap] at *; omega) with
    ⟨outs, d, M, e, h1, h2⟩ | ⟨e, ops1, o, ops2, outs, M, e1, h1, h2⟩
  · left
    rw [e] at hcl
    cases e2 : flowRun ty (Dinic.new n) ops with
    | panic => rw [e2] at hcl; cases hcl
    | diverge => rw [e2] at hcl; cases hcl
    | ok r =>
      rw [e2] at hcl
      have : r.1 = outs := Res.ok.inj hcl
      exact ⟨outs, r.2, M, by rw [← this], h1, fun o ho => (hir o).1 (h2 _ (List.mem_map_of_mem ho))⟩
  · right
    rw [e] at hcl
    refine ⟨?_, ?_⟩
    · cases e2 : flowRun ty (Dinic.new n) ops with
      | panic => rfl
      | diverge => rw [e2] at hcl; cases hcl
      | ok r => rw [e2] at hcl; cases hcl
    · obtain ⟨l1, l2, rfl, e3, e4⟩ := List.map_eq_append_iff.1 e1
      obtain ⟨o', l3, rfl, e5, e6⟩ := List.map_eq_cons_iff.1 e4
      subst e3; subst e5
      refine ⟨l1, o', l3, outs, M, rfl, h1, ?_⟩
      rcases h2 with h2 | ⟨s, t, x, h3, h4⟩
      · exact .inl fun h => h2 ((hir o').2 h)
      · refine .inr ⟨s, t, x, ?_, h4⟩
        cases o' with
        | addEdge => cases h3
        | maxFlow s' t' => exact h3

/-- C77: if the positive capacities together fit the type and all vertices exist, nothing panics. -/
theorem C77_returns (ty : IntTy) (hmx : 0 < ty.mx) (n : Nat) (hn : n < 2 ^ 31) (ops : List FlowOp)
    (hr : ∀ o ∈ ops, o.InRange n) (hsum : (ops.map fun o => max 0 o.cap).sum ≤ ty.mx) :
    ∃ outs d, flowRun ty (Dinic.new n) ops = ok (outs, d) ∧ FlowRunOk [] (ops.map FlowOp.clip) outs := by
  have hcl := C77_clip ty n ops
  obtain ⟨outs, d, e, h⟩ := C19_history ty hmx n hn (ops.map FlowOp.clip) (by
    intro o ho
    obtain ⟨o', ho', rfl⟩ := List.mem_map.1 ho
    have := hr o' ho'
    cases o' with
    | addEdge u v c => exact ⟨this.1, this.2, by simp⟩
    | maxFlow s t => exact this) (by
    rw [List.map_map]
    have : (FlowOp.cap ∘ FlowOp.clip) = fun o => max 0 o.cap := by
      funext o
      cases o <;> simp [FlowOp.cap, FlowOp.clip]
    rw [this]; exact hsum)
  rw [e] at hcl
  cases e2 : flowRun ty (Dinic.new n) ops with
  | panic => rw [e2] at hcl; cases hcl
  | diverge => rw [e2] at hcl; cases hcl
  | ok r =>
    rw [e2] at hcl
    have : r.1 = outs := Res.ok.inj hcl
    exact ⟨outs, r.2, by rw [← this], h⟩

/-- A negative capacity between two edges. -/
example : Prod.fst <$> flowRun ⟨true, 8⟩ (Dinic.new 3)
    [.addEdge 0 1 5, .addEdge 0 1 (-7), .addEdge 1 2 9, .maxFlow 0 2, .addEdge 0 1 3, .maxFlow 0 2] = ok [5, 3] := by
  decide +kernel

/-- Two flows of 100 fit an `i8` one after the other, not together. -/
example : Prod.fst <$> flowRun ⟨true, 8⟩ (Dinic.new 2) [.addEdge 0 1 100, .maxFlow 0 1, .addEdge 0 1 100, .maxFlow 0 1] =
    ok [100, 100] ∧
  Prod.fst <$> flowRun ⟨true, 8⟩ (Dinic.new 2) [.addEdge 0 1 100, .addEdge 0 1 100, .maxFlow 0 1] = .panic := by
  decide +kernel

end Verif.Props
