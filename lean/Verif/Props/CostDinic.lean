import Verif.Props.Dinic
import Verif.Proof.Ladder
/-! C66: how much work `Dinic::get_max_flow` does. -/
namespace Verif.Props
open Model Spec Res DinicP FlowP Finset

theorem arcs_set {g : List (List Nat)} {u x : Nat} (hu : u < g.length) :
    arcs (g.set u (g.getD u [] ++ [x])) = arcs g + 1 := by
  induction g generalizing u with
  | nil => simp at hu
  | cons y g ih =>
    cases u with
    | zero => simp [arcs]; omega
    | succ u =>
      have := ih (u := u) (by simpa using hu)
      simp only [arcs, List.set_cons_succ, List.getD_cons_succ, List.map_cons, List.sum_cons] at this ⊢
      omega

theorem addEdge_arcs {d : Dinic} {u v : Nat} {c : Int} (h : arcs d.g = d.e.length) :
    Post (d.addEdge u v c) fun d' => arcs d'.g = d'.e.length := by
  unfold Dinic.addEdge
  refine post_bind (post_idx.mono fun gu hgu => post_bind (post_upd.mono ?_))
  rintro _ ⟨hu, rfl⟩
  refine post_bind (post_idx.mono fun gv hgv => post_bind (post_upd.mono ?_))
  rintro _ ⟨hv, rfl⟩
  refine post_ok ?_
  have e1 : gu = d.g.getD u [] := by rw [List.getD_eq_getElem?_getD, hgu]; rfl
  subst e1
  have e2 : gv = (d.g.set u (d.g.getD u [] ++ [d.e.length])).getD v [] := by rw [List.getD_eq_getElem?_getD, hgv]; rfl
  subst e2
  simp only
  rw [arcs_set hv, arcs_set hu, h]
  simp

/-- Along a history the adjacency lists hold every arc once. -/
theorem flowRun_arcs {ty : IntTy} {n : Nat} (hmx : 0 < ty.mx) (hn : n < 2 ^ 31) :
    ∀ (ops : List FlowOp) (N : List NEdge) (d : Dinic), FlowRep ty n N d → arcs d.g = d.e.length →
    (∀ o ∈ ops, o.Pre n) → total N + (ops.map FlowOp.cap).sum ≤ ty.mx →
    Post (flowRun ty d ops) (fun r => arcs r.2.g = r.2.e.length) := by
  intro ops
  induction ops with
  | nil => intro N d _ ha _ _; exact post_ok ha
  | cons o ops ih =>
    intro N d h ha hp htot
    have hp1 := hp o (List.mem_cons_self ..)
    have hp2 : ∀ o ∈ ops, o.Pre n := fun o ho => hp o (List.mem_cons_of_mem _ ho)
    have hcap : 0 ≤ (ops.map FlowOp.cap).sum := by
      apply List.sum_nonneg
      intro x hx
      obtain ⟨o', ho', rfl⟩ := List.mem_map.1 hx
      have := hp2 o' ho'
      cases o' with
      | addEdge => exact this.2.2
      | maxFlow => exact le_refl _
    have htotN : 0 ≤ total N := Finset.sum_nonneg fun k hk => by
      have hk := mem_range.1 hk
      have h1 := h.st.nn (2 * k) (by omega)
      have h2 := h.st.nn (2 * k + 1) (by omega)
      rw [h.cap _ (by omega), cap0_even] at h1
      rw [h.cap _ (by omega), cap0_odd] at h2
      omega
    rw [List.map_cons, List.sum_cons] at htot
    cases o with
    | addEdge u v c =>
      obtain ⟨hu, hv, hc⟩ := hp1
      change total N + (c + _) ≤ _ at htot
      rw [flowRun]
      refine post_bind (((flowAdd_sat h hu hv hc (by omega)).post.and (addEdge_arcs ha)).mono ?_)
      rintro d' ⟨h', ha'⟩
      exact ih _ d' h' ha' hp2 (by rw [total_append]; simp only; omega)
    | maxFlow s t =>
      obtain ⟨hs, ht⟩ := hp1
      have hnv := h.nv
      change total N + (0 + _) ≤ _ at htot
      rw [flowRun]
      refine post_bind ?_
      intro o ho
      rcases loop_sat' (t := t) h.st h.cap h.fits hmx (by omega) (by omega : s < d.n) (by omega) with
        ⟨o', e, h1, h2, h3, h4, _⟩ | ⟨_, e⟩
      · rw [e] at ho; cases ho
        obtain ⟨d', a⟩ := o
        simp only at h2 h3 h4 ⊢
        refine post_bind ((ih _ d' (flowRep_residual h h2 h3) ?_ hp2 (by rw [total_residual]; omega)).mono ?_)
        · rw [h4, ha, h2.el, h.st.el]
        · rintro ⟨as, d''⟩ h
          exact post_ok h
      · rw [e] at ho; cases ho

/-- **C66, the counts are about the function itself**: forgetting them gives `get_max_flow`. -/
theorem C66_counts (ty : IntTy) (d : Dinic) (s t : Nat) :
    (d.getMaxFlowCost ty s t >>= fun r => ok r.1) = d.getMaxFlow ty s t := getMaxFlowCost_fst d s t

/-- **C66.** After any history of calls that adds `m` edges between `n` vertices, `get_max_flow` finishes after fewer
than `n` phases, whatever the capacities. Every search looks at each of the `2m` arcs at most once, and the loops of
each blocking search make at most `2m + n (2m + 1)` rounds; so the call takes `O(n² m)` steps. -/
theorem C66_history (ty : IntTy) (hmx : 0 < ty.mx) (n : Nat) (hn : n < 2 ^ 31) (ops : List FlowOp)
    (hp : ∀ o ∈ ops, o.Pre n) (hsum : (ops.map FlowOp.cap).sum ≤ ty.mx) {s t : Nat} (hs : s < n) (ht : t < n) :
    ∃ outs d d' v w, flowRun ty (Dinic.new n) ops = ok (outs, d) ∧ d.getMaxFlow ty s t = ok (d', v) ∧
      d.getMaxFlowCost ty s t = ok ((d', v), w) ∧ w.phases < n ∧
      w.bfsArcs ≤ (w.phases + 1) * (2 * (edgesOf ops).length) ∧
      w.dfsRounds ≤ w.phases * (2 * (edgesOf ops).length + n * (2 * (edgesOf ops).length + 1)) := by
  have htot0 : total ([] : List NEdge) = 0 := by simp [total]
  obtain ⟨⟨outs, d⟩, e, -, M, hM, hsame⟩ := flowRun_sat hmx hn ops [] _ (flowRep_new ty n) hp (by rw [htot0]; omega)
  have hpm : ∀ o ∈ ops ++ [FlowOp.maxFlow s t], o.Pre n := by
    intro o ho
    rcases List.mem_append.1 ho with ho | ho
    · exact hp o ho
    · simp only [List.mem_singleton] at ho; subst ho; exact ⟨hs, ht⟩
  obtain ⟨⟨outs', d''⟩, e', -⟩ := flowRun_sat hmx hn (ops ++ [FlowOp.maxFlow s t]) [] _ (flowRep_new ty n) hpm
    (by rw [htot0, List.map_append, List.sum_append]; simp [FlowOp.cap]; exact hsum)
  have happ : ∀ (ops : List FlowOp) (d0 : Dinic) (outs : List Int) (d : Dinic), flowRun ty d0 ops = ok (outs, d) →
      ∀ r, flowRun ty d0 (ops ++ [FlowOp.maxFlow s t]) = ok r → ∃ q, d.getMaxFlow ty s t = ok q := by
    intro ops
    induction ops with
    | nil =>
      intro d0 outs d e r e'
      cases e
      obtain ⟨q, h1, _⟩ := bind_eq_ok.1 e'
      exact ⟨q, h1⟩
    | cons o ops ih =>
      intro d0 outs d e r e'
      cases o with
      | addEdge u v c =>
        obtain ⟨q, h1, h2⟩ := bind_eq_ok.1 e
        obtain ⟨q', h1', h2'⟩ := bind_eq_ok.1 e'
        rw [h1] at h1'; cases h1'
        exact ih _ _ _ h2 _ h2'
      | maxFlow s' t' =>
        obtain ⟨⟨q, a⟩, h1, h2⟩ := bind_eq_ok.1 e
        obtain ⟨⟨q', a'⟩, h1', h2'⟩ := bind_eq_ok.1 e'
        rw [h1] at h1'; cases h1'
        obtain ⟨⟨as, x⟩, h3, h4⟩ := bind_eq_ok.1 h2
        obtain ⟨⟨as', x'⟩, h3', h4'⟩ := bind_eq_ok.1 h2'
        cases h4
        exact ih _ _ _ h3 _ h3'
  obtain ⟨⟨d', v⟩, ev⟩ := happ ops _ _ _ e _ e'
  have hfst := C66_counts ty d s t
  rw [ev] at hfst
  obtain ⟨⟨⟨d1, v1⟩, w⟩, hc, h1⟩ := bind_eq_ok.1 hfst
  cases h1
  have hnv := hM.nv
  obtain ⟨b1, b2, b3⟩ := getMaxFlowCost_le hM.st hM.fits hmx (by omega) _ hc
  have harc := flowRun_arcs hmx hn ops [] _ (flowRep_new ty n) (by simp [arcs, Dinic.new]) hp
    (by rw [htot0]; omega) _ e
  have hlen : M.length = (edgesOf ops).length := by
    have := congrArg List.length hsame
    simpa using this
  simp only at b1 b2 b3 harc
  rw [harc, hM.st.el, hlen] at b2 b3
  rw [hnv] at b1 b3
  exact ⟨outs, d, d', v, w, e, ev, hc, by omega, b2, b3⟩

/-- A network on `n` vertices with a path through all of them and a short cut to the sink from each: every phase
finds paths of one length only. -/
def ladder (n : Nat) : List FlowOp :=
  (List.range (n - 1)).map (fun i => .addEdge i (n - 1) 1) ++
    (List.range (n - 2)).map (fun i => .addEdge i (i + 1) n)

theorem flowRun_adds {ty : IntTy} {n : Nat} : ∀ (es : List (Nat × Nat × Int)) (N : List NEdge) (d : Dinic),
    FlowRep ty n N d → (∀ e ∈ es, e.1 < n ∧ e.2.1 < n ∧ 0 ≤ e.2.2 ∧ e.2.2 ≤ ty.mx) →
    Sat (flowRun ty d (es.map fun e => .addEdge e.1 e.2.1 e.2.2)) (fun r =>
      FlowRep ty n (N ++ es.map fun e => ⟨e.1, e.2.1, e.2.2, 0⟩) r.2) := by
  intro es
  induction es with
  | nil => intro N d h _; simpa [flowRun] using h
  | cons e es ih =>
    intro N d h hp
    obtain ⟨h1, h2, h3, h4⟩ := hp e (List.mem_cons_self ..)
    simp only [List.map_cons, flowRun]
    rw [sat_bind]
    refine (flowAdd_sat h h1 h2 h3 h4).mono fun d' h' => ?_
    refine (ih _ d' h' fun e he => hp e (List.mem_cons_of_mem _ he)).mono fun r hr => ?_
    rw [List.append_assoc] at hr
    exact hr

/-- **C66, the number of phases is attained** for every number of vertices below `2^31`: on the ladder with `n ≥ 2`
vertices `get_max_flow` makes `n - 1` phases (every phase pushes one unit). -/
theorem C66_attained {n : Nat} (hn : 2 ≤ n) (hn2 : n < 2 ^ 31) :
    ∃ outs d d' w, flowRun ⟨true, 64⟩ (Dinic.new n) (ladder n) = ok (outs, d) ∧
      d.getMaxFlowCost ⟨true, 64⟩ 0 (n - 1) = ok ((d', ((n - 1 : Nat) : Int)), w) ∧ w.phases = n - 1 := by
  have hmx : (⟨true, 64⟩ : IntTy).mx = 9223372036854775807 := by decide
  let es : List (Nat × Nat × Int) := (List.range (n - 1)).map (fun i => (i, n - 1, 1)) ++
    (List.range (n - 2)).map (fun i => (i, i + 1, (n : Int)))
  have hes : ladder n = es.map fun e => .addEdge e.1 e.2.1 e.2.2 := by
    simp [ladder, es, List.map_append, List.map_map, Function.comp_def]
  have hN : (es.map fun e => (⟨e.1, e.2.1, e.2.2, 0⟩ : NEdge)) = LadP.ladN n := by
    simp [LadP.ladN, es, List.map_append, List.map_map, Function.comp_def]
  have hpe : ∀ e ∈ es, e.1 < n ∧ e.2.1 < n ∧ 0 ≤ e.2.2 ∧ e.2.2 ≤ (n : Int) := by
    intro e he
    rcases List.mem_append.1 he with he | he <;> obtain ⟨i, hi, rfl⟩ := List.mem_map.1 he <;>
      have hi := List.mem_range.1 hi <;> simp only <;> omega
  obtain ⟨⟨outs, d⟩, e, hR⟩ := flowRun_adds (ty := ⟨true, 64⟩) es [] _ (flowRep_new _ n) fun e he => by
    obtain ⟨h1, h2, h3, h4⟩ := hpe e he
    exact ⟨h1, h2, h3, by rw [hmx]; omega⟩
  rw [← hes] at e
  rw [List.nil_append, hN] at hR
  obtain ⟨outs1, d1, d', v, w, e1, _, e3, hlt, _⟩ := C66_history ⟨true, 64⟩ (by decide) n hn2 (ladder n) (by
      rw [hes]
      intro o ho
      obtain ⟨x, hx, rfl⟩ := List.mem_map.1 ho
      obtain ⟨h1, h2, h3, _⟩ := hpe x hx
      exact ⟨h1, h2, h3⟩) (by
      rw [hmx]
      have : ((ladder n).map FlowOp.cap).sum = ((n - 1 : Nat) : Int) * 1 + ((n - 2 : Nat) : Int) * n := by
        simp [ladder, List.map_append, List.map_map, Function.comp_def, FlowOp.cap, List.sum_append]
      rw [this]
      have h1 : ((n - 2 : Nat) : Int) * n ≤ 2147483646 * 2147483647 :=
        Int.mul_le_mul (by omega) (by omega) (by omega) (by omega)
      omega) (s := 0) (t := n - 1) (by omega) (by omega)
  rw [e] at e1; cases e1
  have hpot : LadP.Pushed n d 0 := by
    intro y
    unfold pot pot0
    rw [Finset.sum_congr rfl fun k hk => by
      rw [hR.cap (2 * k) (by have := mem_range.1 hk; omega), cap0_even]]
    simp [dl]
  obtain ⟨h1, h2⟩ := LadP.ladder_phases hn hn2 (by decide) hR.fits hR.st hR.nv hpot _ e3
  simp only at h1 h2
  subst h1
  exact ⟨outs, d, d', w, e, e3, by omega⟩

example : ∀ n ∈ [2, 3, 4, 5, 6, 7],
    (flowRun ⟨true, 64⟩ (Dinic.new n) (ladder n) >>= fun r => r.2.getMaxFlowCost ⟨true, 64⟩ 0 (n - 1) >>= fun o =>
      ok (o.1.2, o.2.phases)) = ok ((n - 1 : Int), n - 1) := by
  decide +kernel

/-- **C66, single searches.** After any history that adds `m` edges between `n` vertices, whatever levels, pointers and
capacities a call starts with: one call of `bfs` looks at most `2m` times at an arc, and one blocking search that starts
with all pointers at 0 makes at most `2m + n (2m + 1)` rounds, recursive calls included. -/
theorem C66_each_search (ty : IntTy) (hmx : 0 < ty.mx) (n : Nat) (hn : n < 2 ^ 31) (ops : List FlowOp)
    (hp : ∀ o ∈ ops, o.Pre n) (hsum : (ops.map FlowOp.cap).sum ≤ ty.mx) :
    ∃ outs d, flowRun ty (Dinic.new n) ops = ok (outs, d) ∧ ∀ (e : List FEdge) (h : List Int) (cur : List Nat) (s t : Nat),
      (∀ o k, Dinic.bfsCost { d with e := e, h := h, cur := cur } s t = ok (o, k) → k ≤ 2 * (edgesOf ops).length) ∧
      ∀ f o ka kb, Dinic.dfsCost ty (n + 1) { d with e := e, h := h, cur := List.replicate n 0 } s t f = ok (o, ka, kb) →
        ka + kb ≤ 2 * (edgesOf ops).length + n * (2 * (edgesOf ops).length + 1) := by
  have htot0 : total ([] : List NEdge) = 0 := by simp [total]
  obtain ⟨⟨outs, d⟩, e, -, M, hM, hsame⟩ := flowRun_sat hmx hn ops [] _ (flowRep_new ty n) hp (by rw [htot0]; omega)
  have harc := flowRun_arcs hmx hn ops [] _ (flowRep_new ty n) (by simp [arcs, Dinic.new]) hp
    (by rw [htot0]; omega) _ e
  have hlen : M.length = (edgesOf ops).length := by
    have := congrArg List.length hsame
    simpa using this
  simp only at harc hM
  rw [hM.st.el, hlen] at harc
  refine ⟨outs, d, e, fun es h cur s t => ⟨fun o k hk => ?_, fun f o ka kb hk => ?_⟩⟩
  · have := bfsCost_le _ s t _ hk
    simp only at this
    omega
  · have := dfsCost_le (d := { d with e := es, h := h, cur := List.replicate n 0 })
      (by show (List.replicate n 0).length = d.g.length; rw [hM.st.gl, hM.nv, List.length_replicate])
      (fun x => getD_replicate) (by simp) _ hk
    simp only [Nat.add_sub_cancel] at this
    rw [harc] at this
    exact this

/-- The three counters on the ladder with 4 vertices: the searches look at 1 + 3 + 6 + 7 arcs, the loops of `dfs` make
2 + 5 + 7 rounds. On a path whose first edge is the narrow one, a round of the inner `dfs` ends with `break`. -/
theorem C66_counters :
    (flowRun ⟨true, 64⟩ (Dinic.new 4) (ladder 4) >>= fun r => r.2.getMaxFlowCost ⟨true, 64⟩ 0 3 >>= fun o =>
      ok (o.1.2, o.2)) = ok (3, ⟨3, 17, 14⟩) ∧
    (flowRun ⟨true, 64⟩ (Dinic.new 3) [.addEdge 0 1 1, .addEdge 1 2 5] >>= fun r =>
      r.2.getMaxFlowCost ⟨true, 64⟩ 0 2 >>= fun o => ok (o.1.2, o.2)) = ok (1, ⟨1, 4, 3⟩) := by
  decide +kernel

/-- The hypotheses are met by the ladder. -/
example : ∃ outs d d' v w, flowRun ⟨true, 64⟩ (Dinic.new 5) (ladder 5) = ok (outs, d) ∧
    d.getMaxFlow ⟨true, 64⟩ 0 4 = ok (d', v) ∧ d.getMaxFlowCost ⟨true, 64⟩ 0 4 = ok ((d', v), w) ∧ w.phases < 5 ∧
    w.bfsArcs ≤ (w.phases + 1) * (2 * 7) ∧ w.dfsRounds ≤ w.phases * (2 * 7 + 5 * (2 * 7 + 1)) :=
  C66_history ⟨true, 64⟩ (by decide) 5 (by decide) (ladder 5)
    (by simp [ladder, List.range_succ, FlowOp.Pre]) (by decide +kernel) (by decide) (by decide)

end Verif.Props
