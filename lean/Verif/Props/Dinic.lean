import Verif.Proof.Dinic
/-! C19, C20: `Dinic::get_max_flow` computes maximum flows, for every history of calls. -/
namespace Verif.Props
open Model Spec Res DinicP FlowP Finset

/-! ### States between calls -/

/-- State `d` on `n` vertices holds exactly the network `N`. -/
structure FlowRep (ty : IntTy) (n : Nat) (N : List NEdge) (d : Dinic) : Prop where
  st : St N d
  nv : d.n = n
  cap : ∀ j, j < 2 * N.length → cp d j = cap0 N j
  fits : Fits ty N

theorem residual_length (N : List NEdge) (x : Nat → Int) : (residual N x).length = N.length := by
  simp [residual]

theorem ed_residual {N : List NEdge} {x : Nat → Int} {k : Nat} (hk : k < N.length) :
    ed (residual N x) k = { ed N k with a := (ed N k).a - x k, b := (ed N k).b + x k } := by
  simp [ed, residual, List.getD_eq_getElem?_getD, hk]

theorem netOut_residual (N : List NEdge) (x z : Nat → Int) (y : Nat) :
    netOut (residual N x) z y = netOut N z y := by
  rw [netOut_range, netOut_range, residual_length]
  exact Finset.sum_congr rfl fun k hk => by rw [ed_residual (mem_range.1 hk)]

theorem netOut_add (N : List NEdge) (x z : Nat → Int) (y : Nat) :
    netOut N (fun k => x k + z k) y = netOut N x y + netOut N z y := by
  rw [netOut_range, netOut_range, netOut_range, ← Finset.sum_add_distrib]
  refine Finset.sum_congr rfl fun k _ => ?_
  split <;> split <;> omega

/-- After a call the state holds the residual network of the flow it carries. -/
theorem flowRep_residual {ty : IntTy} {n : Nat} {N : List NEdge} {d d0 : Dinic}
    (h0 : FlowRep ty n N d0) (h : St N d) (hn : d.n = d0.n) :
    FlowRep ty n (residual N (flowOf N d)) d := by
  have hl := residual_length N (flowOf N d)
  have htl : ∀ j, j < 2 * N.length → tl (residual N (flowOf N d)) j = tl N j := by
    intro j hj; unfold tl; rw [ed_residual (by omega)]
  have hhd : ∀ j, j < 2 * N.length → hd (residual N (flowOf N d)) j = hd N j := by
    intro j hj; unfold hd; rw [ed_residual (by omega)]
  have hcap : ∀ j, j < 2 * N.length → cp d j = cap0 (residual N (flowOf N d)) j := by
    intro j hj
    unfold cap0
    rw [ed_residual (by omega)]
    rcases Nat.mod_two_eq_zero_or_one j with h2 | h2
    · rw [if_pos h2]
      show cp d j = (ed N (j / 2)).a - ((ed N (j / 2)).a - cp d (2 * (j / 2)))
      rw [show 2 * (j / 2) = j by omega]; omega
    · rw [if_neg (by omega)]
      show cp d j = (ed N (j / 2)).b + ((ed N (j / 2)).a - cp d (2 * (j / 2)))
      have := h.pair' (k := j / 2) (by omega)
      rw [show 2 * (j / 2) + 1 = j by omega] at this
      omega
  refine ⟨⟨by rw [hl]; exact h.el, h.gl, h.cl, h.hl, ?_, ?_, ?_, by rw [hl]; exact h.nn, ?_⟩,
    hn.trans h0.nv, by rw [hl]; exact hcap, ?_⟩
  · intro j hj; rw [hl] at hj; rw [h.toh j hj, hhd j hj]
  · intro j hj; rw [hl] at hj; rw [htl j hj]; exact h.tln j hj
  · intro x j; rw [hl, h.g]
    constructor
    · rintro ⟨h1, h2⟩; exact ⟨h1, by rw [htl j h1]; exact h2⟩
    · rintro ⟨h1, h2⟩; exact ⟨h1, by rw [← htl j h1]; exact h2⟩
  · intro j hj; rw [hl] at hj
    rw [← hcap j hj, ← hcap _ (xor_lt hj)]
  · intro j hj; rw [hl] at hj
    rw [← hcap j hj, ← hcap _ (xor_lt hj), h.pair j hj]
    exact h0.fits j hj

theorem flowRep_new (ty : IntTy) (n : Nat) : FlowRep ty n [] (Dinic.new n) := by
  refine ⟨⟨rfl, by simp [Dinic.new], by simp [Dinic.new], by simp [Dinic.new], ?_, ?_, ?_, ?_, ?_⟩, rfl,
    ?_, ?_⟩
  · intro j hj; simp at hj
  · intro j hj; simp at hj
  · intro x j
    show j ∈ (List.replicate n []).getD x [] ↔ _
    rw [getD_replicate]; simp
  · intro j hj; simp at hj
  · intro j hj; simp at hj
  · intro j hj; simp at hj
  · intro j hj; simp at hj

theorem ed_append_left {N : List NEdge} {e : NEdge} {k : Nat} (hk : k < N.length) :
    ed (N ++ [e]) k = ed N k := by
  simp [ed, List.getD_eq_getElem?_getD, List.getElem?_append_left hk]

theorem ed_append_last {N : List NEdge} {e : NEdge} : ed (N ++ [e]) N.length = e := by
  simp [ed, List.getD_eq_getElem?_getD]

theorem flowAdd_sat {ty : IntTy} {n u v : Nat} {c : Int} {N : List NEdge} {d : Dinic}
    (h : FlowRep ty n N d) (hu : u < n) (hv : v < n) (hc : 0 ≤ c) (hcm : c ≤ ty.mx) :
    Sat (d.addEdge u v c) (FlowRep ty n (N ++ [⟨u, v, c, 0⟩])) := by
  have hs := h.st
  have hgl : d.g.length = n := hs.gl.trans h.nv
  unfold Dinic.addEdge
  rw [idx_of_some (some_getD [] (by omega)), ok_bind, upd_of_lt (by omega), ok_bind,
    idx_of_some (some_getD [] (by rw [List.length_set]; omega)), ok_bind,
    upd_of_lt (by rw [List.length_set]; omega), ok_bind, sat_ok]
  have hel := hs.el
  let N' := N ++ [(⟨u, v, c, 0⟩ : NEdge)]
  have hN' : N'.length = N.length + 1 := by simp [N']
  have hjc : ∀ j, j < 2 * N'.length → j < 2 * N.length ∨ j = 2 * N.length ∨ j = 2 * N.length + 1 := by
    intro j hj; omega
  have edl : ∀ k, k < N.length → ed N' k = ed N k := fun k hk => ed_append_left hk
  have edn : ed N' N.length = ⟨u, v, c, 0⟩ := ed_append_last
  have htl : ∀ j, j < 2 * N.length → tl N' j = tl N j := by
    intro j hj; unfold tl; rw [edl _ (by omega)]
  have hhd : ∀ j, j < 2 * N.length → hd N' j = hd N j := by
    intro j hj; unfold hd; rw [edl _ (by omega)]
  have hca : ∀ j, j < 2 * N.length → cap0 N' j = cap0 N j := by
    intro j hj; unfold cap0; rw [edl _ (by omega)]
  have q0 : 2 * N.length / 2 = N.length := by omega
  have q1 : (2 * N.length + 1) / 2 = N.length := by omega
  have m0 : 2 * N.length % 2 = 0 := by omega
  have m1 : ¬ (2 * N.length + 1) % 2 = 0 := by omega
  have tl0 : tl N' (2 * N.length) = u := by unfold tl; rw [if_pos m0, q0, edn]
  have tl1 : tl N' (2 * N.length + 1) = v := by unfold tl; rw [if_neg m1, q1, edn]
  have hd0 : hd N' (2 * N.length) = v := by unfold hd; rw [if_pos m0, q0, edn]
  have hd1 : hd N' (2 * N.length + 1) = u := by unfold hd; rw [if_neg m1, q1, edn]
  have ca0 : cap0 N' (2 * N.length) = c := by unfold cap0; rw [if_pos m0, q0, edn]
  have ca1 : cap0 N' (2 * N.length + 1) = 0 := by unfold cap0; rw [if_neg m1, q1, edn]
  let e' := d.e ++ [(⟨v, c⟩ : FEdge)] ++ [⟨u, 0⟩]
  have ge : ∀ j, j < 2 * N.length → e'.getD j ⟨0, 0⟩ = d.e.getD j ⟨0, 0⟩ := by
    intro j hj
    rw [List.getD_eq_getElem?_getD, List.getD_eq_getElem?_getD]
    show ((d.e ++ [(⟨v, c⟩ : FEdge)] ++ [⟨u, 0⟩])[j]?).getD _ = _
    rw [List.append_assoc, List.getElem?_append_left (by omega)]
  have ge0 : e'.getD (2 * N.length) ⟨0, 0⟩ = ⟨v, c⟩ := by
    rw [List.getD_eq_getElem?_getD]
    show ((d.e ++ [(⟨v, c⟩ : FEdge)] ++ [⟨u, 0⟩])[2 * N.length]?).getD _ = _
    rw [← hel]; simp
  have ge1 : e'.getD (2 * N.length + 1) ⟨0, 0⟩ = ⟨u, 0⟩ := by
    rw [List.getD_eq_getElem?_getD]
    show ((d.e ++ [(⟨v, c⟩ : FEdge)] ++ [⟨u, 0⟩])[2 * N.length + 1]?).getD _ = _
    rw [← hel, List.getElem?_append_right (by simp)]; simp
  let d' : Dinic := { d with
    g := (d.g.set u (d.g.getD u [] ++ [d.e.length])).set v
      ((d.g.set u (d.g.getD u [] ++ [d.e.length])).getD v [] ++ [(d.e ++ [(⟨v, c⟩ : FEdge)]).length])
    e := e' }
  show FlowRep ty n N' d'
  have hg : ∀ x j, j ∈ d'.g.getD x [] ↔ j ∈ d.g.getD x [] ∨ (x = u ∧ j = 2 * N.length) ∨
      (x = v ∧ j = 2 * N.length + 1) := by
    intro x j
    show j ∈ ((d.g.set u (d.g.getD u [] ++ [d.e.length])).set v
      ((d.g.set u (d.g.getD u [] ++ [d.e.length])).getD v [] ++
        [(d.e ++ [(⟨v, c⟩ : FEdge)]).length])).getD x [] ↔ _
    rw [getD_set (by rw [List.length_set]; omega), getD_set (by omega), getD_set (by omega)]
    simp only [List.length_append, List.length_singleton, hel]
    by_cases h1 : x = v
    · subst h1
      by_cases h2 : x = u
      · subst h2; simp [or_assoc]
      · simp [h2]
    · by_cases h2 : x = u
      · subst h2; simp [h1]
      · simp [h1, h2]
  have hcp : ∀ j, j < 2 * N'.length → cp d' j = cap0 N' j := by
    intro j hj
    show (e'.getD j ⟨0, 0⟩).cap = _
    rcases hjc j hj with h1 | rfl | rfl
    · rw [ge j h1, hca j h1]; exact h.cap j h1
    · rw [ge0, ca0]
    · rw [ge1, ca1]
  have hx0 : 2 * N.length ^^^ 1 = 2 * N.length + 1 := xor_even _
  have hx1 : (2 * N.length + 1) ^^^ 1 = 2 * N.length := by
    rw [DinicP.xor_one, if_neg m1]; omega
  refine ⟨⟨?_, ?_, hs.cl, hs.hl, ?_, ?_, ?_, ?_, ?_⟩, h.nv, hcp, ?_⟩
  · show e'.length = _
    simp only [e', List.length_append, List.length_singleton, hN', hel]; omega
  · show ((d.g.set u _).set v _).length = d.n
    rw [List.length_set, List.length_set]; exact hs.gl
  · intro j hj
    show (e'.getD j ⟨0, 0⟩).to = _
    rcases hjc j hj with h1 | rfl | rfl
    · rw [ge j h1, hhd j h1]; exact hs.toh j h1
    · rw [ge0, hd0]
    · rw [ge1, hd1]
  · intro j hj
    show _ < d.n
    rcases hjc j hj with h1 | rfl | rfl
    · rw [htl j h1]; exact hs.tln j h1
    · rw [tl0, h.nv]; exact hu
    · rw [tl1, h.nv]; exact hv
  · intro x j
    rw [hg, hs.g]
    constructor
    · rintro (⟨h1, h2⟩ | ⟨rfl, rfl⟩ | ⟨rfl, rfl⟩)
      · exact ⟨by omega, by rw [htl j h1]; exact h2⟩
      · exact ⟨by omega, tl0⟩
      · exact ⟨by omega, tl1⟩
    · rintro ⟨h1, h2⟩
      rcases hjc j h1 with h1 | rfl | rfl
      · exact .inl ⟨h1, by rw [← htl j h1]; exact h2⟩
      · rw [tl0] at h2; exact .inr (.inl ⟨h2.symm, rfl⟩)
      · rw [tl1] at h2; exact .inr (.inr ⟨h2.symm, rfl⟩)
  · intro j hj
    rw [hcp j hj]
    rcases hjc j hj with h1 | rfl | rfl
    · rw [hca j h1, ← h.cap j h1]; exact hs.nn j h1
    · rw [ca0]; exact hc
    · rw [ca1]
  · intro j hj
    rw [hcp j hj, hcp _ (xor_lt hj)]
  · intro j hj
    rcases hjc j hj with h1 | rfl | rfl
    · rw [hca j h1, hca _ (xor_lt h1)]; exact h.fits j h1
    · rw [hx0, ca0, ca1]; omega
    · rw [hx1, ca0, ca1]; omega

/-! ### One call -/

/-- **C19, one call.** In a state that holds the network `N` (fresh, or what earlier calls left), with
`s`, `t` in range and every maximum flow representable, `get_max_flow` terminates without panic,
returns the maximum flow value, which is the minimum cut capacity when `s ≠ t`, and leaves the residual
network of a maximum flow. -/
theorem C19_get_max_flow {ty : IntTy} {n : Nat} {N : List NEdge} {d : Dinic}
    (h : FlowRep ty n N d) (hmx : 0 < ty.mx) (hn : n < 2 ^ 31) {s t : Nat} (hs : s < n) (ht : t < n)
    (hfit : ∀ x, IsFlow N s t x → netOut N x s ≤ ty.mx) :
    ∃ d' v x, d.getMaxFlow ty s t = ok (d', v) ∧ IsMaxFlow N s t v ∧ (s ≠ t → IsMinCut N s t v) ∧
      IsFlow N s t x ∧ netOut N x s = v ∧ FlowRep ty n (residual N x) d' := by
  have hnv := h.nv
  obtain ⟨⟨d', v⟩, e, _, h1, h2, h3, h4, h5, h6, h7⟩ := (loop_sat' (t := t) h.st h.cap h.fits hmx
    (by omega) (by omega : s < d.n) (by omega)).sat (by
      rintro ⟨x, hx, hlt⟩
      have := hfit x hx; omega)
  exact ⟨d', v, flowOf N d', e, h6, h7, h4, h5, flowRep_residual h h1 h2⟩

/-- The representability hypothesis is exact: when some flow has a value above the maximum of the
capacity type, the call panics (the answer overflows). -/
theorem C19_overflow_panics {ty : IntTy} {n : Nat} {N : List NEdge} {d : Dinic}
    (h : FlowRep ty n N d) (hmx : 0 < ty.mx) (hn : n < 2 ^ 31) {s t : Nat} (hs : s < n) (ht : t < n)
    {x : Nat → Int} (hx : IsFlow N s t x) (hlt : ty.mx < netOut N x s) :
    d.getMaxFlow ty s t = .panic := by
  have hnv := h.nv
  rcases loop_sat' (t := t) h.st h.cap h.fits hmx (by omega) (by omega : s < d.n) (by omega) with
    ⟨⟨d', v⟩, e, h0, h1, h2, h3, h4, h5, h6, h7⟩ | ⟨_, e⟩
  · have := h6.2 x hx
    simp only at h0
    omega
  · exact e

/-- Terminals out of range panic. -/
theorem C19_terminals_panic (ty : IntTy) {n : Nat} {N : List NEdge} {d : Dinic}
    (h : FlowRep ty n N d) {s t : Nat} (hst : n ≤ s ∨ n ≤ t) : d.getMaxFlow ty s t = .panic := by
  have hnv := h.nv
  unfold Dinic.getMaxFlow
  by_cases hs : s < d.n
  · rw [assert_true hs, ok_bind, assert_false (by omega)]; rfl
  · rw [assert_false hs]; rfl

/-! ### Histories -/

/-- A history of calls on one `Dinic`: the answers of `get_max_flow`, in order, and the final state. -/
def flowRun (ty : IntTy) (d : Dinic) : List FlowOp → Res (List Int × Dinic)
  | [] => ok ([], d)
  | .addEdge u v c :: ops => do
    let d ← d.addEdge u v c
    flowRun ty d ops
  | .maxFlow s t :: ops => do
    let (d, a) ← d.getMaxFlow ty s t
    let (as, d) ← flowRun ty d ops
    ok (a :: as, d)

/-- The edges a history adds. -/
def edgesOf : List FlowOp → List NEdge
  | [] => []
  | .addEdge u v c :: ops => ⟨u, v, c, 0⟩ :: edgesOf ops
  | .maxFlow _ _ :: ops => edgesOf ops

theorem total_append (N : List NEdge) (e : NEdge) : total (N ++ [e]) = total N + (e.a + e.b) := by
  unfold total
  rw [List.length_append, List.length_singleton, Finset.sum_range_succ, ed_append_last]
  congr 1
  exact Finset.sum_congr rfl fun k hk => by rw [ed_append_left (mem_range.1 hk)]

theorem total_residual (N : List NEdge) (x : Nat → Int) : total (residual N x) = total N := by
  unfold total
  rw [residual_length]
  refine Finset.sum_congr rfl fun k hk => ?_
  rw [ed_residual (mem_range.1 hk)]
  show (ed N k).a - x k + ((ed N k).b + x k) = _
  omega

/-- `M` has the end points and total capacities of `N`. -/
def SameCaps (N M : List NEdge) : Prop :=
  N.map (fun e => (e.u, e.v, e.a + e.b)) = M.map (fun e => (e.u, e.v, e.a + e.b))

theorem sameCaps_residual (N : List NEdge) (x : Nat → Int) : SameCaps (residual N x) N := by
  unfold SameCaps
  apply List.ext_getElem
  · simp [residual]
  · intro i h1 h2
    simp [residual]

theorem flowRun_sat {ty : IntTy} {n : Nat} (hmx : 0 < ty.mx) (hn : n < 2 ^ 31) :
    ∀ (ops : List FlowOp) (N : List NEdge) (d : Dinic), FlowRep ty n N d →
    (∀ o ∈ ops, o.Pre n) → total N + (ops.map FlowOp.cap).sum ≤ ty.mx →
    Sat (flowRun ty d ops) (fun r => FlowRunOk N ops r.1 ∧
      ∃ M, FlowRep ty n M r.2 ∧ SameCaps M (N ++ edgesOf ops)) := by
  intro ops
  induction ops with
  | nil =>
    intro N d h _ _
    rw [flowRun, sat_ok]
    exact ⟨trivial, N, h, by simp [edgesOf, SameCaps]⟩
  | cons o ops ih =>
    intro N d h hp htot
    have hp1 := hp o (List.mem_cons_self ..)
    have hp2 : ∀ o ∈ ops, o.Pre n := fun o ho => hp o (List.mem_cons_of_mem _ ho)
    have hnn : ∀ k < N.length, 0 ≤ (ed N k).a ∧ 0 ≤ (ed N k).b := by
      intro k hk
      have h1 := h.st.nn (2 * k) (by omega)
      have h2 := h.st.nn (2 * k + 1) (by omega)
      rw [h.cap _ (by omega), cap0_even] at h1
      rw [h.cap _ (by omega), cap0_odd] at h2
      exact ⟨h1, h2⟩
    have hcap : 0 ≤ (ops.map FlowOp.cap).sum := by
      apply List.sum_nonneg
      intro x hx
      obtain ⟨o', ho', rfl⟩ := List.mem_map.1 hx
      have := hp2 o' ho'
      cases o' with
      | addEdge => exact this.2.2
      | maxFlow => exact le_refl _
    rw [List.map_cons, List.sum_cons] at htot
    cases o with
    | addEdge u v c =>
      obtain ⟨hu, hv, hc⟩ := hp1
      have htotN : 0 ≤ total N := Finset.sum_nonneg fun k hk => by
        have := hnn k (mem_range.1 hk); omega
      change total N + (c + _) ≤ _ at htot
      rw [flowRun, sat_bind]
      refine (flowAdd_sat h hu hv hc (by omega)).mono fun d' h' => ?_
      refine (ih _ d' h' hp2 (by rw [total_append]; simp only; omega)).mono ?_
      rintro ⟨as, d''⟩ ⟨h1, M, h2, h3⟩
      refine ⟨h1, M, h2, ?_⟩
      simpa [edgesOf, List.append_assoc] using h3
    | maxFlow s t =>
      obtain ⟨hs, ht⟩ := hp1
      change total N + (0 + _) ≤ _ at htot
      obtain ⟨d', v, x, e, h1, h2, h3, h4, h5⟩ := C19_get_max_flow h hmx hn hs ht (by
        intro x hx
        have := value_le_total hx hnn; omega)
      rw [flowRun, e, ok_bind, sat_bind]
      refine (ih _ d' h5 hp2 (by rw [total_residual]; omega)).mono ?_
      rintro ⟨as, d''⟩ ⟨h6, M, h7, h8⟩
      simp only [sat_ok]
      refine ⟨⟨h1, x, h3, h4, h6⟩, M, h7, ?_⟩
      have := sameCaps_residual N x
      unfold SameCaps at h8 this ⊢
      rw [h8, List.map_append, List.map_append, this, edgesOf]

/-- **C19, all histories.** After `new(n)`, any sequence of `add_edge` (in range, non-negative
capacities whose sum fits the type) and `get_max_flow` (any terminals, in any order) runs to the end
without panic, and every answer is the maximum flow value of what the earlier calls left. -/
theorem C19_history (ty : IntTy) (hmx : 0 < ty.mx) (n : Nat) (hn : n < 2 ^ 31) (ops : List FlowOp)
    (hp : ∀ o ∈ ops, o.Pre n) (hsum : (ops.map FlowOp.cap).sum ≤ ty.mx) :
    ∃ outs d, flowRun ty (Dinic.new n) ops = ok (outs, d) ∧ FlowRunOk [] ops outs := by
  obtain ⟨⟨outs, d⟩, e, h, _⟩ := flowRun_sat hmx hn ops [] _ (flowRep_new ty n) hp
    (by simpa [total] using hsum)
  exact ⟨outs, d, e, h⟩

theorem isMaxFlow_residual {N : List NEdge} {s t : Nat} {X : Nat → Int} {w : Int}
    (hX : IsFlow N s t X) (h : IsMaxFlow (residual N X) s t w) :
    IsMaxFlow N s t (netOut N X s + w) := by
  have hl := residual_length N X
  have hmk : ∀ z, (∀ k < N.length, -(ed N k).b ≤ z k ∧ z k ≤ (ed N k).a) →
      (∀ y, y ≠ s → y ≠ t → netOut N z y = 0) → IsFlow N s t z := by
    intro z h1 h2
    refine ⟨fun k => ?_, h2⟩
    have := h1 k k.2; rw [ed_eq] at this; exact this
  obtain ⟨⟨y, hy, hv⟩, hmax⟩ := h
  refine ⟨⟨fun k => X k + y k, hmk _ ?_ ?_, ?_⟩, ?_⟩
  · intro k hk
    have h1 := bounds_range hy (k := k) (by rw [hl]; exact hk)
    rw [ed_residual hk] at h1
    simp only at h1 ⊢
    omega
  · intro z h1 h2
    have a1 := hX.cons z h1 h2
    have a2 := hy.cons z h1 h2
    rw [netOut_residual] at a2
    rw [netOut_add]; omega
  · rw [netOut_add]
    rw [netOut_residual] at hv
    omega
  · intro z hz
    have hz' : IsFlow (residual N X) s t (fun k => z k + -X k) := by
      refine ⟨fun k => ?_, ?_⟩
      · have hk : (k : Nat) < N.length := by rw [← hl]; exact k.2
        have h1 := bounds_range hz hk
        rw [← ed_eq, ed_residual hk]
        simp only
        omega
      · intro y h1 h2
        have a1 := hX.cons y h1 h2
        have a2 := hz.cons y h1 h2
        rw [netOut_residual, netOut_add]
        have : netOut N (fun k => -X k) y = - netOut N X y := by
          rw [netOut_range, netOut_range, ← Finset.sum_neg_distrib]
          refine Finset.sum_congr rfl fun k _ => ?_
          split <;> split <;> omega
        omega
    have := hmax _ hz'
    rw [netOut_residual, netOut_add] at this
    have h2 : netOut N (fun k => -X k) s = - netOut N X s := by
      rw [netOut_range, netOut_range, ← Finset.sum_neg_distrib]
      refine Finset.sum_congr rfl fun k _ => ?_
      split <;> split <;> omega
    omega

theorem residual_residual (N : List NEdge) (x z : Nat → Int) :
    residual (residual N x) z = residual N (fun k => x k + z k) := by
  apply List.ext_getElem
  · simp [residual]
  · intro i h1 h2
    simp [residual]; omega

theorem residual_zero (N : List NEdge) : residual N (fun _ => 0) = N := by
  apply List.ext_getElem
  · simp [residual]
  · intro i h1 h2; simp [residual]

/-- Extending a flow by an unused edge. -/
theorem isFlow_append {N : List NEdge} {s t : Nat} {X : Nat → Int} (hX : IsFlow N s t X) (e : NEdge)
    (ha : 0 ≤ e.a) (hb : 0 ≤ e.b) :
    ∃ X', IsFlow (N ++ [e]) s t X' ∧ netOut (N ++ [e]) X' s = netOut N X s ∧
      residual (N ++ [e]) X' = residual N X ++ [e] := by
  let X' : Nat → Int := fun k => if k < N.length then X k else 0
  have hnet : ∀ y, netOut (N ++ [e]) X' y = netOut N X y := by
    intro y
    rw [netOut_range, netOut_range, List.length_append, List.length_singleton, Finset.sum_range_succ]
    have : X' N.length = 0 := by simp [X']
    rw [this]
    simp only [ite_self, sub_zero, add_zero]
    refine Finset.sum_congr rfl fun k hk => ?_
    have hk := mem_range.1 hk
    rw [ed_append_left hk]; simp [X', hk]
  refine ⟨X', ⟨fun k => ?_, fun y h1 h2 => by rw [hnet]; exact hX.cons y h1 h2⟩, hnet s, ?_⟩
  · rw [← ed_eq]
    by_cases hk : (k : Nat) < N.length
    · rw [ed_append_left hk]
      have := bounds_range hX hk
      simpa [X', hk] using this
    · have hk2 : (k : Nat) = N.length := by
        have := k.2; simp at this; omega
      rw [hk2, ed_append_last]
      simp [X', ha, hb]
  · unfold residual
    rw [List.mapIdx_append]
    have h2 : List.mapIdx (fun k (e : NEdge) => { e with a := e.a - X' k, b := e.b + X' k }) N =
        List.mapIdx (fun k (e : NEdge) => { e with a := e.a - X k, b := e.b + X k }) N := by
      apply List.ext_getElem
      · simp
      · intro i h1 h2
        have hi : i < N.length := by simpa using h1
        simp [X', hi]
    rw [h2]
    simp [X']

theorem flowRun_total {n s t : Nat} : ∀ (ops : List FlowOp) (P : List NEdge) (X : Nat → Int)
    (outs : List Int), (∀ o ∈ ops, o.Pre n) → (∀ s' t', .maxFlow s' t' ∈ ops → s' = s ∧ t' = t) →
    IsFlow P s t X → FlowRunOk (residual P X) (ops ++ [.maxFlow s t]) outs →
    IsMaxFlow (P ++ edgesOf ops) s t (netOut P X s + outs.sum) := by
  intro ops
  induction ops with
  | nil =>
    intro P X outs _ _ hX h
    match outs, h with
    | [v], ⟨h1, _⟩ =>
      simpa [edgesOf] using isMaxFlow_residual hX h1
    | v :: w :: outs, ⟨_, _, _, _, h2⟩ => exact absurd h2 (by simp [FlowRunOk])
  | cons o ops ih =>
    intro P X outs hp hst hX h
    have hp2 : ∀ o ∈ ops, o.Pre n := fun o ho => hp o (List.mem_cons_of_mem _ ho)
    have hst2 : ∀ s' t', .maxFlow s' t' ∈ ops → s' = s ∧ t' = t :=
      fun s' t' h => hst s' t' (List.mem_cons_of_mem _ h)
    cases o with
    | addEdge u v c =>
      have hp1 := hp _ (List.mem_cons_self ..)
      obtain ⟨X', h1, h2, h3⟩ := isFlow_append hX ⟨u, v, c, 0⟩ hp1.2.2 (le_refl _)
      have h' : FlowRunOk (residual (P ++ [⟨u, v, c, 0⟩]) X') (ops ++ [.maxFlow s t]) outs := by
        rw [h3]; exact h
      have := ih _ X' outs hp2 hst2 h1 h'
      rw [h2] at this
      simpa [edgesOf] using this
    | maxFlow s' t' =>
      obtain ⟨rfl, rfl⟩ := hst s' t' (List.mem_cons_self ..)
      match outs, h with
      | v :: outs, ⟨hv, x, hx, hxv, h2⟩ =>
        rw [residual_residual] at h2
        have hX' : IsFlow P s' t' (fun k => X k + x k) := by
          refine ⟨fun k => ?_, ?_⟩
          · have h1 := bounds_range hx (k := k) (by rw [residual_length]; exact k.2)
            rw [ed_residual k.2, ed_eq] at h1
            simp only at h1 ⊢
            omega
          · intro y h1 h2
            have a1 := hX.cons y h1 h2
            have a2 := hx.cons y h1 h2
            rw [netOut_residual] at a2
            rw [netOut_add]; omega
        have := ih P _ outs hp2 hst2 hX' h2
        rw [netOut_add] at this
        rw [netOut_residual] at hxv
        rw [hxv] at this
        simpa [edgesOf, List.sum_cons, add_assoc] using this

/-- **C19, incremental use.** If every `get_max_flow` of a history uses the same terminals, then after
each of them the answers so far add up to the maximum flow value of all edges added so far. -/
theorem C19_incremental (ty : IntTy) (hmx : 0 < ty.mx) (n : Nat) (hn : n < 2 ^ 31)
    (ops : List FlowOp) {s t : Nat} (hs : s < n) (ht : t < n) (hp : ∀ o ∈ ops, o.Pre n)
    (hst : ∀ s' t', .maxFlow s' t' ∈ ops → s' = s ∧ t' = t)
    (hsum : (ops.map FlowOp.cap).sum ≤ ty.mx) :
    ∃ outs d, flowRun ty (Dinic.new n) (ops ++ [.maxFlow s t]) = ok (outs, d) ∧
      IsMaxFlow (edgesOf ops) s t outs.sum := by
  obtain ⟨outs, d, e, h⟩ := C19_history ty hmx n hn (ops ++ [.maxFlow s t]) (by
    intro o ho
    rcases List.mem_append.1 ho with ho | ho
    · exact hp o ho
    · simp at ho; subst ho; exact ⟨hs, ht⟩) (by simpa [FlowOp.cap] using hsum)
  refine ⟨outs, d, e, ?_⟩
  have h0 : IsFlow [] s t (fun _ => 0) := ⟨fun k => absurd k.2 (by simp), fun y _ _ => by simp [netOut]⟩
  have := flowRun_total ops [] (fun _ => 0) outs hp hst h0 h
  simpa [netOut] using this

/-- **C19, fresh network.** `new`, then edges, then one `get_max_flow`: the maximum flow of the
network that was entered. A second call with the same terminals returns 0. -/
theorem C19_fresh (ty : IntTy) (hmx : 0 < ty.mx) (n : Nat) (hn : n < 2 ^ 31)
    (E : List (Nat × Nat × Int)) {s t : Nat} (hs : s < n) (ht : t < n)
    (hE : ∀ e ∈ E, e.1 < n ∧ e.2.1 < n ∧ 0 ≤ e.2.2) (hsum : (E.map fun e => e.2.2).sum ≤ ty.mx) :
    ∃ v d, flowRun ty (Dinic.new n) (E.map (fun e => .addEdge e.1 e.2.1 e.2.2) ++
        [.maxFlow s t, .maxFlow s t]) = ok ([v, 0], d) ∧
      IsMaxFlow (E.map fun e => ⟨e.1, e.2.1, e.2.2, 0⟩) s t v := by
  let adds : List FlowOp := E.map (fun e => .addEdge e.1 e.2.1 e.2.2)
  have hpa : ∀ o ∈ adds, o.Pre n := by
    intro o ho
    obtain ⟨e, he, rfl⟩ := List.mem_map.1 ho
    exact hE e he
  have hed : ∀ E : List (Nat × Nat × Int), edgesOf (E.map (fun e => .addEdge e.1 e.2.1 e.2.2)) =
      E.map fun e => ⟨e.1, e.2.1, e.2.2, 0⟩ := by
    intro E
    induction E with
    | nil => rfl
    | cons e E ih => simp [edgesOf, ih]
  have hcap : (adds.map FlowOp.cap).sum ≤ ty.mx := by
    have : adds.map FlowOp.cap = E.map fun e => e.2.2 := by simp [adds, FlowOp.cap, Function.comp_def]
    rw [this]; exact hsum
  have hno : ∀ s' t', FlowOp.maxFlow s' t' ∉ adds := by
    intro s' t' h
    obtain ⟨e, _, he⟩ := List.mem_map.1 h
    cases he
  obtain ⟨outs, d, e, h⟩ := C19_history ty hmx n hn (adds ++ [.maxFlow s t, .maxFlow s t]) (by
    intro o ho
    rcases List.mem_append.1 ho with ho | ho
    · exact hpa o ho
    · simp at ho; subst ho; exact ⟨hs, ht⟩) (by simpa [FlowOp.cap] using hcap)
  have h0 : IsFlow [] s t (fun _ => 0) := ⟨fun k => absurd k.2 (by simp), fun y _ _ => by simp [netOut]⟩
  -- one call
  have key : ∀ (ops : List FlowOp) (N : List NEdge) (outs : List Int), (∀ s' t', FlowOp.maxFlow s' t' ∉ ops) →
      FlowRunOk N (ops ++ [.maxFlow s t, .maxFlow s t]) outs →
      ∃ v w, outs = [v, w] ∧ FlowRunOk N (ops ++ [.maxFlow s t]) [v] := by
    intro ops
    induction ops with
    | nil =>
      intro N outs _ h
      match outs, h with
      | [v, w], ⟨h1, x, h2, h3, h4⟩ => exact ⟨v, w, rfl, h1, x, h2, h3, trivial⟩
      | v :: w :: z :: outs, ⟨_, _, _, _, _, _, _, _, h2⟩ => exact absurd h2 (by simp [FlowRunOk])
    | cons o ops ih =>
      intro N outs hno h
      cases o with
      | addEdge u v c => exact ih _ outs (fun s' t' h => hno s' t' (List.mem_cons_of_mem _ h)) h
      | maxFlow s' t' => exact absurd (List.mem_cons_self ..) (hno s' t')
  obtain ⟨v, w, rfl, hv⟩ := key adds [] outs hno h
  have m1 := flowRun_total adds [] (fun _ => 0) [v] hpa (fun s' t' h => absurd h (hno s' t')) h0 hv
  have m2 := flowRun_total (n := n) (adds ++ [.maxFlow s t]) [] (fun _ => 0) [v, w] (by
    intro o ho
    rcases List.mem_append.1 ho with ho | ho
    · exact hpa o ho
    · simp at ho; subst ho; exact ⟨hs, ht⟩) (by
    intro s' t' h
    rcases List.mem_append.1 h with h | h
    · exact absurd h (hno s' t')
    · simpa using h) h0 (by simpa [residual] using h)
  have hed2 : edgesOf (adds ++ [.maxFlow s t]) = edgesOf adds := by
    have : ∀ l : List FlowOp, edgesOf (l ++ [.maxFlow s t]) = edgesOf l := by
      intro l
      induction l with
      | nil => rfl
      | cons o l ih => cases o <;> simp [edgesOf, ih]
    exact this _
  rw [hed2] at m2
  simp only [netOut, List.length_nil, Finset.univ_eq_empty, Finset.sum_empty, List.sum_cons, List.sum_nil,
    zero_add, add_zero, List.nil_append] at m1 m2
  have hw : w = 0 := by
    obtain ⟨⟨x, hx, hxv⟩, hm⟩ := m1
    obtain ⟨⟨x', hx', hxv'⟩, hm'⟩ := m2
    have a1 := hm x' hx'
    have a2 := hm' x hx
    rw [hxv'] at a1
    rw [hxv] at a2
    omega
  subst hw
  exact ⟨v, d, e, by rw [← hed E]; exact m1⟩

/-- **C20.** After any history, the arcs come in pairs: the `k`-th edge added, `u → v` with capacity
`c`, has residual `x ≥ 0`, its reverse has residual `y ≥ 0`, and `x + y = c`. -/
theorem C20_capacities (ty : IntTy) (hmx : 0 < ty.mx) (n : Nat) (hn : n < 2 ^ 31) (ops : List FlowOp)
    (hp : ∀ o ∈ ops, o.Pre n) (hsum : (ops.map FlowOp.cap).sum ≤ ty.mx) :
    ∃ outs d, flowRun ty (Dinic.new n) ops = ok (outs, d) ∧
      d.e.length = 2 * (edgesOf ops).length ∧
      ∀ (k : Nat) (e : NEdge), (edgesOf ops)[k]? = some e → ∃ x y,
        d.e[2 * k]? = some ⟨e.v, x⟩ ∧ d.e[2 * k + 1]? = some ⟨e.u, y⟩ ∧ 0 ≤ x ∧ 0 ≤ y ∧ x + y = e.a := by
  obtain ⟨⟨outs, d⟩, e, _, M, hM, hsame⟩ := flowRun_sat hmx hn ops [] _ (flowRep_new ty n) hp
    (by simpa [total] using hsum)
  simp only [List.nil_append] at hM hsame
  have hlen : M.length = (edgesOf ops).length := by
    have := congrArg List.length hsame
    simpa using this
  have hb : ∀ (ops : List FlowOp) (k : Nat) (e : NEdge), (edgesOf ops)[k]? = some e → e.b = 0 := by
    intro ops
    induction ops with
    | nil => intro k e h; simp [edgesOf] at h
    | cons o ops ih =>
      intro k e h
      cases o with
      | addEdge u v c =>
        cases k with
        | zero => simp [edgesOf] at h; rw [← h]
        | succ k => exact ih k e (by simpa [edgesOf] using h)
      | maxFlow s t => exact ih k e h
  refine ⟨outs, d, e, by rw [hM.st.el, hlen], ?_⟩
  intro k ed' hk
  have hkl : k < M.length := by
    rw [hlen]
    exact (List.getElem?_eq_some_iff.1 hk).1
  have hs := congrArg (fun l => l[k]?) hsame
  simp only [List.getElem?_map, hk, List.getElem?_eq_getElem hkl, Option.map_some, Option.some.injEq,
    Prod.mk.injEq] at hs
  have hedk : ed M k = M[k] := ed_eq ⟨k, hkl⟩
  have t0 := hM.st.toh (2 * k) (by omega)
  have t1 := hM.st.toh (2 * k + 1) (by omega)
  have e0 : hd M (2 * k) = M[k].v := by
    unfold hd; rw [if_pos (by omega), show 2 * k / 2 = k by omega, hedk]
  have e1 : hd M (2 * k + 1) = M[k].u := by
    unfold hd; rw [if_neg (by omega), show (2 * k + 1) / 2 = k by omega, hedk]
  refine ⟨cp d (2 * k), cp d (2 * k + 1), ?_, ?_, hM.st.nn _ (by omega), hM.st.nn _ (by omega), ?_⟩
  · rw [some_getD ⟨0, 0⟩ (by rw [hM.st.el]; omega), ← hs.2.1, ← e0, ← t0]; rfl
  · rw [some_getD ⟨0, 0⟩ (by rw [hM.st.el]; omega), ← hs.1, ← e1, ← t1]; rfl
  · rw [hM.st.pair' hkl, hedk, hs.2.2, hb ops k ed' hk, add_zero]

/-- **C20, conservation.** Whatever a call leaves is the residual network of a flow: net outflow is
zero at every vertex other than the terminals, the value at `s`, and its opposite at `t`. -/
theorem C20_conservation {ty : IntTy} {n : Nat} {N : List NEdge} {d : Dinic}
    (h : FlowRep ty n N d) (hmx : 0 < ty.mx) (hn : n < 2 ^ 31) {s t : Nat} (hs : s < n) (ht : t < n)
    (hfit : ∀ x, IsFlow N s t x → netOut N x s ≤ ty.mx) :
    ∃ d' v x, d.getMaxFlow ty s t = ok (d', v) ∧ FlowRep ty n (residual N x) d' ∧
      (∀ k : Fin N.length, -N[k].b ≤ x k ∧ x k ≤ N[k].a) ∧
      ∀ y, netOut N x y = (if y = s then v else 0) - (if y = t then v else 0) := by
  obtain ⟨d', v, x, e, h1, _, h3, h4, h5⟩ := C19_get_max_flow h hmx hn hs ht hfit
  refine ⟨d', v, x, e, h5, h3.bounds, ?_⟩
  -- the total over all vertices vanishes
  have hall : ∀ S : Finset Nat, s ∈ S → t ∈ S → (∀ k < N.length, (ed N k).u ∈ S ∧ (ed N k).v ∈ S) →
      s ≠ t → netOut N x s + netOut N x t = 0 := by
    intro S hsS htS hS hne
    have h6 : ∑ y ∈ S, netOut N x y = 0 := by
      rw [sum_netOut]
      apply Finset.sum_eq_zero
      intro k hk
      obtain ⟨a1, a2⟩ := hS k (mem_range.1 hk)
      rw [if_pos a1, if_pos a2]; omega
    rw [← Finset.add_sum_erase S _ hsS, ← Finset.add_sum_erase (S.erase s) _
      (Finset.mem_erase.2 ⟨Ne.symm hne, htS⟩)] at h6
    have h7 : ∑ y ∈ (S.erase s).erase t, netOut N x y = 0 := by
      apply Finset.sum_eq_zero
      intro y hy
      simp only [Finset.mem_erase] at hy
      exact h3.cons y hy.2.1 hy.1
    omega
  intro y
  by_cases hst : s = t
  · subst hst
    have hv := value_self h3
    by_cases hy : y = s
    · subst hy; simp [hv]
    · rw [h3.cons y hy hy]; simp [hy]
  · by_cases hys : y = s
    · subst hys; rw [h4]; simp [hst]
    · by_cases hyt : y = t
      · subst hyt
        have := hall (insert s (insert y
          ((range N.length).image (fun k => (ed N k).u) ∪ (range N.length).image (fun k => (ed N k).v))))
          (Finset.mem_insert_self _ _) (Finset.mem_insert_of_mem (Finset.mem_insert_self _ _)) (by
            intro k hk
            constructor
            · apply Finset.mem_insert_of_mem; apply Finset.mem_insert_of_mem; apply Finset.mem_union_left
              exact Finset.mem_image_of_mem (fun k => (ed N k).u) (mem_range.2 hk)
            · apply Finset.mem_insert_of_mem; apply Finset.mem_insert_of_mem; apply Finset.mem_union_right
              exact Finset.mem_image_of_mem (fun k => (ed N k).v) (mem_range.2 hk)) hst
        simp [hys]; omega
      · rw [h3.cons y hys hyt]; simp [hys, hyt]

/-- A network where the first augmenting path must be partly undone, with parallel edges, a loop and a
cycle; then an edge is added and the answer grows by the right amount; then other terminals. -/
example : (∀ o ∈ [FlowOp.addEdge 0 1 3, .addEdge 0 2 2, .addEdge 1 2 5, .addEdge 1 3 2, .addEdge 2 3 3,
      .addEdge 2 2 4, .addEdge 2 1 1, .maxFlow 0 3, .maxFlow 0 3, .addEdge 0 3 7, .maxFlow 0 3,
      .maxFlow 1 0, .maxFlow 2 2], o.Pre 4) ∧
    ((flowRun ⟨false, 8⟩ (Dinic.new 4) [.addEdge 0 1 3, .addEdge 0 2 2, .addEdge 1 2 5, .addEdge 1 3 2,
      .addEdge 2 3 3, .addEdge 2 2 4, .addEdge 2 1 1, .maxFlow 0 3, .maxFlow 0 3, .addEdge 0 3 7,
      .maxFlow 0 3, .maxFlow 1 0, .maxFlow 2 2] >>= fun r => ok r.1) = ok [5, 0, 7, 5, 0]) := by
  refine ⟨?_, by decide +kernel⟩
  simp [FlowOp.Pre]

/-- The answer overflows `u8` although every capacity fits. -/
example : flowRun ⟨false, 8⟩ (Dinic.new 2) [.addEdge 0 1 200, .addEdge 0 1 100, .maxFlow 0 1] = .panic := by
  decide +kernel

end Verif.Props
