import Verif.Props.Bipartite
import Verif.Props.Dinic
import Verif.Proof.FlowMatching
/-! C60: maximum flow, maximum matching and minimum vertex cover agree. -/
namespace Verif.Props
open Model Spec Res BipP DinicP FlowP FMP Finset

/-- The calls that enter the graph and solve it. -/
def matchCalls (E : List (Nat × Nat)) : List MatchOp := E.map (fun e => .addEdge e.1 e.2) ++ [.solve]

/-- The calls that enter the network and ask twice for the flow from `s` to `t`. -/
def flowCalls (N : List (Nat × Nat × Int)) (s t : Nat) : List FlowOp :=
  N.map (fun e => .addEdge e.1 e.2.1 e.2.2) ++ [.maxFlow s t, .maxFlow s t]

theorem matchCalls_ok {n m : Nat} {E : List (Nat × Nat)} (hE : InR n m E) :
    ∃ k, matchRun (AugmentedPath.new n m) (matchCalls E) = ok [k] ∧ IsMaxMatching E k := by
  obtain ⟨ks, e, h⟩ := C18_history n m (matchCalls E) (by
    intro o ho
    rcases List.mem_append.1 ho with ho | ho
    · obtain ⟨e, he, rfl⟩ := List.mem_map.1 ho
      exact hE e he
    · simp at ho; subst ho; trivial)
  have key : ∀ (E E' : List (Nat × Nat)) (ks : List Nat), MatchRunOk E' (matchCalls E) ks →
      ∃ k, ks = [k] ∧ IsMaxMatching (E' ++ E) k := by
    intro E
    induction E with
    | nil =>
      intro E' ks h
      match ks, h with
      | [k], ⟨h, _⟩ => exact ⟨k, rfl, by simpa using h⟩
    | cons e E ih =>
      intro E' ks h
      obtain ⟨k, h1, h2⟩ := ih (E' ++ [e]) ks h
      exact ⟨k, h1, by simpa using h2⟩
  obtain ⟨k, rfl, hk⟩ := key E [] ks h
  exact ⟨k, e, by simpa using hk⟩

/-- **C60, specification.** In the unit network of a bipartite graph the maximum flow value is the maximum
matching size. -/
theorem C60_spec {n m : Nat} {E : List (Nat × Nat)} (hE : ∀ e ∈ E, e.1 < n ∧ e.2 < m) (v : Int) :
    IsMaxFlow ((unitNet n m E).map fun e => ⟨e.1, e.2.1, e.2.2, 0⟩) (n + m) (n + m + 1) v ↔
      ∃ k : Nat, v = k ∧ IsMaxMatching E k := maxFlow_iff hE

/-- **C60.** For every bipartite graph (repeated edges allowed) whose unit network fits the type, `Dinic` on the
network and `AugmentedPath` on the graph return the same number. -/
theorem C60_flow_eq_matching (ty : IntTy) (hmx : 0 < ty.mx) (n m : Nat) (E : List (Nat × Nat))
    (hE : ∀ e ∈ E, e.1 < n ∧ e.2 < m) (hn : n + m + 2 < 2 ^ 31) (hsum : ((n + E.length + m : Nat) : Int) ≤ ty.mx) :
    ∃ (k : Nat) (d : Dinic), matchRun (AugmentedPath.new n m) (matchCalls E) = ok [k] ∧
      flowRun ty (Dinic.new (n + m + 2)) (flowCalls (unitNet n m E) (n + m) (n + m + 1)) = ok ([(k : Int), 0], d) := by
  obtain ⟨k, e, hk⟩ := matchCalls_ok hE
  have hpre : ∀ e ∈ unitNet n m E, e.1 < n + m + 2 ∧ e.2.1 < n + m + 2 ∧ (0 : Int) ≤ e.2.2 := by
    intro e he
    unfold unitNet at he
    rw [List.mem_append, List.mem_append] at he
    rcases he with (he | he) | he
    · obtain ⟨u, hu, rfl⟩ := List.mem_map.1 he
      have := List.mem_range.1 hu
      exact ⟨by simp only; omega, by simp only; omega, by simp⟩
    · obtain ⟨e', he', rfl⟩ := List.mem_map.1 he
      have := hE e' he'
      exact ⟨by simp only; omega, by simp only; omega, by simp⟩
    · obtain ⟨u, hu, rfl⟩ := List.mem_map.1 he
      have := List.mem_range.1 hu
      exact ⟨by simp only; omega, by simp only; omega, by simp⟩
  have hcap : ((unitNet n m E).map fun e => e.2.2).sum ≤ ty.mx := by
    have h1 : (unitNet n m E).map (fun e => e.2.2) = List.replicate (n + E.length + m) (1 : Int) := by
      rw [List.eq_replicate_iff]
      constructor
      · simp [unitNet]; omega
      · intro b hb
        obtain ⟨e, he, rfl⟩ := List.mem_map.1 hb
        unfold unitNet at he
        rw [List.mem_append, List.mem_append] at he
        rcases he with (he | he) | he <;> obtain ⟨_, _, rfl⟩ := List.mem_map.1 he <;> rfl
    rw [h1, List.sum_replicate, nsmul_eq_mul, mul_one]
    exact hsum
  obtain ⟨v, d, e', h⟩ := C19_fresh ty hmx (n + m + 2) hn (unitNet n m E) (s := n + m) (t := n + m + 1)
    (by omega) (by omega) hpre hcap
  obtain ⟨k', rfl, h2⟩ := (C60_spec hE _).1 h
  rw [← C18_unique hk h2] at e'
  exact ⟨k, d, e, e'⟩

/-- The left part of the cover that `solve` leaves behind: matched left vertices the last phase did not visit. -/
def coverLeft (t : AugmentedPath) : Finset Nat :=
  (range t.l.length).filter fun x => (t.l.getD x none).isSome ∧ t.vis.getD x false = false

/-- The right part: right vertices matched with a visited left vertex. -/
def coverRight (t : AugmentedPath) : Finset Nat :=
  (range t.r.length).filter fun v => ∃ y ∈ range t.l.length, t.r.getD v none = some y ∧ t.vis.getD y false = true

theorem cert_cover {m k : Nat} {t t' : AugmentedPath} {E : List (Nat × Nat)} (h : Cert m t t' k)
    (hE : ∀ x v, (x, v) ∈ E ↔ v ∈ t.g.getD x []) :
    IsCover E (coverLeft t') (coverRight t') ∧ (coverLeft t').card + (coverRight t').card = k := by
  have hc : IsCover E (coverLeft t') (coverRight t') := by
    rintro ⟨x, v⟩ he
    have hadj := (hE x v).1 he
    have hx : x < t.g.length := by
      apply Nat.lt_of_not_le
      intro hl
      rw [List.getD_eq_getElem?_getD, List.getElem?_eq_none hl] at hadj
      simp at hadj
    cases hv : t'.vis.getD x false with
    | true =>
      right
      obtain ⟨y, h1, h2⟩ := h.closed x hv v hadj
      have h3 := (h.sok.mat.inv y v).2 h1
      exact Finset.mem_filter.2 ⟨Finset.mem_range.2 (lt_of_getD h1), y, Finset.mem_range.2 (lt_of_getD h3), h1, h2⟩
    | false =>
      left
      have hl : t'.l.length = t.g.length := h.sok.l
      refine Finset.mem_filter.2 ⟨Finset.mem_range.2 (by rw [hl]; exact hx), ?_, hv⟩
      cases hl : t'.l.getD x none with
      | none => rw [h.free x hx hl] at hv; cases hv
      | some => rfl
  refine ⟨hc, Nat.le_antisymm ?_ ?_⟩
  · rw [h.size, matched_eq]
    have hnd : ((List.range t'.l.length).filter fun x => (t'.l.getD x none).isSome).Nodup :=
      List.Nodup.filter _ List.nodup_range
    rw [← List.toFinset_card_of_nodup hnd]
    rw [← Finset.card_filter_add_card_filter_not (s := List.toFinset _) (fun x => t'.vis.getD x false = false)]
    refine Nat.add_le_add ?_ ?_
    · refine Finset.card_le_card fun x hx => ?_
      obtain ⟨h1, h2, h3⟩ := Finset.mem_filter.1 hx
      rw [Finset.mem_filter, List.mem_toFinset, List.mem_filter, List.mem_range]
      exact ⟨⟨Finset.mem_range.1 h1, h2⟩, h3⟩
    · refine Finset.card_le_card_of_injOn (fun v => (t'.r.getD v none).getD 0) ?_ ?_
      · intro v hv
        obtain ⟨h1, y, hy, h2, h3⟩ := Finset.mem_filter.1 hv
        have h4 := (h.sok.mat.inv y v).2 h2
        rw [Finset.mem_coe, Finset.mem_filter, List.mem_toFinset, List.mem_filter, List.mem_range]
        simp only [h2, Option.getD_some]
        exact ⟨⟨Finset.mem_range.1 hy, by simp only at h4; rw [h4]; rfl⟩, by rw [h3]; simp⟩
      · intro v hv w hw hvw
        obtain ⟨_, y, _, h2, _⟩ := Finset.mem_filter.1 hv
        obtain ⟨_, z, _, h3, _⟩ := Finset.mem_filter.1 hw
        simp only [h2, h3, Option.getD_some] at hvw
        subst hvw
        have h4 := (h.sok.mat.inv y v).2 h2
        have h5 := (h.sok.mat.inv y w).2 h3
        rw [h4] at h5
        exact Option.some.inj h5
  · obtain ⟨⟨M, hM, e⟩, _⟩ := optimal h.sok hE h.closed h.free
    rw [h.size]
    have := matching_le_cover hM hc
    simp only at e
    omega

/-- `add_edge` for every edge of `E`, in order. -/
def enter (t : AugmentedPath) : List (Nat × Nat) → Res AugmentedPath
  | [] => ok t
  | e :: E => t.addEdge e.1 e.2 >>= fun t => enter t E

theorem enter_sat {n m : Nat} : ∀ (E E' : List (Nat × Nat)) (t : AugmentedPath), MatchInv n m E' t →
    (∀ e ∈ E, e.1 < n) → Sat (enter t E) (MatchInv n m (E' ++ E))
  | [], E', t, h, _ => by rw [enter, sat_ok, List.append_nil]; exact h
  | e :: E, E', t, h, hE => by
    rw [enter]
    refine (sat_bind _ _ _).2 ((addEdge_sat h (hE e (List.mem_cons_self ..))).mono fun t' h' => ?_)
    have := enter_sat E _ t' h' fun e he => hE e (List.mem_cons_of_mem _ he)
    rw [List.append_assoc] at this
    exact this

/-- **C60, certificate.** What `solve` leaves in `vis`, `l` and `r` proves its answer: the matched unvisited left
vertices and the right vertices matched with visited ones touch every edge, and there are as many of them as `solve`
answers. -/
theorem C60_certificate (n m : Nat) (E : List (Nat × Nat)) (hE : ∀ e ∈ E, e.1 < n ∧ e.2 < m) :
    ∃ t t' k, enter (AugmentedPath.new n m) E = ok t ∧ t.solve = ok (t', k) ∧ IsMaxMatching E k ∧
      IsCover E (coverLeft t') (coverRight t') ∧ (coverLeft t').card + (coverRight t').card = k := by
  obtain ⟨t, e, h⟩ := enter_sat E [] _ (matchInv_new n m) fun e he => (hE e he).1
  rw [List.nil_append] at h
  obtain ⟨⟨t', k⟩, e', hc⟩ := (solve_cert h.sok).sat (by
    rintro ⟨x, v, h1, h2⟩
    exact absurd (hE _ ((h.edges x v).2 h1)).2 (by simp only; omega))
  refine ⟨t, t', k, e, e', ?_, cert_cover hc h.edges⟩
  have hs : k = matched t'.l := hc.size
  rw [hs]
  exact optimal hc.sok h.edges hc.closed hc.free

/-- **C60, König.** The answer of `AugmentedPath` is also the least number of vertices that touch every edge. -/
theorem C60_konig (n m : Nat) (E : List (Nat × Nat)) (hE : ∀ e ∈ E, e.1 < n ∧ e.2 < m) :
    ∃ k, matchRun (AugmentedPath.new n m) (matchCalls E) = ok [k] ∧ IsMaxMatching E k ∧ IsMinCover E k := by
  obtain ⟨k, e, hk⟩ := matchCalls_ok hE
  obtain ⟨t, t', k', _, _, h1, h2, h3⟩ := C60_certificate n m E hE
  have hkk := C18_unique hk h1
  subst hkk
  obtain ⟨M, hM, hMk⟩ := hk.1
  exact ⟨k, e, hk, ⟨_, _, h2, h3⟩, fun C D h => hMk ▸ matching_le_cover hM h⟩

/-- **C60, specification.** Maximum matchings and minimum vertex covers of any bipartite graph have the same size. -/
theorem C60_konig_spec (E : List (Nat × Nat)) (k : Nat) : IsMaxMatching E k ↔ IsMinCover E k := by
  obtain ⟨k', _, h1, h2⟩ := C60_konig ((E.map Prod.fst).sum + 1) ((E.map Prod.snd).sum + 1) E fun e he =>
    ⟨Nat.lt_succ_of_le (List.le_sum_of_mem (List.mem_map_of_mem he)),
      Nat.lt_succ_of_le (List.le_sum_of_mem (List.mem_map_of_mem he))⟩
  constructor
  · intro h; rw [C18_unique h h1]; exact h2
  · rintro ⟨⟨C, D, h3, h4⟩, h5⟩
    obtain ⟨⟨C', D', h6, h7⟩, h8⟩ := h2
    have a := h8 C D h3
    have b := h5 C' D' h6
    have : k = k' := by omega
    rw [this]; exact h1

example : (∀ e ∈ [(0, 0), (0, 1), (1, 0), (1, 0), (2, 0)], e.1 < 3 ∧ e.2 < 2) ∧
    matchRun (AugmentedPath.new 3 2) (matchCalls [(0, 0), (0, 1), (1, 0), (1, 0), (2, 0)]) = ok [2] ∧
    (flowRun ⟨true, 64⟩ (Dinic.new 7) (flowCalls (unitNet 3 2 [(0, 0), (0, 1), (1, 0), (1, 0), (2, 0)]) 5 6) >>=
      fun r => ok r.1) = ok [2, 0] := by
  decide +kernel

end Verif.Props
