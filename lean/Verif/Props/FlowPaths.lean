import Verif.Props.Dinic
import Verif.Proof.FlowPaths
import Verif.Prelude.NoDiv
/-! C98: what the answers and the levels of `Dinic` mean: edge-disjoint walks, separators, the least minimum cut. -/
namespace Verif.Props
open Model Spec Res DinicP FlowP Finset Relation

variable {ty : IntTy} {n s t : Nat}

theorem levels_call {N : List NEdge} {d : Dinic} (h : FlowRep ty n N d) (hmx : 0 < ty.mx) (hn : n < 2 ^ 31)
    (hs : s < n) (ht : t < n) (hfit : ∀ x, IsFlow N s t x → netOut N x s ≤ ty.mx) :
    ∃ d' v x, d.getMaxFlow ty s t = ok (d', v) ∧ IsMaxFlow N s t v ∧ (s ≠ t → IsMinCut N s t v) ∧
      IsFlow N s t x ∧ netOut N x s = v ∧ FlowRep ty n (residual N x) d' ∧ d'.h.length = n ∧
      (t ≠ s → d'.h.getD t (-1) = -1) ∧ ∀ y, d'.h.getD y (-1) ≠ -1 ↔ RReach N x s y := by
  have hnv := h.nv
  obtain ⟨⟨d', v⟩, e, _, h1, h2, h3, h4, h5, h6, h7, h8⟩ := (loop_levels (t := t) h.st h.cap h.fits hmx
    (by omega) (by omega : s < d.n) (by omega)).sat (by
      rintro ⟨x, hx, hlt⟩
      have := hfit x hx; omega)
  simp only at h1 h2 h5 h8
  refine ⟨d', v, flowOf N d', e, h6, h7, h4, h5, flowRep_residual h h1 h2, h8.hi.len.trans (h2.trans hnv),
    (h8.cut rfl).1, fun y => ⟨fun hy => ?_, fun hy => ?_⟩⟩
  · refine ReflTransGen.mono ?_ _ _ (h8.hi.reach y hy)
    rintro a b ⟨j, j1, j2, j3, j4, -, -⟩
    have hk : j / 2 < N.length := by omega
    have hp := h1.pair' hk
    refine ⟨⟨j / 2, hk⟩, ?_⟩
    rw [← ed_eq]
    unfold tl at j2
    unfold hd at j3
    by_cases hj : j % 2 = 0
    · left
      rw [if_pos hj] at j2 j3
      refine ⟨j2, j3, ?_⟩
      show (ed N (j / 2)).a - cp d' (2 * (j / 2)) < (ed N (j / 2)).a
      rw [show 2 * (j / 2) = j by omega]; omega
    · right
      rw [if_neg hj] at j2 j3
      refine ⟨j2, j3, ?_⟩
      show -(ed N (j / 2)).b < (ed N (j / 2)).a - cp d' (2 * (j / 2))
      rw [show 2 * (j / 2) + 1 = j by omega] at hp; omega
  · induction hy with
    | refl => rw [h8.hi.hs]; decide
    | @tail a b _ hst ih =>
      obtain ⟨k, ⟨k1, k2, k3⟩ | ⟨k1, k2, k3⟩⟩ := hst
      · have := (h8.cut rfl).2 (2 * k) (by have := k.2; omega)
        unfold tl hd at this
        rw [if_pos (by omega), if_pos (by omega), show 2 * (k : Nat) / 2 = k by omega, ed_eq, k1, k2] at this
        refine this ih ?_
        unfold flowOf at k3
        rw [ed_eq] at k3
        omega
      · have := (h8.cut rfl).2 (2 * k + 1) (by have := k.2; omega)
        unfold tl hd at this
        rw [if_neg (by omega), if_neg (by omega), show (2 * (k : Nat) + 1) / 2 = k by omega, ed_eq, k1, k2] at this
        refine this ih ?_
        have hp := h1.pair' k.2
        unfold flowOf at k3
        rw [ed_eq] at k3 hp
        omega

theorem rstep_residual {P : List NEdge} {X x : Nat → Int} {y z : Nat} :
    RStep (residual P X) x y z ↔ RStep P (fun k => X k + x k) y z := by
  have hl := residual_length P X
  constructor
  · rintro ⟨k, hk⟩
    have hkl : (k : Nat) < P.length := by rw [← hl]; exact k.2
    refine ⟨⟨k, hkl⟩, ?_⟩
    rw [← ed_eq, ed_residual hkl] at hk
    rw [← ed_eq]
    simp only at hk ⊢
    exact hk.imp (fun h => ⟨h.1, h.2.1, by omega⟩) fun h => ⟨h.1, h.2.1, by omega⟩
  · rintro ⟨k, hk⟩
    refine ⟨⟨k, by rw [hl]; exact k.2⟩, ?_⟩
    rw [← ed_eq] at hk
    rw [← ed_eq, ed_residual k.2]
    simp only at hk ⊢
    exact hk.imp (fun h => ⟨h.1, h.2.1, by omega⟩) fun h => ⟨h.1, h.2.1, by omega⟩

theorem isFlow_add {P : List NEdge} {X x : Nat → Int} (hX : IsFlow P s t X) (hx : IsFlow (residual P X) s t x) :
    IsFlow P s t (fun k => X k + x k) := by
  refine ⟨fun k => ?_, ?_⟩
  · have h1 := bounds_range hx (k := k) (by rw [residual_length]; exact k.2)
    rw [ed_residual k.2, ed_eq] at h1
    simp only at h1 ⊢
    omega
  · intro y h1 h2
    have a1 := hX.cons y h1 h2
    have a2 := hx.cons y h1 h2
    rw [netOut_residual] at a2
    rw [netOut_add]; omega

theorem levels_run (hmx : 0 < ty.mx) (hn : n < 2 ^ 31) (hs : s < n) (ht : t < n) (hne : s ≠ t) :
    ∀ (ops : List FlowOp) (P : List NEdge) (X : Nat → Int) (d : Dinic), FlowRep ty n (residual P X) d →
    IsFlow P s t X → (∀ o ∈ ops, o.Pre n) → (∀ s' t', .maxFlow s' t' ∈ ops → s' = s ∧ t' = t) →
    total P + (ops.map FlowOp.cap).sum ≤ ty.mx →
    Sat (flowRun ty d (ops ++ [.maxFlow s t])) (fun r => ∃ Y, IsFlow (P ++ edgesOf ops) s t Y ∧
      netOut (P ++ edgesOf ops) Y s = netOut P X s + r.1.sum ∧ r.2.h.length = n ∧ r.2.h.getD t (-1) = -1 ∧
      ∀ y, r.2.h.getD y (-1) ≠ -1 ↔ RReach (P ++ edgesOf ops) Y s y) := by
  intro ops
  induction ops with
  | nil =>
    intro P X d h hX _ _ htot
    obtain ⟨d', v, x, e, h1, h2, h3, h4, h5, h6, h7, h8⟩ := levels_call h hmx hn hs ht (by
      intro x hx
      have := value_le_total hx (nonneg h)
      rw [total_residual] at this
      simp at htot; omega)
    simp only [List.nil_append, flowRun]
    rw [e, ok_bind]
    simp only [ok_bind, sat_ok, edgesOf, List.append_nil]
    refine ⟨_, isFlow_add hX h3, ?_, h6, h7 (Ne.symm hne), fun y => (h8 y).trans ?_⟩
    · rw [netOut_add, ← netOut_residual P X x, h4]; simp
    · unfold RReach
      rw [show RStep (residual P X) x = RStep P (fun k => X k + x k) from by
        funext a b; exact propext rstep_residual]
  | cons o ops ih =>
    intro P X d h hX hp hst htot
    have hp1 := hp o (List.mem_cons_self ..)
    have hp2 : ∀ o ∈ ops, o.Pre n := fun o ho => hp o (List.mem_cons_of_mem _ ho)
    have hst2 : ∀ s' t', .maxFlow s' t' ∈ ops → s' = s ∧ t' = t :=
      fun s' t' h => hst s' t' (List.mem_cons_of_mem _ h)
    have hcap : 0 ≤ (ops.map FlowOp.cap).sum := by
      apply List.sum_nonneg
      intro x hx
      obtain ⟨o', ho', rfl⟩ := List.mem_map.1 hx
      have := hp2 o' ho'
      cases o' with
      | addEdge => exact this.2.2
      | maxFlow => exact le_refl _
    have htotN : 0 ≤ total P := by
      rw [← total_residual P X]
      exact Finset.sum_nonneg fun k hk => by have := nonneg h k (mem_range.1 hk); omega
    rw [List.map_cons, List.sum_cons] at htot
    cases o with
    | addEdge u v c =>
      obtain ⟨hu, hv, hc⟩ := hp1
      change total P + (c + _) ≤ _ at htot
      rw [List.cons_append, flowRun, sat_bind]
      refine (flowAdd_sat h hu hv hc (by omega)).mono fun d' h' => ?_
      obtain ⟨X', h1, h2, h3⟩ := isFlow_append hX ⟨u, v, c, 0⟩ hc (le_refl _)
      refine (ih (P ++ [⟨u, v, c, 0⟩]) X' d' (by rw [h3]; exact h') h1 hp2 hst2
        (by rw [total_append]; simp only; omega)).mono ?_
      rintro r hr
      rw [h2] at hr
      simpa [edgesOf] using hr
    | maxFlow s' t' =>
      obtain ⟨rfl, rfl⟩ := hst s' t' (List.mem_cons_self ..)
      change total P + (0 + _) ≤ _ at htot
      obtain ⟨d', v, x, e, h1, h2, h3, h4, h5⟩ := C19_get_max_flow h hmx hn hs ht (by
        intro x hx
        have := value_le_total hx (nonneg h)
        rw [total_residual] at this; omega)
      rw [residual_residual] at h5
      rw [List.cons_append, flowRun, e, ok_bind, sat_bind]
      refine (ih P _ d' h5 (isFlow_add hX h3) hp2 hst2 (by omega)).mono ?_
      rintro ⟨as, d''⟩ ⟨Y, y1, y2, y3⟩
      simp only [sat_ok]
      refine ⟨Y, y1, ?_, y3⟩
      rw [show netOut (P ++ edgesOf (.maxFlow s' t' :: ops)) Y s' = _ from y2, netOut_add, ← netOut_residual P X x, h4]
      simp [add_assoc]
where
  nonneg {N : List NEdge} {d : Dinic} (h : FlowRep ty n N d) : ∀ k < N.length, 0 ≤ (ed N k).a ∧ 0 ≤ (ed N k).b := by
    intro k hk
    have h1 := h.st.nn (2 * k) (by omega)
    have h2 := h.st.nn (2 * k + 1) (by omega)
    rw [h.cap _ (by omega), cap0_even] at h1
    rw [h.cap _ (by omega), cap0_odd] at h2
    exact ⟨h1, h2⟩

theorem edgesOf_plain {ops : List FlowOp} (hp : ∀ o ∈ ops, o.Pre n) : ∀ e ∈ edgesOf ops, 0 ≤ e.a ∧ e.b = 0 := by
  induction ops with
  | nil => simp [edgesOf]
  | cons o ops ih =>
    have ih := ih fun o ho => hp o (List.mem_cons_of_mem _ ho)
    cases o with
    | addEdge u v c =>
      intro e he
      rcases List.mem_cons.1 he with rfl | he
      · exact ⟨(hp _ (List.mem_cons_self ..)).2.2, rfl⟩
      · exact ih e he
    | maxFlow s t => exact ih

/-- The vertices that have a level. -/
def levelled (d : Dinic) : Finset Nat := (range d.h.length).filter fun y => d.h.getD y (-1) ≠ -1

theorem mem_levelled {d : Dinic} {y : Nat} : y ∈ levelled d ↔ d.h.getD y (-1) ≠ -1 := by
  simp only [levelled, mem_filter, mem_range]
  exact ⟨fun h => h.2, fun hx => ⟨lt_of_getD_ne hx, hx⟩⟩

/-- **C98, the levels are a certificate.** After any edges and calls of `get_max_flow` with the same terminals, the last
of them with no edge after it, the vertices that have a level form the source side of a minimum cut of all the edges: its
capacity is the sum of all answers. It is contained in the source side of every minimum cut. -/
theorem C98_min_cut (ty : IntTy) (hmx : 0 < ty.mx) (n : Nat) (hn : n < 2 ^ 31) (ops : List FlowOp) {s t : Nat}
    (hs : s < n) (ht : t < n) (hne : s ≠ t) (hp : ∀ o ∈ ops, o.Pre n)
    (hst : ∀ s' t', .maxFlow s' t' ∈ ops → s' = s ∧ t' = t) (hsum : (ops.map FlowOp.cap).sum ≤ ty.mx) :
    ∃ outs d, flowRun ty (Dinic.new n) (ops ++ [.maxFlow s t]) = ok (outs, d) ∧ IsMinCut (edgesOf ops) s t outs.sum ∧
      s ∈ levelled d ∧ t ∉ levelled d ∧ cutCap (edgesOf ops) (levelled d) = outs.sum ∧
      ∀ S, s ∈ S → t ∉ S → cutCap (edgesOf ops) S = outs.sum → levelled d ⊆ S := by
  have h0 : IsFlow [] s t (fun _ => 0) := ⟨fun k => absurd k.2 (by simp), fun y _ _ => by simp [netOut]⟩
  obtain ⟨⟨outs, d⟩, e, Y, h1, h2, h3, h4, h5⟩ := levels_run hmx hn hs ht hne ops [] (fun _ => 0) _
    (by rw [residual_zero]; exact flowRep_new ty n) h0 hp hst (by simpa [total] using hsum)
  simp only [List.nil_append] at h1 h2 h5
  have hz : netOut [] (fun _ => 0) s = 0 := by simp [netOut]
  rw [hz, zero_add] at h2
  have hts : t ∉ levelled d := fun h => mem_levelled.1 h h4
  have hss : s ∈ levelled d := mem_levelled.2 ((h5 s).2 .refl)
  have hc := reach_cut h1 (fun y => mem_levelled.trans (h5 y)) hts
  rw [h2] at hc
  refine ⟨outs, d, e, ⟨⟨_, hss, hts, hc⟩, fun S s1 s2 => ?_⟩, hss, hts, hc, fun S s1 s2 s3 y hy => ?_⟩
  · rw [← h2]; exact value_le_cut h1 s1 s2
  · exact reach_tight h1 s1 s2 (s3.trans h2.symm) ((h5 y).1 (mem_levelled.1 hy))

/-- Two vertices get a level, the third does not; the cut between them has the capacity 2 of the answers `1` and `1`. -/
example : (flowRun ⟨true, 64⟩ (Dinic.new 3) [.addEdge 0 1 5, .addEdge 1 2 1, .maxFlow 0 2, .addEdge 0 2 1, .maxFlow 0 2] >>=
      fun r => ok (r.1, r.2.h)) = ok ([1, 1], [0, 1, -1]) ∧
    cutCap [⟨0, 1, 5, 0⟩, ⟨1, 2, 1, 0⟩, ⟨0, 2, 1, 0⟩] {0, 1} = 2 ∧
    cutCap [⟨0, 1, 5, 0⟩, ⟨1, 2, 1, 0⟩, ⟨0, 2, 1, 0⟩] {0} = 6 := by decide +kernel

/-- **C98, specification.** The maximum flow of a network of plain edges is the largest number of walks that together
use no edge more often than its capacity. -/
theorem C98_packing_spec {N : List NEdge} (hN : ∀ e ∈ N, 0 ≤ e.a ∧ e.b = 0) {s t : Nat} (hne : s ≠ t) (v : Int) :
    IsMaxFlow N s t v ↔ ∃ k : Nat, v = k ∧ IsMaxPacking N s t k := maxFlow_packing hN hne

/-- **C98.** After any edges and calls of `get_max_flow` with the same terminals, the answers add up to the largest
number of walks from `s` to `t` that together use no edge more often than its capacity, and to the least total capacity
of edges that every walk from `s` to `t` has to use. -/
theorem C98_walks (ty : IntTy) (hmx : 0 < ty.mx) (n : Nat) (hn : n < 2 ^ 31) (ops : List FlowOp) {s t : Nat}
    (hs : s < n) (ht : t < n) (hne : s ≠ t) (hp : ∀ o ∈ ops, o.Pre n)
    (hst : ∀ s' t', .maxFlow s' t' ∈ ops → s' = s ∧ t' = t) (hsum : (ops.map FlowOp.cap).sum ≤ ty.mx) :
    ∃ outs d, ∃ k : Nat, flowRun ty (Dinic.new n) (ops ++ [.maxFlow s t]) = ok (outs, d) ∧ outs.sum = k ∧
      IsMaxPacking (edgesOf ops) s t k ∧ IsMinSeparator (edgesOf ops) s t k := by
  obtain ⟨outs, d, e, h1⟩ := C19_incremental ty hmx n hn ops hs ht hp hst hsum
  obtain ⟨outs', d', e', h2, -⟩ := C98_min_cut ty hmx n hn ops hs ht hne hp hst hsum
  rw [e] at e'
  cases e'
  obtain ⟨k, h3, h4⟩ := (maxFlow_packing (edgesOf_plain hp) hne).1 h1
  rw [h3] at h2
  exact ⟨outs, d, k, e, h3, h4, minSeparator (edgesOf_plain hp) h4 h2⟩

/-- Walks that share no edge. -/
structure IsDisjoint (N : List NEdge) (s t : Nat) (ps : List (List Nat)) : Prop where
  walk : ∀ p ∈ ps, EWalk N s p t
  disjoint : ps.flatten.Nodup

/-- The network of a digraph, all capacities 1. -/
def unitEdges (E : List (Nat × Nat)) : List NEdge := E.map fun e => ⟨e.1, e.2, 1, 0⟩

theorem walk_lt {N : List NEdge} {x y : Nat} {p : List Nat} (h : EWalk N x p y) : ∀ k ∈ p, k < N.length := by
  induction p generalizing x with
  | nil => simp
  | cons k p ih =>
    obtain ⟨e, h1, h2, h3⟩ := h
    intro j hj
    rcases List.mem_cons.1 hj with rfl | hj
    · exact (List.getElem?_eq_some_iff.1 h1).1
    · exact ih h3 j hj

theorem packing_unit {E : List (Nat × Nat)} {ps : List (List Nat)} :
    IsPacking (unitEdges E) s t ps ↔ IsDisjoint (unitEdges E) s t ps := by
  have ha : ∀ (k : Nat) (e : NEdge), (unitEdges E)[k]? = some e → e.a = 1 := by
    intro k e he
    obtain ⟨e', -, rfl⟩ := List.mem_map.1 (List.mem_of_getElem? he)
    rfl
  constructor
  · rintro ⟨h1, h2⟩
    refine ⟨h1, List.nodup_iff_count_le_one.2 fun k => ?_⟩
    by_cases hk : k < (unitEdges E).length
    · have := h2 k _ (List.getElem?_eq_getElem hk)
      rw [ha k _ (List.getElem?_eq_getElem hk)] at this
      exact_mod_cast this
    · rw [List.count_eq_zero.2]
      · exact Nat.zero_le _
      · intro hm
        obtain ⟨p, p1, p2⟩ := List.mem_flatten.1 hm
        exact hk (walk_lt (h1 p p1) k p2)
  · rintro ⟨h1, h2⟩
    refine ⟨h1, fun k e he => ?_⟩
    rw [ha k e he]
    exact_mod_cast List.nodup_iff_count_le_one.1 h2 k

theorem single_out (E : List (Nat × Nat)) {d d' : Dinic} {outs : List Int}
    (h : flowRun ty d (E.map (fun e => .addEdge e.1 e.2 1) ++ [.maxFlow s t]) = ok (outs, d')) : ∃ v, outs = [v] := by
  induction E generalizing d with
  | nil =>
    simp only [List.map_nil, List.nil_append, flowRun] at h
    obtain ⟨⟨d1, a⟩, -, h⟩ := bind_ok_inv h
    cases h
    exact ⟨a, rfl⟩
  | cons e E ih =>
    simp only [List.map_cons, List.cons_append, flowRun] at h
    obtain ⟨d1, -, h⟩ := bind_ok_inv h
    exact ih h

/-- **C98, Menger.** In a digraph entered with all capacities 1, `get_max_flow` returns the largest number of walks from
`s` to `t` no two of which share an edge, and this is the least number of edges that every walk from `s` to `t` has to
use. -/
theorem C98_menger (ty : IntTy) (hmx : 0 < ty.mx) (n : Nat) (hn : n < 2 ^ 31) (E : List (Nat × Nat)) {s t : Nat}
    (hs : s < n) (ht : t < n) (hne : s ≠ t) (hE : ∀ e ∈ E, e.1 < n ∧ e.2 < n) (hsum : (E.length : Int) ≤ ty.mx) :
    ∃ d, ∃ k : Nat, flowRun ty (Dinic.new n) (E.map (fun e => .addEdge e.1 e.2 1) ++ [.maxFlow s t]) = ok ([(k : Int)], d) ∧
      (∃ ps, IsDisjoint (unitEdges E) s t ps ∧ ps.length = k) ∧
      (∀ ps, IsDisjoint (unitEdges E) s t ps → ps.length ≤ k) ∧
      (∃ F, Separates (unitEdges E) s t F ∧ F.card = k) ∧
      ∀ F, Separates (unitEdges E) s t F → k ≤ F.card := by
  have hed : ∀ E : List (Nat × Nat), edgesOf (E.map (fun e => .addEdge e.1 e.2 1)) = unitEdges E := by
    intro E
    induction E with
    | nil => rfl
    | cons e E ih => simp [edgesOf, unitEdges, ih]
  obtain ⟨outs, d, k, e, h1, h2, h3⟩ := C98_walks ty hmx n hn (E.map (fun e => .addEdge e.1 e.2 1)) hs ht hne
    (by
      intro o ho
      obtain ⟨e, he, rfl⟩ := List.mem_map.1 ho
      exact ⟨(hE e he).1, (hE e he).2, by decide⟩)
    (by
      intro s' t' h
      obtain ⟨e, _, he⟩ := List.mem_map.1 h
      cases he)
    (by
      have : (E.map (fun e : Nat × Nat => FlowOp.addEdge e.1 e.2 1)).map FlowOp.cap = List.replicate E.length 1 := by
        rw [List.map_map, List.eq_replicate_iff]
        refine ⟨by simp, fun b hb => ?_⟩
        obtain ⟨e, -, rfl⟩ := List.mem_map.1 hb
        rfl
      rw [this]; simpa using hsum)
  obtain ⟨v, rfl⟩ := single_out E e
  rw [List.sum_singleton] at h1
  subst h1
  rw [hed] at h2 h3
  have hcard : ∀ F : Finset (Fin (unitEdges E).length), ∑ k ∈ F, (unitEdges E)[k].a = F.card := by
    intro F
    rw [Finset.sum_congr rfl (g := fun _ => 1)]
    · simp
    · intro k _
      show ((unitEdges E)[(k : Nat)]).a = 1
      simp [unitEdges]
  refine ⟨d, k, e, ?_, ?_, ?_, ?_⟩
  · obtain ⟨ps, h4, h5⟩ := h2.1
    exact ⟨ps, packing_unit.1 h4, h5⟩
  · exact fun ps h4 => h2.2 ps (packing_unit.2 h4)
  · obtain ⟨F, h4, h5⟩ := h3.1
    refine ⟨F, h4, ?_⟩
    rw [hcard] at h5
    exact_mod_cast h5
  · intro F hF
    have := h3.2 F hF
    rw [hcard] at this
    exact_mod_cast this

/-- Two walks without a common edge, two edges that separate, and the answer 2. -/
example : IsDisjoint (unitEdges [(0, 1), (0, 2), (1, 3), (2, 3), (1, 2)]) 0 3 [[0, 2], [1, 3]] ∧
    (flowRun ⟨true, 64⟩ (Dinic.new 4)
      ([(0, 1), (0, 2), (1, 3), (2, 3), (1, 2)].map (fun e => .addEdge e.1 e.2 1) ++ [.maxFlow 0 3]) >>=
        fun r => ok r.1) = ok [2] := by
  refine ⟨⟨?_, by decide⟩, by decide +kernel⟩
  intro p hp
  simp only [List.mem_cons, List.not_mem_nil, or_false] at hp
  rcases hp with rfl | rfl <;> exact ⟨_, rfl, rfl, _, rfl, rfl, rfl⟩

/-- **C98.** The answers add up to a positive number if and only if some walk from `s` to `t` uses only edges of
positive capacity. -/
theorem C98_positive (ty : IntTy) (hmx : 0 < ty.mx) (n : Nat) (hn : n < 2 ^ 31) (ops : List FlowOp) {s t : Nat}
    (hs : s < n) (ht : t < n) (hne : s ≠ t) (hp : ∀ o ∈ ops, o.Pre n)
    (hst : ∀ s' t', .maxFlow s' t' ∈ ops → s' = s ∧ t' = t) (hsum : (ops.map FlowOp.cap).sum ≤ ty.mx) :
    ∃ outs d, flowRun ty (Dinic.new n) (ops ++ [.maxFlow s t]) = ok (outs, d) ∧
      (0 < outs.sum ↔ ∃ p, EWalk (edgesOf ops) s p t ∧ ∀ k ∈ p, ∀ e, (edgesOf ops)[k]? = some e → 0 < e.a) := by
  obtain ⟨outs, d, k, e, h1, h2, -⟩ := C98_walks ty hmx n hn ops hs ht hne hp hst hsum
  refine ⟨outs, d, e, ?_⟩
  rw [h1]
  constructor
  · intro hk
    obtain ⟨ps, h3, rfl⟩ := h2.1
    match ps, hk, h3 with
    | p :: ps, _, h3 =>
      refine ⟨p, h3.walk p (by simp), fun j hj e he => ?_⟩
      have h4 := h3.cap j e he
      have h5 : 1 ≤ (p :: ps).flatten.count j := List.one_le_count_iff.2 (by simp [hj])
      omega
  · rintro ⟨p, h3, h4⟩
    obtain ⟨q, q1, q2, q3⟩ := walk_nodup h3
    have := h2.2 [q] ⟨by simpa using q3, fun j e he => ?_⟩
    · simp at this; omega
    · simp only [List.flatten_cons, List.flatten_nil, List.append_nil]
      by_cases hj : j ∈ q
      · have := h4 j (q2 hj) e he
        rw [List.count_eq_one_of_mem q1 hj]; push_cast; omega
      · rw [List.count_eq_zero.2 hj]
        exact (edgesOf_plain hp e (List.mem_of_getElem? he)).1

/-- An edge of capacity 0 leads nowhere. -/
example : (flowRun ⟨true, 64⟩ (Dinic.new 3) [.addEdge 0 1 3, .addEdge 1 2 0, .maxFlow 0 2] >>= fun r => ok r.1) = ok [0] ∧
    EWalk (edgesOf [.addEdge 0 1 3, .addEdge 1 2 0]) 0 [0, 1] 2 :=
  ⟨by decide +kernel, _, rfl, rfl, _, rfl, rfl, rfl⟩

end Verif.Props
