import Verif.Props.FlowPaths
/-! C103: relations between the answers of `get_max_flow` for related networks and terminals. -/
namespace Verif.Props
open Model Spec Res DinicP FlowP

/-- A fresh `Dinic` on `n` vertices with the edges `E` (from, to, capacity) answers `v` for the terminals `s`, `t`. -/
def FlowAns (ty : IntTy) (n : Nat) (E : List (Nat × Nat × Int)) (s t : Nat) (v : Int) : Prop :=
  ∃ d, flowRun ty (Dinic.new n) (E.map (fun e => .addEdge e.1 e.2.1 e.2.2) ++ [.maxFlow s t]) = ok ([v], d)

/-- The vertices of the edges exist, no capacity is negative, and all capacities together fit the type. -/
structure NetOk (ty : IntTy) (n : Nat) (E : List (Nat × Nat × Int)) : Prop where
  mx : 0 < ty.mx
  size : n < 2 ^ 31
  edge : ∀ e ∈ E, e.1 < n ∧ e.2.1 < n ∧ 0 ≤ e.2.2
  sum : (E.map fun e => e.2.2).sum ≤ ty.mx

/-- All edges turned round. -/
def turned (E : List (Nat × Nat × Int)) : List (Nat × Nat × Int) := E.map fun e => (e.2.1, e.1, e.2.2)

/-- Capacity of the cut around `S`, as a sum over the list of edges. -/
def dcut (E : List (Nat × Nat × Int)) (S : Finset Nat) : Int :=
  (E.map fun e => if e.1 ∈ S ∧ e.2.1 ∉ S then e.2.2 else 0).sum

theorem cutCap_dcut (E : List (Nat × Nat × Int)) (S : Finset Nat) :
    cutCap (E.map fun e => ⟨e.1, e.2.1, e.2.2, 0⟩) S = dcut E S := by
  have key : ∀ (l : List NEdge) (f : NEdge → Int), ∑ k : Fin l.length, f l[k] = (l.map f).sum := by
    intro l f
    rw [← List.sum_ofFn]
    congr 1
    apply List.ext_getElem <;> simp
  unfold cutCap dcut
  refine (key _ (fun e => if e.u ∈ S ∧ e.v ∉ S then e.a else if e.u ∉ S ∧ e.v ∈ S then e.b else 0)).trans ?_
  rw [List.map_map]
  congr 1
  refine List.map_congr_left fun e _ => ?_
  simp only [Function.comp]
  split
  · rfl
  · split <;> rfl

/-- The answer as a least cut. -/
structure CutAns (E : List (Nat × Nat × Int)) (s t : Nat) (v : Int) : Prop where
  att : ∃ S, s ∈ S ∧ t ∉ S ∧ dcut E S = v
  le : ∀ S, s ∈ S → t ∉ S → v ≤ dcut E S

variable {ty : IntTy} {n : Nat} {E E' : List (Nat × Nat × Int)} {s t u : Nat} {v w z : Int}

theorem edgesOf_adds (E : List (Nat × Nat × Int)) : edgesOf (E.map (fun e => .addEdge e.1 e.2.1 e.2.2)) =
    E.map fun e => ⟨e.1, e.2.1, e.2.2, 0⟩ := by
  induction E with
  | nil => rfl
  | cons e E ih => simp [edgesOf, ih]

/-- C103: the call returns, and its answer is a least cut. -/
theorem C103_answers (h : NetOk ty n E) (hs : s < n) (ht : t < n) (hne : s ≠ t) :
    ∃ v, FlowAns ty n E s t v ∧ CutAns E s t v := by
  have hp : ∀ o ∈ (E.map (fun e => .addEdge e.1 e.2.1 e.2.2) : List FlowOp), o.Pre n := by
    intro o ho
    obtain ⟨e, he, rfl⟩ := List.mem_map.1 ho
    exact h.edge e he
  have hno : ∀ s' t', FlowOp.maxFlow s' t' ∉ (E.map (fun e => .addEdge e.1 e.2.1 e.2.2) : List FlowOp) := by
    intro s' t' h
    obtain ⟨e, _, he⟩ := List.mem_map.1 h
    cases he
  have hsum : ((E.map (fun e => .addEdge e.1 e.2.1 e.2.2) : List FlowOp).map FlowOp.cap).sum ≤ ty.mx := by
    rw [List.map_map]
    exact h.sum
  obtain ⟨outs, d, e, hm, -⟩ := C98_min_cut ty h.mx n h.size _ hs ht hne hp (fun s' t' x => absurd x (hno s' t')) hsum
  obtain ⟨outs', d', e', hr⟩ := C19_history ty h.mx n h.size (E.map (fun e => .addEdge e.1 e.2.1 e.2.2) ++ [.maxFlow s t]) (by
    intro o ho
    rcases List.mem_append.1 ho with ho | ho
    · exact hp o ho
    · simp at ho; subst ho; exact ⟨hs, ht⟩) (by simpa [FlowOp.cap] using hsum)
  rw [e] at e'
  cases e'
  have one : ∀ (E : List (Nat × Nat × Int)) (N : List NEdge) (outs : List Int),
      FlowRunOk N (E.map (fun e => .addEdge e.1 e.2.1 e.2.2) ++ [.maxFlow s t]) outs → ∃ v, outs = [v] := by
    intro E
    induction E with
    | nil =>
      intro N outs h
      match outs, h with
      | [v], _ => exact ⟨v, rfl⟩
      | _ :: _ :: _, ⟨_, _, _, _, h⟩ => exact absurd h (by simp [FlowRunOk])
    | cons e E ih => intro N outs h; exact ih _ outs h
  obtain ⟨v, rfl⟩ := one E [] outs hr
  rw [edgesOf_adds] at hm
  simp only [List.sum_cons, List.sum_nil, add_zero] at hm
  refine ⟨v, ⟨d, e⟩, ?_, ?_⟩
  · obtain ⟨S, h1, h2, h3⟩ := hm.1
    exact ⟨S, h1, h2, by rw [← cutCap_dcut]; exact h3⟩
  · intro S h1 h2
    rw [← cutCap_dcut]
    exact hm.2 S h1 h2

theorem cutAns (h : NetOk ty n E) (hs : s < n) (ht : t < n) (hne : s ≠ t) (hv : FlowAns ty n E s t v) :
    CutAns E s t v := by
  obtain ⟨v', ⟨d, h1⟩, h2⟩ := C103_answers h hs ht hne
  obtain ⟨d', h3⟩ := hv
  rw [h1] at h3
  cases h3
  exact h2

/-- Two networks whose cuts have the same capacities have the same answers. -/
theorem cutAns_congr {s' t' : Nat} {f : Finset Nat → Finset Nat} (h : CutAns E s t v) (h' : CutAns E' s' t' w)
    (h1 : ∀ S, s ∈ S → t ∉ S → s' ∈ f S ∧ t' ∉ f S ∧ dcut E' (f S) ≤ dcut E S) : w ≤ v := by
  obtain ⟨S, a, b, rfl⟩ := h.att
  obtain ⟨c, d, e⟩ := h1 S a b
  exact (h'.le _ c d).trans e

theorem dcut_perm (h : E.Perm E') (S : Finset Nat) : dcut E S = dcut E' S := (h.map _).sum_eq

theorem dcut_append (S : Finset Nat) : dcut (E ++ E') S = dcut E S + dcut E' S := by simp [dcut]

theorem dcut_nonneg (h : ∀ e ∈ E, 0 ≤ e.2.2) (S : Finset Nat) : 0 ≤ dcut E S := by
  refine List.sum_nonneg fun x hx => ?_
  obtain ⟨e, he, rfl⟩ := List.mem_map.1 hx
  split
  · exact h e he
  · exact le_refl _

/-- C103: the order of the edges does not matter. -/
theorem C103_order (h : NetOk ty n E) (h' : NetOk ty n E') (hs : s < n) (ht : t < n) (hne : s ≠ t) (hp : E.Perm E')
    (hv : FlowAns ty n E s t v) (hw : FlowAns ty n E' s t w) : v = w := by
  have a := cutAns h hs ht hne hv
  have b := cutAns h' hs ht hne hw
  refine le_antisymm (cutAns_congr (f := id) b a ?_) (cutAns_congr (f := id) a b ?_)
  · exact fun S x y => ⟨x, y, (dcut_perm hp S).le⟩
  · exact fun S x y => ⟨x, y, (dcut_perm hp S).ge⟩

/-- Sets of vertices on the other side of a cut. -/
theorem dcut_turned {S : Finset Nat} (hE : ∀ e ∈ E, e.1 < n ∧ e.2.1 < n) :
    dcut (turned E) (Finset.range n \ S) = dcut E S := by
  unfold dcut turned
  rw [List.map_map]
  congr 1
  refine List.map_congr_left fun e he => ?_
  have := hE e he
  simp only [Function.comp, Finset.mem_sdiff, Finset.mem_range]
  by_cases h1 : e.1 ∈ S <;> by_cases h2 : e.2.1 ∈ S <;> simp [h1, h2, this.1, this.2]

theorem netOk_turned (h : NetOk ty n E) : NetOk ty n (turned E) := by
  refine ⟨h.mx, h.size, ?_, ?_⟩
  · intro e he
    obtain ⟨e', he', rfl⟩ := List.mem_map.1 he
    have := h.edge e' he'
    exact ⟨this.2.1, this.1, this.2.2⟩
  · have := h.sum
    simpa [turned, Function.comp_def] using this

theorem turned_turned (E : List (Nat × Nat × Int)) : turned (turned E) = E := by
  simp [turned, Function.comp_def]

/-- C103: with all edges turned round and the terminals exchanged the answer is the same. -/
theorem C103_reverse (h : NetOk ty n E) (hs : s < n) (ht : t < n) (hne : s ≠ t)
    (hv : FlowAns ty n E s t v) (hw : FlowAns ty n (turned E) t s w) : v = w := by
  have a := cutAns h hs ht hne hv
  have b := cutAns (netOk_turned h) ht hs (Ne.symm hne) hw
  have hE : ∀ e ∈ E, e.1 < n ∧ e.2.1 < n := fun e he => ⟨(h.edge e he).1, (h.edge e he).2.1⟩
  have hE' : ∀ e ∈ turned E, e.1 < n ∧ e.2.1 < n := fun e he =>
    ⟨((netOk_turned h).edge e he).1, ((netOk_turned h).edge e he).2.1⟩
  refine le_antisymm (cutAns_congr (f := fun S => Finset.range n \ S) b a fun S x y => ?_)
    (cutAns_congr (f := fun S => Finset.range n \ S) a b fun S x y => ?_)
  · refine ⟨by simp [hs, y], by simp [x], ?_⟩
    have := dcut_turned (S := S) hE'
    rw [turned_turned] at this
    exact this.le
  · exact ⟨by simp [ht, y], by simp [x], (dcut_turned hE).le⟩

/-- C103: in a network with as much capacity in both directions the terminals may be exchanged. -/
theorem C103_symmetric (h : NetOk ty n E) (hs : s < n) (ht : t < n) (hne : s ≠ t) (hp : (turned E).Perm E)
    (hv : FlowAns ty n E s t v) (hw : FlowAns ty n E t s w) : v = w := by
  obtain ⟨z, hz, -⟩ := C103_answers (netOk_turned h) ht hs (Ne.symm hne)
  rw [C103_reverse h hs ht hne hv hz]
  exact C103_order (netOk_turned h) h ht hs (Ne.symm hne) hp hz hw

/-- C103: multiplying all capacities multiplies the answer. -/
theorem C103_scaled {k : Int} (hk : 0 ≤ k) (h : NetOk ty n E)
    (h' : NetOk ty n (E.map fun e => (e.1, e.2.1, k * e.2.2))) (hs : s < n) (ht : t < n) (hne : s ≠ t)
    (hv : FlowAns ty n E s t v) (hw : FlowAns ty n (E.map fun e => (e.1, e.2.1, k * e.2.2)) s t w) : w = k * v := by
  have a := cutAns h hs ht hne hv
  have b := cutAns h' hs ht hne hw
  have e : ∀ S, dcut (E.map fun e => (e.1, e.2.1, k * e.2.2)) S = k * dcut E S := by
    intro S
    unfold dcut
    rw [List.map_map, ← List.sum_map_mul_left]
    congr 1
    refine List.map_congr_left fun e _ => ?_
    simp only [Function.comp]
    split <;> simp
  obtain ⟨S, x, y, rfl⟩ := a.att
  obtain ⟨S', x', y', rfl⟩ := b.att
  have h1 := b.le S x y
  have h2 := a.le S' x' y'
  rw [e] at h1 ⊢
  exact le_antisymm (by rw [e] at h1; exact h1) (mul_le_mul_of_nonneg_left h2 hk)

/-- C103: the answers for two sets of edges add up to at most the answer for both together. -/
theorem C103_union (h : NetOk ty n E) (h' : NetOk ty n E') (h'' : NetOk ty n (E ++ E')) (hs : s < n) (ht : t < n)
    (hne : s ≠ t) (hv : FlowAns ty n E s t v) (hw : FlowAns ty n E' s t w) (hz : FlowAns ty n (E ++ E') s t z) :
    v + w ≤ z := by
  have a := cutAns h hs ht hne hv
  have b := cutAns h' hs ht hne hw
  have c := cutAns h'' hs ht hne hz
  obtain ⟨S, x, y, rfl⟩ := c.att
  rw [dcut_append]
  exact add_le_add (a.le S x y) (b.le S x y)

/-- C103: one more edge raises the answer by at most its capacity, and never lowers it. -/
theorem C103_add_edge {p q : Nat} {c : Int} (h : NetOk ty n E) (h' : NetOk ty n (E ++ [(p, q, c)])) (hs : s < n)
    (ht : t < n) (hne : s ≠ t) (hv : FlowAns ty n E s t v) (hw : FlowAns ty n (E ++ [(p, q, c)]) s t w) :
    v ≤ w ∧ w ≤ v + c := by
  have a := cutAns h hs ht hne hv
  have b := cutAns h' hs ht hne hw
  have hc := (h'.edge (p, q, c) (by simp)).2.2
  simp only at hc
  have k : ∀ S, 0 ≤ dcut [(p, q, c)] S ∧ dcut [(p, q, c)] S ≤ c := by
    intro S
    simp only [dcut, List.map_cons, List.map_nil, List.sum_cons, List.sum_nil, add_zero]
    split <;> constructor <;> omega
  constructor
  · obtain ⟨S, x, y, rfl⟩ := b.att
    have := a.le S x y
    rw [dcut_append]
    have := (k S).1
    omega
  · obtain ⟨S, x, y, rfl⟩ := a.att
    have h1 := b.le S x y
    rw [dcut_append] at h1
    have := (k S).2
    omega

/-- C103: two parallel edges are like one edge with their capacities added. -/
theorem C103_parallel {p q : Nat} {c c' : Int} (h : NetOk ty n ((p, q, c) :: (p, q, c') :: E)) (hs : s < n)
    (ht : t < n) (hne : s ≠ t) (hv : FlowAns ty n ((p, q, c) :: (p, q, c') :: E) s t v)
    (hw : FlowAns ty n ((p, q, c + c') :: E) s t w) : v = w := by
  have h' : NetOk ty n ((p, q, c + c') :: E) := by
    refine ⟨h.mx, h.size, ?_, ?_⟩
    · intro e he
      rcases List.mem_cons.1 he with rfl | he
      · have h1 := h.edge (p, q, c) (by simp)
        have h2 := h.edge (p, q, c') (by simp)
        exact ⟨h1.1, h1.2.1, add_nonneg h1.2.2 h2.2.2⟩
      · exact h.edge e (by simp [he])
    · have := h.sum
      simp only [List.map_cons, List.sum_cons] at this ⊢
      omega
  have a := cutAns h hs ht hne hv
  have b := cutAns h' hs ht hne hw
  have e : ∀ S, dcut ((p, q, c) :: (p, q, c') :: E) S = dcut ((p, q, c + c') :: E) S := by
    intro S
    simp only [dcut, List.map_cons, List.sum_cons]
    split <;> omega
  exact le_antisymm (cutAns_congr (f := id) b a fun S x y => ⟨x, y, (e S).le⟩)
    (cutAns_congr (f := id) a b fun S x y => ⟨x, y, (e S).ge⟩)

/-- C103: loops, edges into the source and edges out of the sink do not matter. -/
theorem C103_irrelevant (h : NetOk ty n E) (hs : s < n) (ht : t < n) (hne : s ≠ t) (hv : FlowAns ty n E s t v)
    (hw : FlowAns ty n (E.filter fun e => decide (e.2.1 ≠ s ∧ e.1 ≠ t ∧ e.1 ≠ e.2.1)) s t w) : v = w := by
  have key : ∀ (E : List (Nat × Nat × Int)) (p : Nat × Nat × Int → Bool) (f : Nat × Nat × Int → Int),
      (∀ e ∈ E, p e = false → f e = 0) → ((E.filter p).map f).sum = (E.map f).sum := by
    intro E p f
    induction E with
    | nil => intro _; rfl
    | cons e E ih =>
      intro hh
      have := ih fun e he => hh e (List.mem_cons_of_mem _ he)
      rw [List.filter_cons]
      by_cases hp : p e = true
      · rw [if_pos hp]; simp [this]
      · rw [if_neg hp, this, List.map_cons, List.sum_cons, hh e (by simp) (by simpa using hp), zero_add]
  have h' : NetOk ty n (E.filter fun e => decide (e.2.1 ≠ s ∧ e.1 ≠ t ∧ e.1 ≠ e.2.1)) := by
    refine ⟨h.mx, h.size, fun e he => h.edge e (List.mem_filter.1 he).1, le_trans ?_ h.sum⟩
    refine List.Sublist.sum_le_sum (List.Sublist.map _ List.filter_sublist) ?_
    intro x hx
    obtain ⟨e, he, rfl⟩ := List.mem_map.1 hx
    exact (h.edge e he).2.2
  have a := cutAns h hs ht hne hv
  have b := cutAns h' hs ht hne hw
  have e : ∀ S, s ∈ S → t ∉ S →
      dcut (E.filter fun e => decide (e.2.1 ≠ s ∧ e.1 ≠ t ∧ e.1 ≠ e.2.1)) S = dcut E S := by
    intro S x y
    refine key E _ _ fun e _ hp => ?_
    rw [if_neg]
    rintro ⟨h1, h2⟩
    simp only [decide_eq_false_iff_not] at hp
    refine hp ⟨?_, ?_, ?_⟩
    · rintro rfl; exact h2 x
    · rintro rfl; exact y h1
    · intro q; rw [← q] at h2; exact h2 h1
  exact le_antisymm (cutAns_congr (f := id) b a fun S x y => ⟨x, y, (e S x y).ge⟩)
    (cutAns_congr (f := id) a b fun S x y => ⟨x, y, (e S x y).le⟩)

/-- C103: at most the capacity leaving the source and the capacity entering the sink (without loops). -/
theorem C103_terminals (h : NetOk ty n E) (hs : s < n) (ht : t < n) (hne : s ≠ t) (hv : FlowAns ty n E s t v) :
    0 ≤ v ∧ v ≤ (E.map fun e => if e.1 = s ∧ e.2.1 ≠ s then e.2.2 else 0).sum ∧
      v ≤ (E.map fun e => if e.1 ≠ t ∧ e.2.1 = t then e.2.2 else 0).sum := by
  have a := cutAns h hs ht hne hv
  refine ⟨?_, ?_, ?_⟩
  · obtain ⟨S, _, _, rfl⟩ := a.att
    exact dcut_nonneg (fun e he => (h.edge e he).2.2) S
  · have := a.le {s} (by simp) (by simp [Ne.symm hne])
    simpa [dcut] using this
  · have h1 := a.le (Finset.range n \ {t}) (by simp [hs, hne]) (by simp)
    refine h1.trans (le_of_eq ?_)
    unfold dcut
    congr 1
    refine List.map_congr_left fun e he => ?_
    have := h.edge e he
    simp [this.1, this.2.1]

/-- C103: what can go from `s` to `u` and from `u` to `t` can go from `s` to `t`. -/
theorem C103_between (h : NetOk ty n E) (hs : s < n) (ht : t < n) (hu : u < n) (hst : s ≠ t) (hsu : s ≠ u) (hut : u ≠ t)
    (hv : FlowAns ty n E s t v) (hw : FlowAns ty n E s u w) (hz : FlowAns ty n E u t z) : min w z ≤ v := by
  have a := cutAns h hs ht hst hv
  have b := cutAns h hs hu hsu hw
  have c := cutAns h hu ht hut hz
  obtain ⟨S, x, y, rfl⟩ := a.att
  by_cases q : u ∈ S
  · exact (min_le_right _ _).trans (c.le S q y)
  · exact (min_le_left _ _).trans (b.le S x q)

/-- C103: in a network with as much capacity in both directions, of the answers for three pairs of vertices the two
smaller ones are equal. -/
theorem C103_three (h : NetOk ty n E) (hs : s < n) (ht : t < n) (hu : u < n) (hst : s ≠ t) (hsu : s ≠ u) (hut : u ≠ t)
    (hp : (turned E).Perm E) (hv : FlowAns ty n E s t v) (hw : FlowAns ty n E s u w) (hz : FlowAns ty n E u t z) :
    (v = w ∧ v ≤ z) ∨ (v = z ∧ v ≤ w) ∨ (w = z ∧ w ≤ v) := by
  obtain ⟨v', hv', -⟩ := C103_answers h ht hs (Ne.symm hst)
  obtain ⟨w', hw', -⟩ := C103_answers h hu hs (Ne.symm hsu)
  obtain ⟨z', hz', -⟩ := C103_answers h ht hu (Ne.symm hut)
  have e1 := C103_symmetric h hs ht hst hp hv hv'
  have e2 := C103_symmetric h hs hu hsu hp hw hw'
  have e3 := C103_symmetric h hu ht hut hp hz hz'
  have i1 := C103_between h hs ht hu hst hsu hut hv hw hz
  have i2 := C103_between h hs hu ht hsu hst (Ne.symm hut) hw hv hz'
  have i3 := C103_between h hu ht hs hut (Ne.symm hsu) hst hz hw' hv
  omega

/-! A network with a parallel edge, a loop, an edge into the source and one out of the sink. -/
def netExample : List (Nat × Nat × Int) :=
  [(0, 1, 3), (0, 1, 2), (1, 2, 4), (2, 2, 9), (1, 3, 1), (2, 3, 2), (3, 1, 5), (1, 0, 7)]

def i32Ty : IntTy := ⟨true, 32⟩

example : NetOk i32Ty 4 netExample ∧
    NetOk i32Ty 4 (netExample.map fun e : Nat × Nat × Int => (e.1, e.2.1, 10 * e.2.2)) ∧
    NetOk i32Ty 4 (netExample ++ [(0, 3, 5)]) ∧ NetOk i32Ty 4 (netExample ++ netExample) := by
  refine ⟨⟨?_, ?_, ?_, ?_⟩, ⟨?_, ?_, ?_, ?_⟩, ⟨?_, ?_, ?_, ?_⟩, ⟨?_, ?_, ?_, ?_⟩⟩ <;> decide +kernel

/-- The answers: 3 from 0 to 3; 30 with ten times the capacities; 8 with one more edge; 3 turned round; 4 from 0 to 2. -/
example : Prod.fst <$> flowRun i32Ty (Dinic.new 4)
      (netExample.map (fun e : Nat × Nat × Int =>
        FlowOp.addEdge e.1 e.2.1 e.2.2) ++ [FlowOp.maxFlow 0 3]) = ok [3] ∧
    Prod.fst <$> flowRun i32Ty (Dinic.new 4)
      (netExample.map (fun e : Nat × Nat × Int =>
        FlowOp.addEdge e.1 e.2.1 (10 * e.2.2)) ++ [FlowOp.maxFlow 0 3]) = ok [30] ∧
    Prod.fst <$> flowRun i32Ty (Dinic.new 4)
      ((netExample ++ [(0, 3, 5)]).map (fun e : Nat × Nat × Int =>
        FlowOp.addEdge e.1 e.2.1 e.2.2) ++ [FlowOp.maxFlow 0 3]) = ok [8] ∧
    Prod.fst <$> flowRun i32Ty (Dinic.new 4)
      ((turned netExample).map (fun e : Nat × Nat × Int =>
        FlowOp.addEdge e.1 e.2.1 e.2.2) ++ [FlowOp.maxFlow 3 0]) = ok [3] ∧
    Prod.fst <$> flowRun i32Ty (Dinic.new 4)
      (netExample.map (fun e : Nat × Nat × Int =>
        FlowOp.addEdge e.1 e.2.1 e.2.2) ++ [FlowOp.maxFlow 0 2]) = ok [4] := by
  decide +kernel

/-- An undirected network: capacity 3 between 0 and 1, capacity 2 between 1 and 2. -/
def netSym : List (Nat × Nat × Int) := [(0, 1, 3), (1, 0, 3), (1, 2, 2), (2, 1, 2)]

example : NetOk i32Ty 3 netSym ∧ (turned netSym).Perm netSym := by
  refine ⟨⟨?_, ?_, ?_, ?_⟩, ?_⟩ <;> decide +kernel

example : Prod.fst <$> flowRun i32Ty (Dinic.new 3)
      (netSym.map (fun e : Nat × Nat × Int => FlowOp.addEdge e.1 e.2.1 e.2.2) ++ [FlowOp.maxFlow 0 2]) = ok [2] ∧
    Prod.fst <$> flowRun i32Ty (Dinic.new 3)
      (netSym.map (fun e : Nat × Nat × Int => FlowOp.addEdge e.1 e.2.1 e.2.2) ++ [FlowOp.maxFlow 0 1]) = ok [3] ∧
    Prod.fst <$> flowRun i32Ty (Dinic.new 3)
      (netSym.map (fun e : Nat × Nat × Int => FlowOp.addEdge e.1 e.2.1 e.2.2) ++ [FlowOp.maxFlow 1 2]) = ok [2] := by
  decide +kernel

end Verif.Props
