import Verif.Props.Tarjan
import Verif.Spec.TwoSat
import Mathlib.Data.List.Perm.Subperm
/-! C100: 2-satisfiability, topological orders and universal vertices from the colours of `scc`. -/
namespace Verif.Props
open Model Spec Res

theorem litNeg_lt {n a : Nat} (h : a < 2 * n) : litNeg a < 2 * n := by unfold litNeg; split <;> omega

theorem litNeg_neg (a : Nat) : litNeg (litNeg a) = a := by
  unfold litNeg
  split <;> split <;> omega

theorem litTrue_neg (σ : Nat → Bool) (a : Nat) : LitTrue σ (litNeg a) ↔ ¬ LitTrue σ a := by
  unfold LitTrue litNeg
  by_cases h : a % 2 = 0
  · have h1 : (a + 1) % 2 ≠ 0 := by omega
    have h2 : (a + 1) / 2 = a / 2 := by omega
    simp [h, h1, h2]
  · have h1 : (a - 1) % 2 = 0 := by omega
    have h2 : (a - 1) / 2 = a / 2 := by omega
    simp [h, h1, h2]

theorem impl_edge {n : Nat} {C : List (Nat × Nat)} (hC : ∀ c ∈ C, c.1 < 2 * n ∧ c.2 < 2 * n) {x y : Nat} :
    DEdge (implGraph n C) x y ↔ ∃ c ∈ C, (litNeg c.1 = x ∧ c.2 = y) ∨ (litNeg c.2 = x ∧ c.1 = y) := by
  unfold DEdge implGraph
  simp only [List.getElem?_map, Option.map_eq_some_iff, List.getElem?_eq_some_iff, List.length_range, List.getElem_range]
  constructor
  · rintro ⟨_, ⟨_, ⟨_, rfl⟩, rfl⟩, h⟩
    simp only [List.mem_append, List.mem_map, List.mem_filter, decide_eq_true_eq] at h
    rcases h with ⟨c, ⟨h1, h2⟩, rfl⟩ | ⟨c, ⟨h1, h2⟩, rfl⟩
    · exact ⟨c, h1, .inl ⟨h2, rfl⟩⟩
    · exact ⟨c, h1, .inr ⟨h2, rfl⟩⟩
  · rintro ⟨c, h1, h⟩
    have hx : x < 2 * n := by
      rcases h with ⟨rfl, -⟩ | ⟨rfl, -⟩
      · exact litNeg_lt (hC c h1).1
      · exact litNeg_lt (hC c h1).2
    refine ⟨_, ⟨x, ⟨hx, rfl⟩, rfl⟩, ?_⟩
    simp only [List.mem_append, List.mem_map, List.mem_filter, decide_eq_true_eq]
    rcases h with ⟨h2, h3⟩ | ⟨h2, h3⟩
    · exact .inl ⟨c, ⟨h1, h2⟩, h3⟩
    · exact .inr ⟨c, ⟨h1, h2⟩, h3⟩

theorem impl_length (n : Nat) (C : List (Nat × Nat)) : (implGraph n C).length = 2 * n := by simp [implGraph]

/-- **C100, 2-satisfiability.** `scc` on the implication graph of any clauses of two literals: they can be satisfied if
and only if no variable has the colour of its negation, and then making true the literals whose colour is smaller than
that of their negation satisfies every clause. -/
theorem C100_two_sat (n : Nat) (C : List (Nat × Nat)) (hC : ∀ c ∈ C, c.1 < 2 * n ∧ c.2 < 2 * n) (hn : 2 * n < 2 ^ 31) :
    ∃ cnt color, scc (implGraph n C) = ok (cnt, color) ∧ color.length = 2 * n ∧
      ((∃ σ, SatAll σ C) ↔ ∀ i < n, color[2 * i]? ≠ color[2 * i + 1]?) ∧
      ((∀ i < n, color[2 * i]? ≠ color[2 * i + 1]?) →
        SatAll (fun i => decide (color.getD (2 * i) 0 < color.getD (2 * i + 1) 0)) C) := by
  have hg : ∀ x y, DEdge (implGraph n C) x y → y < (implGraph n C).length := by
    intro x y h
    rw [impl_length]
    obtain ⟨c, h1, ⟨-, rfl⟩ | ⟨-, rfl⟩⟩ := (impl_edge hC).1 h
    · exact (hC c h1).2
    · exact (hC c h1).1
  have hn' : (implGraph n C).length < 2 ^ 31 := by rw [impl_length]; exact hn
  obtain ⟨cnt, color, e, hl, h1, -⟩ := C21_scc _ hg hn'
  obtain ⟨cnt', color', e', -, h2⟩ := C22_edges _ hg hn'
  rw [e] at e'
  cases e'
  rw [impl_length] at hl
  have hsat : (∀ i < n, color[2 * i]? ≠ color[2 * i + 1]?) →
      SatAll (fun i => decide (color.getD (2 * i) 0 < color.getD (2 * i + 1) 0)) C := by
    intro h c hc
    obtain ⟨ha, hb⟩ := hC c hc
    -- an untrue literal has a larger colour than its negation
    have key : ∀ a (ha : a < 2 * n),
        ¬ LitTrue (fun i => decide (color.getD (2 * i) 0 < color.getD (2 * i + 1) 0)) a →
        color[litNeg a]'(by rw [hl]; exact litNeg_lt ha) < color[a]'(by rw [hl]; exact ha) := by
      intro a ha hf
      have hi := h (a / 2) (by omega)
      have g1 : 2 * (a / 2) < color.length := by omega
      have g2 : 2 * (a / 2) + 1 < color.length := by omega
      rw [List.getElem?_eq_getElem g1, List.getElem?_eq_getElem g2] at hi
      have hi' : color[2 * (a / 2)] ≠ color[2 * (a / 2) + 1] := fun h => hi (congrArg some h)
      unfold LitTrue at hf
      simp only [List.getD_eq_getElem?_getD, List.getElem?_eq_getElem g1, List.getElem?_eq_getElem g2,
        Option.getD_some, decide_eq_true_eq, decide_eq_false_iff_not] at hf
      unfold litNeg
      by_cases hp : a % 2 = 0
      · have e1 : 2 * (a / 2) = a := by omega
        rw [if_pos hp] at hf
        simp only [hp, if_true]
        simp only [e1] at hf hi'
        omega
      · have e1 : 2 * (a / 2) = a - 1 := by omega
        have e2 : 2 * (a / 2) + 1 = a := by omega
        rw [if_neg hp] at hf
        simp only [hp, if_false]
        simp only [e2] at hf hi'
        simp only [e1] at hf hi'
        omega
    by_contra hcon
    rw [not_or] at hcon
    have k1 := key c.1 ha hcon.1
    have k2 := key c.2 hb hcon.2
    have e1 := h2 (litNeg c.1) c.2 (by rw [hl]; exact litNeg_lt ha) (by rw [hl]; exact hb)
      ((impl_edge hC).2 ⟨c, hc, .inl ⟨rfl, rfl⟩⟩)
    have e2 := h2 (litNeg c.2) c.1 (by rw [hl]; exact litNeg_lt hb) (by rw [hl]; exact ha)
      ((impl_edge hC).2 ⟨c, hc, .inr ⟨rfl, rfl⟩⟩)
    omega
  refine ⟨cnt, color, e, hl, ⟨?_, fun h => ⟨_, hsat h⟩⟩, hsat⟩
  rintro ⟨σ, hσ⟩ i hi heq
  have g1 : 2 * i < color.length := by omega
  have g2 : 2 * i + 1 < color.length := by omega
  rw [List.getElem?_eq_getElem g1, List.getElem?_eq_getElem g2] at heq
  obtain ⟨r1, r2⟩ := (h1 _ _ g1 g2).1 (Option.some.inj heq)
  have step : ∀ x y, DReach (implGraph n C) x y → LitTrue σ x → LitTrue σ y := by
    intro x y h hx
    induction h with
    | refl => exact hx
    | tail _ he ih =>
      obtain ⟨c, hc, ⟨q, rfl⟩ | ⟨q, rfl⟩⟩ := (impl_edge hC).1 he
      · rw [← q, litTrue_neg] at ih
        exact (hσ c hc).resolve_left ih
      · rw [← q, litTrue_neg] at ih
        exact (hσ c hc).resolve_right ih
  have hneg : litNeg (2 * i) = 2 * i + 1 := by unfold litNeg; rw [if_pos (by omega)]
  have hl1 := litTrue_neg σ (2 * i)
  rw [hneg] at hl1
  by_cases ht : LitTrue σ (2 * i)
  · exact hl1.1 (step _ _ r1 ht) ht
  · exact ht (step _ _ r2 (hl1.2 ht))

/-- `x0 ∨ x1`, `¬x0 ∨ x1`, `¬x1 ∨ x2`: satisfied by the assignment read from the colours. With `¬x1 ∨ ¬x2` added
every variable gets the colour of its negation. -/
example : (scc (implGraph 3 [(0, 2), (1, 2), (3, 4)]) >>= fun r =>
      ok ((List.range 3).map fun i => decide (r.2.getD (2 * i) 0 < r.2.getD (2 * i + 1) 0))) = ok [true, true, true] ∧
    (scc (implGraph 3 [(0, 2), (1, 2), (3, 4), (3, 5)]) >>= fun r =>
      ok ((List.range 3).map fun i => decide (r.2.getD (2 * i) 0 = r.2.getD (2 * i + 1) 0))) = ok [true, true, true] := by
  decide +kernel

theorem reach_trans {g : List (List Nat)} {x y : Nat} (h : DReach g x y) : x = y ∨ Relation.TransGen (DEdge g) x y := by
  rcases Relation.reflTransGen_iff_eq_or_transGen.1 h with h | h
  · exact .inl h.symm
  · exact .inr h

/-- **C100, topological order.** A digraph has no cycle if and only if `scc` finds as many components as vertices and no
edge is a loop. Then the colours are a permutation of `0 .. n`, and every edge goes to a strictly smaller colour: the
vertices by decreasing colour are in topological order. -/
theorem C100_topological (g : List (List Nat)) (hg : ∀ x y, DEdge g x y → y < g.length) (hn : g.length < 2 ^ 31) :
    ∃ cnt color, scc g = ok (cnt, color) ∧ (Acyclic g ↔ cnt = g.length ∧ ∀ x, ¬ DEdge g x x) ∧
      (Acyclic g → color.Perm (List.range g.length) ∧ ∀ (x y : Nat) (hx : x < color.length) (hy : y < color.length),
        DEdge g x y → color[y] < color[x]) := by
  obtain ⟨cnt, color, e, hl, h1, h2⟩ := C21_scc g hg hn
  obtain ⟨cnt', color', e', -, h3⟩ := C22_edges g hg hn
  rw [e] at e'
  cases e'
  have hdom : ∀ {x y}, DEdge g x y → x < color.length := by
    rintro x y ⟨a, ha, -⟩
    rw [hl]
    exact (List.getElem?_eq_some_iff.1 ha).1
  have hinj : Acyclic g → color.Nodup := by
    intro ha
    rw [List.nodup_iff_injective_getElem]
    rintro ⟨x, hx⟩ ⟨y, hy⟩ h
    obtain ⟨r1, r2⟩ := (h1 x y hx hy).1 h
    rcases reach_trans r1 with q | q
    · exact Fin.ext q
    · rcases reach_trans r2 with q' | q'
      · exact Fin.ext q'.symm
      · exact absurd (q.trans q') (ha x)
  have hperm : color.Nodup → color.Perm (List.range cnt) := fun h =>
    (List.perm_ext_iff_of_nodup h List.nodup_range).2 fun c => by rw [← h2, List.mem_range]
  have hcnt : color.Nodup → cnt = g.length := fun h => by
    have := (hperm h).length_eq
    rw [List.length_range, hl] at this
    exact this.symm
  refine ⟨cnt, color, e, ⟨fun h => ⟨hcnt (hinj h), fun x hx => h x (.single hx)⟩, ?_⟩, fun h => ?_⟩
  · rintro ⟨rfl, hloop⟩ x hx
    have hnd : color.Nodup := by
      have hs : (List.range g.length).Subperm color :=
        List.nodup_range.subperm fun c hc => (h2 c).1 (List.mem_range.1 hc)
      have := hs.perm_of_length_le (by rw [hl, List.length_range])
      exact this.nodup_iff.1 List.nodup_range
    -- the first edge of the cycle stays in the component, hence is a loop
    obtain ⟨y, e1, e2⟩ := Relation.TransGen.head'_iff.1 hx
    have a := hdom e1
    have b : y < color.length := by rw [hl]; exact hg x y e1
    have hc := (h1 x y a b).2 ⟨.single e1, e2⟩
    have : x = y := (hnd.getElem_inj_iff).1 hc
    subst this
    exact hloop x e1
  · have hc := hcnt (hinj h)
    refine ⟨hc ▸ hperm (hinj h), fun x y hx hy hxy => Nat.lt_of_le_of_ne (h3 x y hx hy hxy) fun heq => ?_⟩
    have : y = x := ((hinj h).getElem_inj_iff).1 heq
    subst this
    exact h y (.single hxy)

example : Acyclic [[1], []] ∧ scc [[1, 2], [3], [3], []] = ok (4, [3, 1, 2, 0]) ∧ scc [[1], [0], [1]] = ok (2, [0, 0, 1]) := by
  refine ⟨?_, by decide +kernel, by decide +kernel⟩
  obtain ⟨cnt, color, e, h, -⟩ := C100_topological [[1], []] (by
    rintro x y ⟨a, ha, hy⟩
    rcases x with _ | _ | x
    · cases ha; simp at hy; subst hy; decide
    · cases ha; simp at hy
    · simp at ha) (by decide)
  have e2 : scc [[1], []] = ok (2, [1, 0]) := by decide +kernel
  rw [e2] at e
  cases e
  refine h.2 ⟨rfl, ?_⟩
  rintro x ⟨a, ha, hy⟩
  rcases x with _ | _ | x
  · cases ha; simp at hy
  · cases ha; simp at hy
  · simp at ha

/-- **C100, universal vertices.** If some vertex reaches all others, those that do are exactly the vertices of the largest
colour; if some vertex is reached from all others, those that are have exactly the colour `0`. The graph is strongly
connected if and only if there is at most one component. -/
theorem C100_universal (g : List (List Nat)) (hg : ∀ x y, DEdge g x y → y < g.length) (hn : g.length < 2 ^ 31) :
    ∃ cnt color, scc g = ok (cnt, color) ∧ color.length = g.length ∧
      ((∃ x < g.length, ∀ y < g.length, DReach g x y) → ∀ u (hu : u < color.length),
        (color[u] + 1 = cnt ↔ ∀ y < g.length, DReach g u y)) ∧
      ((∃ x < g.length, ∀ y < g.length, DReach g y x) → ∀ u (hu : u < color.length),
        (color[u] = 0 ↔ ∀ y < g.length, DReach g y u)) ∧
      (cnt ≤ 1 ↔ ∀ x < g.length, ∀ y < g.length, DReach g x y) := by
  obtain ⟨cnt, color, e, hl, h1, h2⟩ := C21_scc g hg hn
  obtain ⟨cnt', color', e', -, h3⟩ := C22_reverse_topological g hg hn
  rw [e] at e'
  cases e'
  have hlt : ∀ u (hu : u < color.length), color[u] < cnt := fun u hu => (h2 _).2 (List.getElem_mem hu)
  refine ⟨cnt, color, e, hl, ?_, ?_, ?_⟩
  · rintro ⟨x, hx, hr⟩ u hu
    have top : ∀ w (hw : w < color.length), (∀ y < g.length, DReach g w y) → color[w] + 1 = cnt := by
      intro w hw hr
      have hp := hlt w hw
      obtain ⟨z, hz, hzc⟩ := List.getElem_of_mem ((h2 (cnt - 1)).1 (by omega))
      have := (h3 w z hw hz (hr z (by omega))).1
      omega
    refine ⟨fun h y hy => ?_, top u hu⟩
    have hx' : x < color.length := by omega
    have hxc := top x hx' hr
    exact ((h1 u x hu hx').1 (by omega)).1.trans (hr y hy)
  · rintro ⟨x, hx, hr⟩ u hu
    have bot : ∀ w (hw : w < color.length), (∀ y < g.length, DReach g y w) → color[w] = 0 := by
      intro w hw hr
      have hp := hlt w hw
      obtain ⟨z, hz, hzc⟩ := List.getElem_of_mem ((h2 0).1 (by omega))
      have := (h3 z w hz hw (hr z (by omega))).1
      omega
    refine ⟨fun h y hy => ?_, bot u hu⟩
    have hx' : x < color.length := by omega
    have hxc := bot x hx' hr
    exact (hr y hy).trans ((h1 u x hu hx').1 (by omega)).2
  · constructor
    · intro h x hx y hy
      have a := hlt x (by omega)
      have b := hlt y (by omega)
      exact ((h1 x y (by omega) (by omega)).1 (by omega)).1
    · intro h
      apply Nat.le_of_not_lt
      intro hc
      obtain ⟨x, hx, hxc⟩ := List.getElem_of_mem ((h2 0).1 (by omega))
      obtain ⟨y, hy, hyc⟩ := List.getElem_of_mem ((h2 1).1 (by omega))
      have := (h1 x y hx hy).2 ⟨h x (by omega) y (by omega), h y (by omega) x (by omega)⟩
      omega

/-- Vertices 0 and 1 reach all the others and have the largest colour; 3 is reached from all and has colour 0. -/
example : scc [[1, 2], [0], [3], []] = ok (3, [2, 2, 1, 0]) := by decide +kernel

end Verif.Props
