import Verif.Proof.Bipartite
/-! C18: `AugmentedPath::solve` returns the maximum matching size, for every history of calls. -/
namespace Verif.Props
open Model Spec Res BipP

/-- A history of calls on one `AugmentedPath`: the answers of the `solve` calls, in order. -/
def matchRun (t : AugmentedPath) : List MatchOp → Res (List Nat)
  | [] => ok []
  | .addEdge u v :: ops => do
    let t ← t.addEdge u v
    matchRun t ops
  | .solve :: ops => do
    let (t, k) ← t.solve
    let ks ← matchRun t ops
    ok (k :: ks)

/-- What holds between calls. -/
structure MatchInv (n m : Nat) (E : List (Nat × Nat)) (t : AugmentedPath) : Prop where
  len : t.g.length = n
  sok : SOk t.g m { vis := t.vis, l := t.l, r := t.r }
  edges : ∀ x v, (x, v) ∈ E ↔ v ∈ t.g.getD x []

theorem matchInv_new (n m : Nat) : MatchInv n m [] (AugmentedPath.new n m) := by
  have h1 : ∀ {k x : Nat}, (List.replicate k (none : Option Nat)).getD x none = none := by
    intro k x
    rw [List.getD_eq_getElem?_getD, List.getElem?_replicate]; split <;> rfl
  have h2 : ∀ {x : Nat}, (List.replicate n ([] : List Nat)).getD x [] = [] := by
    intro x
    rw [List.getD_eq_getElem?_getD, List.getElem?_replicate]; split <;> rfl
  refine ⟨by simp [AugmentedPath.new], ⟨by simp [AugmentedPath.new], by simp [AugmentedPath.new],
    by simp [AugmentedPath.new], ⟨?_, ?_⟩⟩, ?_⟩ <;> simp only [AugmentedPath.new, h1, h2] <;> simp

theorem addEdge_sat {n m u v : Nat} {E : List (Nat × Nat)} {t : AugmentedPath}
    (h : MatchInv n m E t) (hu : u < n) :
    Sat (t.addEdge u v) (MatchInv n m (E ++ [(u, v)])) := by
  have hu' : u < t.g.length := by rw [h.len]; exact hu
  unfold AugmentedPath.addEdge
  rw [idx_of_some (some_getD [] hu'), ok_bind, upd_of_lt hu', ok_bind, sat_ok]
  have hg : ∀ x, (t.g.set u (t.g.getD u [] ++ [v])).getD x [] =
      if x = u then t.g.getD u [] ++ [v] else t.g.getD x [] := fun x => getD_set hu'
  have hmem : ∀ x w, w ∈ (t.g.set u (t.g.getD u [] ++ [v])).getD x [] ↔
      w ∈ t.g.getD x [] ∨ (x = u ∧ w = v) := by
    intro x w; rw [hg]; by_cases hx : x = u
    · subst hx; simp
    · simp [hx]
  refine ⟨by simpa using h.len, ⟨by simpa using h.sok.vis, by simpa using h.sok.l, h.sok.r,
    ⟨h.sok.mat.inv, fun x w hw => (hmem x w).2 (.inl (h.sok.mat.edge x w hw))⟩⟩, ?_⟩
  intro x w
  rw [hmem, List.mem_append, h.edges]; simp

/-- The edges of a history. -/
def matchEdges : List MatchOp → List (Nat × Nat)
  | [] => []
  | .addEdge u v :: ops => (u, v) :: matchEdges ops
  | .solve :: ops => matchEdges ops

theorem matchRun_satOr {n m : Nat} : ∀ (ops : List MatchOp) (E : List (Nat × Nat)) (t : AugmentedPath),
    MatchInv n m E t → (∀ o ∈ ops, o.LeftPre n) →
    SatOr (∃ e ∈ E ++ matchEdges ops, m ≤ e.2) (matchRun t ops) (MatchRunOk' m E ops)
  | [], _, _, _, _ => by simp [matchRun, MatchRunOk']
  | .addEdge u v :: ops, E, t, h, hp => by
    have hp1 := hp _ (List.mem_cons_self ..)
    rw [matchRun]
    refine satOr_bind ((Sat.toOr (addEdge_sat h hp1)).mono fun t' h' => ?_)
    have := matchRun_satOr ops _ t' h' fun o ho => hp o (List.mem_cons_of_mem _ ho)
    rw [List.append_assoc] at this
    exact this
  | .solve :: ops, E, t, h, hp => by
    rw [matchRun]
    have hs := solve_satOr h.sok h.edges
    have hs' : SatOr (∃ e ∈ E ++ matchEdges ops, m ≤ e.2) t.solve _ :=
      hs.imp_right fun ⟨⟨x, v, hv, hm⟩, he⟩ =>
        ⟨⟨(x, v), List.mem_append_left _ ((h.edges x v).2 hv), hm⟩, he⟩
    refine satOr_bind (hs'.mono ?_)
    rintro ⟨t', k⟩ ⟨hg, hs, hk⟩
    have h' : MatchInv n m E t' := ⟨by rw [hg]; exact h.len, by rw [hg]; exact hs,
      by rw [hg]; exact h.edges⟩
    refine satOr_bind ((matchRun_satOr ops E t' h' fun o ho =>
      hp o (List.mem_cons_of_mem _ ho)).mono ?_)
    intro ks hks
    rw [satOr_ok]
    exact ⟨hk, hks⟩

theorem matchRunOk_of {m : Nat} : ∀ (ops : List MatchOp) (E : List (Nat × Nat)) (ks : List Nat),
    MatchRunOk' m E ops ks → MatchRunOk E ops ks
  | [], _, [], _ => trivial
  | .addEdge _ _ :: ops, _, ks, h => matchRunOk_of ops _ ks h
  | .solve :: ops, E, _ :: ks, h => ⟨h.1.1, matchRunOk_of ops E ks h.2⟩

/-- **C18.** After `new(n, m)`, for every interleaving of in-range `add_edge` and `solve` calls, every
`solve` terminates without panic and returns the maximum matching size of the edges added so far. -/
theorem C18_history (n m : Nat) (ops : List MatchOp) (hp : ∀ o ∈ ops, o.Pre n m) :
    ∃ ks, matchRun (AugmentedPath.new n m) ops = ok ks ∧ MatchRunOk [] ops ks := by
  have hl : ∀ o ∈ ops, o.LeftPre n := fun o ho => by
    have := hp o ho
    cases o with
    | addEdge => exact this.1
    | solve => trivial
  refine ((matchRun_satOr ops [] _ (matchInv_new n m) hl).sat ?_).mono fun ks => matchRunOk_of ops [] ks
  rintro ⟨e, he, hm⟩
  rw [List.nil_append] at he
  have : ∀ ops : List MatchOp, (∀ o ∈ ops, o.Pre n m) → ∀ e ∈ matchEdges ops, e.2 < m := by
    intro ops
    induction ops with
    | nil => intro _ e he; cases he
    | cons o ops ih =>
      intro hp e he
      cases o with
      | addEdge u v =>
        rcases List.mem_cons.1 he with rfl | he
        · exact (hp _ (List.mem_cons_self ..)).2
        · exact ih (fun o ho => hp o (List.mem_cons_of_mem _ ho)) e he
      | solve => exact ih (fun o ho => hp o (List.mem_cons_of_mem _ ho)) e he
  exact absurd (this ops hp e he) (by omega)

/-- **C18.** The same when right vertices may be out of range: the history never runs for ever; if it
panics, some edge has a right vertex out of range; and every answer that is returned is the maximum for
all the edges, also for those inside the graph alone. -/
theorem C18_any_right (n m : Nat) (ops : List MatchOp) (hp : ∀ o ∈ ops, o.LeftPre n) :
    (matchRun (AugmentedPath.new n m) ops = .panic ∧ ∃ e ∈ matchEdges ops, m ≤ e.2) ∨
    ∃ ks, matchRun (AugmentedPath.new n m) ops = ok ks ∧ MatchRunOk' m [] ops ks := by
  rcases matchRun_satOr ops [] _ (matchInv_new n m) hp with h | ⟨h, e⟩
  · exact .inr h
  · exact .inl ⟨e, by simpa using h⟩

theorem edges_max {n m : Nat} : ∀ (ops : List MatchOp) (E : List (Nat × Nat)) (ks : List Nat),
    MatchRunOk' m E (ops ++ [.solve]) ks → ∃ k, IsMaxMatching (E ++ matchEdges ops) k ∧
      IsMaxMatching ((E ++ matchEdges ops).filter fun e => e.2 < m) k
  | [], E, [k], h => ⟨k, by simpa [matchEdges] using h.1⟩
  | .addEdge u v :: ops, E, ks, h => by
    have := edges_max (n := n) ops _ ks h
    rw [List.append_assoc] at this
    exact this
  | .solve :: ops, E, _ :: ks, h => edges_max (n := n) ops E ks h.2

/-- **C18.** When edges with a right vertex out of range would enlarge the matching, `solve` panics. -/
theorem C18_right_panics (n m : Nat) (ops : List MatchOp) (hp : ∀ o ∈ ops, o.LeftPre n) (k k' : Nat)
    (hk : IsMaxMatching (matchEdges ops) k)
    (hk' : IsMaxMatching ((matchEdges ops).filter fun e => e.2 < m) k') (hne : k' ≠ k) :
    matchRun (AugmentedPath.new n m) (ops ++ [.solve]) = .panic := by
  rcases C18_any_right n m (ops ++ [.solve]) (by
    intro o ho
    rcases List.mem_append.1 ho with ho | ho
    · exact hp o ho
    · simp at ho; subst ho; trivial) with h | ⟨ks, -, h⟩
  · exact h.1
  · obtain ⟨k1, h1, h2⟩ := edges_max (n := n) ops [] ks h
    rw [List.nil_append] at h1 h2
    have uniq : ∀ {E : List (Nat × Nat)} {k k' : Nat}, IsMaxMatching E k → IsMaxMatching E k' → k = k' := by
      rintro E k k' ⟨⟨M, hM, e⟩, h2⟩ ⟨⟨M', hM', e'⟩, h2'⟩
      have := h2 M' hM'
      have := h2' M hM
      omega
    exact absurd ((uniq hk' h2).trans (uniq hk h1).symm) hne

/-- The maximum is unique, so the answers of a history are determined by its edges. -/
theorem C18_unique {E : List (Nat × Nat)} {k k' : Nat} (h : IsMaxMatching E k)
    (h' : IsMaxMatching E k') : k = k' := by
  obtain ⟨⟨M, hM, e⟩, h2⟩ := h
  obtain ⟨⟨M', hM', e'⟩, h2'⟩ := h'
  have := h2 M' hM'
  have := h2' M hM
  omega

/-- `add_edge` with a left vertex out of range panics. -/
theorem C18_add_edge_panics (n m u v : Nat) (hu : n ≤ u) :
    (AugmentedPath.new n m).addEdge u v = .panic := by
  unfold AugmentedPath.addEdge
  rw [idx_panic (by simpa [AugmentedPath.new] using hu)]; rfl

/-- A right vertex out of range is accepted by `add_edge`; the panic comes later, in `solve`, or never
when the search does not come to that edge. -/
theorem C18_right_out_of_range :
    matchRun (AugmentedPath.new 1 1) [.addEdge 0 1] = ok [] ∧
      matchRun (AugmentedPath.new 1 1) [.addEdge 0 1, .solve] = .panic ∧
      matchRun (AugmentedPath.new 1 1) [.addEdge 0 0, .addEdge 0 1, .solve] = ok [1] ∧
      matchRun (AugmentedPath.new 1 1) [.addEdge 0 1, .addEdge 0 0, .solve] = .panic := by
  refine ⟨by decide +kernel, by decide +kernel, by decide +kernel, by decide +kernel⟩

/-- Hypotheses of `C18_right_panics`: the edge to the missing vertex would raise the maximum to 2. -/
example : (∀ o ∈ [MatchOp.addEdge 0 0, .addEdge 1 0, .addEdge 1 7], o.LeftPre 2) ∧
    IsMaxMatching (matchEdges [MatchOp.addEdge 0 0, .addEdge 1 0, .addEdge 1 7]) 2 ∧
    IsMaxMatching ((matchEdges [MatchOp.addEdge 0 0, .addEdge 1 0, .addEdge 1 7]).filter
      fun e => e.2 < 2) 1 := by
  have hsub : ∀ (M : List (Nat × Nat)) (f : Nat × Nat → Nat) (t : List Nat), (M.map f).Nodup →
      (∀ e ∈ M, f e ∈ t) → M.length ≤ t.length := by
    intro M f t h1 h2
    rw [← List.length_map (f := f)]
    refine (h1.subperm ?_).length_le
    intro x hx
    obtain ⟨e, he, rfl⟩ := List.mem_map.1 hx
    exact h2 e he
  refine ⟨by simp [MatchOp.LeftPre], ⟨⟨[(0, 0), (1, 7)], ⟨by decide, by decide, by decide⟩, rfl⟩, ?_⟩,
    ⟨⟨[(0, 0)], ⟨by decide, by decide, by decide⟩, rfl⟩, ?_⟩⟩
  · intro M hM
    refine hsub M Prod.fst [0, 1] hM.left fun e he => ?_
    have := hM.sub e he
    simp [matchEdges] at this
    rcases this with rfl | rfl | rfl <;> decide
  · intro M hM
    refine hsub M Prod.snd [0] hM.right fun e he => ?_
    have := hM.sub e he
    simp [matchEdges] at this
    rcases this with rfl | rfl <;> decide

/-- A graph on which the greedy choice has to be undone by an augmenting path, with a `solve` in the
middle, a duplicated edge and an edge added after the first `solve`. -/
example : (∀ o ∈ [MatchOp.addEdge 0 0, .addEdge 0 1, .solve, .addEdge 1 0, .addEdge 1 0, .addEdge 2 1,
      .solve, .addEdge 2 2, .solve], o.Pre 3 3) ∧
    matchRun (AugmentedPath.new 3 3) [.addEdge 0 0, .addEdge 0 1, .solve, .addEdge 1 0, .addEdge 1 0,
      .addEdge 2 1, .solve, .addEdge 2 2, .solve] = ok [1, 2, 3] := by
  refine ⟨?_, by decide +kernel⟩
  simp [MatchOp.Pre]

end Verif.Props
