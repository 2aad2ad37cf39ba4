import Verif.Proof.MatchDuality
/-! C99: what the answer of `AugmentedPath::solve` says about neighbourhoods, independent sets and edge covers. -/
namespace Verif.Props
open Model Spec Res BipP Finset

/-- **C99, deficiency.** The answer is the least value of `n - |A| + |N(A)|` over all sets `A` of left vertices, where
`N(A)` are their neighbours. -/
theorem C99_deficiency (n m : Nat) (E : List (Nat × Nat)) (hE : ∀ e ∈ E, e.1 < n ∧ e.2 < m) :
    ∃ k, matchRun (AugmentedPath.new n m) (matchCalls E) = ok [k] ∧
      (∃ A ⊆ range n, k + A.card = n + (nbrs E A).card) ∧ ∀ A ⊆ range n, k + A.card ≤ n + (nbrs E A).card := by
  obtain ⟨k, e, _, h⟩ := C60_konig n m E hE
  exact ⟨k, e, ore hE h⟩

/-- **C99, Hall.** `solve` matches every left vertex if and only if every set of left vertices has at least as many
neighbours as elements. -/
theorem C99_hall (n m : Nat) (E : List (Nat × Nat)) (hE : ∀ e ∈ E, e.1 < n ∧ e.2 < m) :
    matchRun (AugmentedPath.new n m) (matchCalls E) = ok [n] ↔ ∀ A ⊆ range n, A.card ≤ (nbrs E A).card := by
  obtain ⟨k, e, ⟨A, h1, h2⟩, h3⟩ := C99_deficiency n m E hE
  rw [e]
  constructor
  · intro h B hB
    cases h
    have := h3 B hB
    omega
  · intro h
    have a := h A h1
    have b := h3 ∅ (by simp)
    have c : nbrs E ∅ = ∅ := by ext y; simp [mem_nbrs]
    rw [c, card_empty] at b
    have : k = n := by omega
    rw [this]

/-- **C99, independent sets.** `n + m` less the answer is the largest number of vertices with no edge between them. -/
theorem C99_independent (n m : Nat) (E : List (Nat × Nat)) (hE : ∀ e ∈ E, e.1 < n ∧ e.2 < m) :
    ∃ k, matchRun (AugmentedPath.new n m) (matchCalls E) = ok [k] ∧ k ≤ n + m ∧ IsMaxIndep n m E (n + m - k) := by
  obtain ⟨k, e, _, h⟩ := C60_konig n m E hE
  exact ⟨k, e, maxIndep hE h⟩

/-- **C99, edge covers.** When no vertex is isolated, `n + m` less the answer is the least number of edges that touch
every vertex. -/
theorem C99_edge_cover (n m : Nat) (E : List (Nat × Nat)) (hE : ∀ e ∈ E, e.1 < n ∧ e.2 < m)
    (hl : ∀ x < n, ∃ e ∈ E, e.1 = x) (hr : ∀ y < m, ∃ e ∈ E, e.2 = y) :
    ∃ k, matchRun (AugmentedPath.new n m) (matchCalls E) = ok [k] ∧ k ≤ n + m ∧ IsMinEdgeCover n m E (n + m - k) := by
  obtain ⟨k, e, h1, h2⟩ := C60_konig n m E hE
  exact ⟨k, e, (maxIndep hE h2).1, minEdgeCover hE hl hr h1 h2⟩

/-- **C99, one round.** The first round of the outer loop of `solve` already leaves in `l` at least half as many matched
left vertices as the answer of `solve`: no edge has both ends unmatched. -/
theorem C99_first_round (n m : Nat) (E : List (Nat × Nat)) (hE : ∀ e ∈ E, e.1 < n ∧ e.2 < m) :
    ∃ t t' o k, enter (AugmentedPath.new n m) E = ok t ∧ t.solve = ok (t', k) ∧
      AugmentedPath.phase n t.g { vis := t.vis, l := t.l, r := t.r } = ok o ∧
      (∀ e ∈ E, (o.1.l.getD e.1 none).isSome ∨ (o.1.r.getD e.2 none).isSome) ∧
      k ≤ 2 * ((range n).filter fun x => (o.1.l.getD x none).isSome).card := by
  obtain ⟨t, t', k, e1, e2, hk, -⟩ := C60_certificate n m E hE
  obtain ⟨t2, e3, h⟩ := enter_sat E [] _ (matchInv_new n m) fun e he => (hE e he).1
  rw [e1] at e3
  cases e3
  rw [List.nil_append] at h
  obtain ⟨o, e4, ho⟩ := (phase_tried h.len.symm h.sok).sat (by
    rintro ⟨x, v, h1, h2⟩
    exact absurd (hE _ ((h.edges x v).2 h1)).2 (by simp only; omega))
  refine ⟨t, t', o, k, e1, e2, e4, ?_, ?_⟩
  · rintro ⟨x, v⟩ he
    cases hl : o.1.l.getD x none with
    | some => exact .inl rfl
    | none => exact .inr (ho.free x (hE _ he).1 hl v ((h.edges x v).1 he))
  · have h1 := ho.sok.l
    rw [h.len] at h1
    rw [← h1, matched_card]
    have h2 := ho
    rw [← h.len] at h2
    exact tried_half h2 h.edges hk

/-- Three left vertices share two neighbours: the answer is 2, the set of all three is deficient by one, three of the
five vertices are independent, and three edges touch every vertex. -/
example : (∀ e ∈ [(0, 0), (0, 1), (1, 0), (2, 1)], e.1 < 3 ∧ e.2 < 2) ∧
    (∀ x < 3, ∃ e ∈ [(0, 0), (0, 1), (1, 0), (2, 1)], e.1 = x) ∧ (∀ y < 2, ∃ e ∈ [(0, 0), (0, 1), (1, 0), (2, 1)], e.2 = y) ∧
    matchRun (AugmentedPath.new 3 2) (matchCalls [(0, 0), (0, 1), (1, 0), (2, 1)]) = ok [2] ∧
    nbrs [(0, 0), (0, 1), (1, 0), (2, 1)] {0, 1, 2} = {0, 1} ∧
    IsEdgeCover 3 2 [(0, 0), (0, 1), (1, 0), (2, 1)] [(0, 0), (1, 0), (2, 1)] := by
  refine ⟨by decide, by decide, by decide, by decide +kernel, by decide, ⟨by decide, by decide, by decide⟩⟩

/-- The bound of one round is attained: two pairs can be matched, the first round finds one of them. -/
example : (enter (AugmentedPath.new 2 2) [(0, 0), (0, 1), (1, 0)] >>= fun t =>
    AugmentedPath.phase 2 t.g { vis := t.vis, l := t.l, r := t.r } >>= fun o => ok (o.1.l, o.2)) =
      ok ([some 0, none], true) ∧
    matchRun (AugmentedPath.new 2 2) (matchCalls [(0, 0), (0, 1), (1, 0)]) = ok [2] := by decide +kernel

end Verif.Props
