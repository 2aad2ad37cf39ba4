import Verif.Proof.CostGraph
import Verif.Props.Bipartite
import Verif.Props.Tarjan
/-! C85, C86: how much work `AugmentedPath::solve` and `scc` do. -/
namespace Verif.Props
open Model Spec Res BipP CostG

/-- **C85.** The copies that count return what the functions return, panic when they panic, and end when they end. -/
theorem C85_same (fuel n u : Nat) (g : List (List Nat)) (s : BState) (w : MatchWork) (t : AugmentedPath) :
    (AugmentedPath.dfsCost fuel u g (s, w) >>= fun r => ok r.1) = AugmentedPath.dfs fuel u g s ∧
      (AugmentedPath.phaseCost n g s w >>= fun r => ok r.1) = AugmentedPath.phase n g s ∧
      (t.solveCost >>= fun r => ok r.1) = t.solve :=
  ⟨DinicP.sim_fst (match_dfs_sim g fuel u s w), DinicP.sim_fst (phase_sim n g s w), DinicP.sim_fst (solve_sim t)⟩

/-- **C86.** The same for `scc`. -/
theorem C86_same (fuel u : Nat) (g : List (List Nat)) (s : SCC) (w : SccWork) :
    (SCC.dfsCost fuel u g (s, w) >>= fun r => ok r.1) = SCC.dfs fuel u g s ∧
      (sccCost g >>= fun r => ok r.1) = scc g :=
  ⟨DinicP.sim_fst (scc_dfs_sim g fuel u s w), DinicP.sim_fst (scc_sim g)⟩

/-- A history of calls on one `AugmentedPath`: the answers of the `solve` calls, in order, and the work of all of them
together. -/
def matchRunCost (t : AugmentedPath) : List MatchOp → Res (List Nat × MatchWork)
  | [] => ok ([], ⟨0, 0, 0⟩)
  | .addEdge u v :: ops => do
    let t ← t.addEdge u v
    matchRunCost t ops
  | .solve :: ops => do
    let ((t, k), w) ← t.solveCost
    let (ks, w') ← matchRunCost t ops
    ok (k :: ks, ⟨w.phases + w'.phases, w.calls + w'.calls, w.looks + w'.looks⟩)

theorem matchRunCost_sim : ∀ (ops : List MatchOp) (t : AugmentedPath),
    Sim False False (fun a b => a.1 = b) (matchRunCost t ops) (matchRun t ops)
  | [], _ => sim_ok rfl
  | .addEdge u v :: ops, t => by
    rw [matchRunCost, matchRun]
    refine sim_bind sim_refl ?_
    rintro t' _ rfl
    exact matchRunCost_sim ops t'
  | .solve :: ops, t => by
    rw [matchRunCost, matchRun]
    refine sim_bind (solve_sim t) ?_
    rintro ⟨⟨t', k⟩, w⟩ _ rfl
    refine sim_bind (matchRunCost_sim ops t') ?_
    rintro ⟨ks, w'⟩ _ rfl
    exact sim_ok rfl

/-- Number of edges, counted with repetitions. -/
def gsize (t : AugmentedPath) : Nat := (t.g.map List.length).sum

theorem gsize_addEdge {t : AugmentedPath} {u v : Nat} : Post (t.addEdge u v) fun t' => gsize t' = gsize t + 1 ∧ t'.l = t.l := by
  unfold AugmentedPath.addEdge
  refine post_bind (post_idx.mono fun gu hgu => post_bind (post_upd.mono ?_))
  rintro g' ⟨hu, rfl⟩
  refine post_ok ⟨?_, rfl⟩
  unfold gsize
  simp only
  rw [List.map_set]
  have hgu' : (t.g.map List.length)[u]? = some gu.length := by rw [List.getElem?_map, hgu]; rfl
  clear hgu hu
  generalize hL : t.g.map List.length = L at hgu'
  clear hL
  induction L generalizing u with
  | nil => simp at hgu'
  | cons a L ih =>
    cases u with
    | zero =>
      simp at hgu'
      simp [hgu']; omega
    | succ u =>
      simp only [List.getElem?_cons_succ] at hgu'
      simp only [List.set_cons_succ, List.sum_cons]
      rw [ih hgu']; omega

theorem matchRunCost_post {n m : Nat} : ∀ (ops : List MatchOp) (E : List (Nat × Nat)) (t : AugmentedPath),
    MatchInv n m E t → (∀ o ∈ ops, o.LeftPre n) → Post (matchRunCost t ops) fun o =>
      o.1.length ≤ o.2.phases ∧
      o.2.phases + matched t.l ≤ o.1.getLastD (matched t.l) + o.1.length ∧
      o.2.looks ≤ o.2.phases * (gsize t + (matchEdges ops).length) ∧
      o.2.calls ≤ o.2.phases * (n + (gsize t + (matchEdges ops).length))
  | [], _, _, _, _ => post_ok (by simp)
  | .addEdge u v :: ops, E, t, h, hp => by
    rw [matchRunCost]
    refine post_bind ((gsize_addEdge.and (addEdge_sat h (hp _ (List.mem_cons_self ..))).post).mono ?_)
    rintro t' ⟨⟨h1, h2⟩, h'⟩
    refine (matchRunCost_post ops _ t' h' fun o ho => hp o (List.mem_cons_of_mem _ ho)).mono ?_
    rintro o ⟨k0, k1, k2, k3⟩
    rw [h2] at k1
    rw [h1] at k2 k3
    have e : gsize t + (matchEdges (.addEdge u v :: ops)).length = gsize t + 1 + (matchEdges ops).length := by
      simp [matchEdges]; omega
    rw [e]
    exact ⟨k0, k1, k2, k3⟩
  | .solve :: ops, E, t, h, hp => by
    rw [matchRunCost]
    have hc := SatOr.toPost (solve_cert h.sok)
    refine post_bind (((solve_post h.sok).and fun a e => hc a.1 (sim_run (solve_sim t) e)).mono ?_)
    rintro ⟨⟨t', k⟩, w⟩ ⟨⟨h0, h1, h2, h3⟩, hcert⟩
    simp only at h0 h1 h2 h3 hcert ⊢
    have h' : MatchInv n m E t' := ⟨by rw [hcert.g]; exact h.len, by rw [hcert.g]; exact hcert.sok,
      by rw [hcert.g]; exact h.edges⟩
    refine post_bind ((matchRunCost_post ops E t' h' fun o ho => hp o (List.mem_cons_of_mem _ ho)).mono ?_)
    rintro ⟨ks, w'⟩ ⟨k0, k1, k2, k3⟩
    have eg : gsize t' = gsize t := by unfold gsize; rw [hcert.g]
    rw [h.len] at h3
    rw [eg] at k2 k3
    have e : matchEdges (.solve :: ops) = matchEdges ops := rfl
    rw [e]
    have hk := hcert.size
    simp only at k0 k1 k2 k3 hk
    refine post_ok ⟨?_, ?_, ?_, ?_⟩
    · simp only [List.length_cons]; omega
    · simp only [List.length_cons, List.getLastD_cons]
      rw [hk]; omega
    · simp only
      rw [Nat.add_mul]
      have : w.phases * gsize t ≤ w.phases * (gsize t + (matchEdges ops).length) := Nat.mul_le_mul_left _ (by omega)
      have : w.looks ≤ w.phases * gsize t := h2
      omega
    · simp only
      rw [Nat.add_mul]
      have : w.phases * (n + gsize t) ≤ w.phases * (n + (gsize t + (matchEdges ops).length)) := Nat.mul_le_mul_left _ (by omega)
      have : w.calls ≤ w.phases * (n + gsize t) := h3
      omega

/-- **C85.** After `new(n, m)`, for every interleaving of in-range `add_edge` and `solve` calls, with `e` edges added in
all: the rounds of all the `solve` calls together are at most the last answer plus the number of `solve` calls; a round
looks at no more than `e` edges and makes no more than `n + e` calls of `dfs`. -/
theorem C85_work (n m : Nat) (ops : List MatchOp) (hp : ∀ o ∈ ops, o.Pre n m) :
    ∃ ks w, matchRunCost (AugmentedPath.new n m) ops = ok (ks, w) ∧ matchRun (AugmentedPath.new n m) ops = ok ks ∧
      MatchRunOk [] ops ks ∧ ks.length ≤ w.phases ∧ w.phases ≤ ks.getLastD 0 + ks.length ∧
      w.looks ≤ w.phases * (matchEdges ops).length ∧ w.calls ≤ w.phases * (n + (matchEdges ops).length) := by
  obtain ⟨ks, e, hks⟩ := C18_history n m ops hp
  obtain ⟨w, ew⟩ := sim_back (matchRunCost_sim ops _) e
  have hl : ∀ o ∈ ops, o.LeftPre n := fun o ho => by
    have := hp o ho
    cases o with
    | addEdge => exact this.1
    | solve => trivial
  have h := matchRunCost_post ops [] _ (matchInv_new n m) hl _ ew
  have e0 : matched (AugmentedPath.new n m).l = 0 := by
    simp [matched, AugmentedPath.new, List.count_replicate]
  have e1 : gsize (AugmentedPath.new n m) = 0 := by
    simp [gsize, AugmentedPath.new]
  rw [e0, e1, Nat.zero_add] at h
  exact ⟨ks, w, ew, e, hks, h⟩

/-- **C85.** One call of `solve` on any state reached: at most one round for every pair by which the matching grows, and
one more. -/
theorem C85_one_call (n m : Nat) (E : List (Nat × Nat)) (t : AugmentedPath) (h : MatchInv n m E t) :
    Post t.solveCost fun o => o.2.phases + matched t.l ≤ o.1.2 + 1 ∧ o.2.looks ≤ o.2.phases * gsize t ∧
      o.2.calls ≤ o.2.phases * (n + gsize t) := by
  have hc := SatOr.toPost (solve_cert h.sok)
  refine ((solve_post h.sok).and fun a e => hc a.1 (sim_run (solve_sim t) e)).mono ?_
  rintro ⟨⟨t', k⟩, w⟩ ⟨⟨h0, h1, h2, h3⟩, hcert⟩
  have hk := hcert.size
  rw [h.len] at h3
  simp only at h0 h1 h2 h3 hk ⊢
  rw [hk]
  exact ⟨h1, h2, h3⟩

/-- **C86.** `scc` on a digraph with in-range edges and fewer than `2^31` vertices calls `dfs` once for each vertex, looks
once at each edge, and takes each vertex off the stack once. -/
theorem C86_work (g : List (List Nat)) (hg : ∀ x y, DEdge g x y → y < g.length) (hn : g.length < 2 ^ 31) :
    ∃ cnt color, scc g = ok (cnt, color) ∧
      sccCost g = ok ((cnt, color), ⟨g.length, (g.map List.length).sum, g.length⟩) := by
  obtain ⟨cnt, color, e, -⟩ := C21_scc g hg hn
  obtain ⟨w, ew⟩ := sim_back (scc_sim g) e
  have := scc_post g _ ew
  simp only at this
  rw [this] at ew
  exact ⟨cnt, color, e, ew⟩

/-- The bound on the rounds is reached: the second left vertex is only matched in the second round, since the first
one is already marked in the first round; the third round finds nothing. The second `solve` takes one round. -/
example : (∀ o ∈ [MatchOp.addEdge 0 0, .addEdge 0 1, .addEdge 1 0, .solve, .solve], o.Pre 2 2) ∧
    matchRunCost (AugmentedPath.new 2 2) [.addEdge 0 0, .addEdge 0 1, .addEdge 1 0, .solve] = ok ([2], ⟨3, 5, 5⟩) ∧
    matchRunCost (AugmentedPath.new 2 2) [.addEdge 0 0, .addEdge 0 1, .addEdge 1 0, .solve, .solve] =
      ok ([2, 2], ⟨4, 5, 5⟩) := by
  refine ⟨by simp [MatchOp.Pre], by decide +kernel, by decide +kernel⟩

/-- A state as in `C85_one_call`. -/
example : ∃ t, AugmentedPath.addEdge (AugmentedPath.new 2 2) 0 1 = ok t ∧ MatchInv 2 2 [(0, 1)] t := by
  obtain ⟨t, e, h⟩ := addEdge_sat (v := 1) (matchInv_new 2 2) (show 0 < 2 by decide)
  exact ⟨t, e, h⟩

/-- A cycle of three vertices, a tail, a loop and a repeated edge. -/
example : sccCost [[1], [2, 2], [0, 3], [3], [0]] = ok ((3, [1, 1, 1, 0, 2]), ⟨5, 7, 5⟩) := by decide +kernel

end Verif.Props
