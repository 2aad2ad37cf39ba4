import Verif.Proof.DepthTree
import Verif.Props.TreeAny
import Verif.Props.HLD
import Verif.Props.Bipartite
import Verif.Props.Dinic
/-! C93: how many calls of the recursive searches are nested in each other (`Verif/Spec/Depth.lean`). The models with a
limit are in `Verif/Model/Depth.lean`. -/
namespace Verif.Props
open Res Model Spec TreeP DepthP

/-- C93: with the limits that the models of the functions carry, the models with a limit are those models. -/
theorem C93_models {S F : Type} (M : MapMonoidOps S F) (ty : IntTy) (g : List (List Nat)) (root s t : Nat)
    (d : Dinic) (p : AugmentedPath) :
    sccDepth (g.length + 1) g = scc g ∧
    BinaryLifting.fromDepth (g.length + (g.map List.length).sum + 2) g root = BinaryLifting.from g root ∧
    HLD.newDepth (g.length + 1) M g root = HLD.new M g root ∧
    p.solveDepth (p.l.length + 1) = p.solve ∧
    (d.h.length = d.n → d.getMaxFlowDepth ty (d.n + 1) s t = d.getMaxFlow ty s t) :=
  ⟨rfl, rfl, rfl, rfl, fun h => flow_enough ty h (Nat.le_succ _)⟩

/-- C93: once a limit is enough for a run to return or panic, every higher limit gives the same. -/
theorem C93_monotone {S F : Type} (M : MapMonoidOps S F) (ty : IntTy) (g : List (List Nat)) (root s t : Nat)
    (d : Dinic) (p : AugmentedPath) {k k' : Nat} (hk : k ≤ k') :
    (sccDepth k g ≠ .diverge → sccDepth k' g = sccDepth k g) ∧
    (BinaryLifting.fromDepth k g root ≠ .diverge → BinaryLifting.fromDepth k' g root = BinaryLifting.fromDepth k g root) ∧
    (HLD.newDepth k M g root ≠ .diverge → HLD.newDepth k' M g root = HLD.newDepth k M g root) ∧
    (p.solveDepth k ≠ .diverge → p.solveDepth k' = p.solveDepth k) ∧
    (d.getMaxFlowDepth ty k s t ≠ .diverge → d.getMaxFlowDepth ty k' s t = d.getMaxFlowDepth ty k s t) :=
  ⟨(dp_mono (scc_dp · g) hk).eq, (dp_mono (lift_dp · g root) hk).eq, (dp_mono (hld_dp M · g root) hk).eq,
    (dp_mono (solve_dp · p) hk).eq, (dp_mono (flow_dp ty · d s t) hk).eq⟩

/-- C93: `scc` nests at most as many calls as there are vertices, on every graph. -/
theorem C93_scc {g : List (List Nat)} {k : Nat} (hk : g.length ≤ k) : sccDepth k g = scc g ∧ scc g ≠ .diverge := by
  have h := scc_enough (Nat.le_refl g.length)
  have e := (dp_mono (scc_dp · g) hk).eq h
  have e' := (dp_mono (scc_dp · g) (Nat.le_succ g.length)).eq h
  have hs : scc g = sccDepth g.length g := e'
  rw [hs]
  exact ⟨e, h⟩

/-- C93: and on a directed path as many as that. -/
theorem C93_scc_path {n : Nat} (hn : n < 2 ^ 31) : NeedsDepth (fun k => sccDepth k (pathGraph n)) n :=
  needs_of (scc_dp · _) (scc_enough (by simp [pathGraph])) fun j hj => scc_path hn (by omega)

/-- C93: there always is a longest path from the root, and it has at most as many vertices as the graph. -/
theorem C93_longest {g : List (List Nat)} {root : Nat} (S : IsSimpleGraph g) (hr : root < g.length) :
    ∃ k, LongestFrom g root k ∧ k ≤ g.length :=
  (exists_longest S hr).imp fun _ h => ⟨h, longest_le S hr h⟩

/-- C93: the search of binary lifting nests exactly as many calls as there are vertices on the longest path from the
root, if the component of the root has no cycle. -/
theorem C93_lifting {g : List (List Nat)} {root : Nat} (S : IsSimpleGraph g) (hr : root < g.length)
    (hno : ¬ HasCycleAt g root) (hn : g.length < 2 ^ 64) {k : Nat} (h : LongestFrom g root k) :
    NeedsDepth (fun j => BinaryLifting.fromDepth j g root) k ∧
      BinaryLifting.fromDepth k g root = BinaryLifting.from g root :=
  ⟨(lift_needs S hr hno hn h).1, (lift_needs S hr hno hn h).2 k (Nat.le_refl _)⟩

/-- C93: and so do the two searches of heavy-light decomposition. -/
theorem C93_hld {S F : Type} [Monoid S] {M : MapOps S F} (hM : LawfulMap M) {g : List (List Nat)} {root : Nat}
    (G : IsSimpleGraph g) (hr : root < g.length) (hno : ¬ HasCycleAt g root) (hn : g.length < 2 ^ 32) {k : Nat}
    (h : LongestFrom g root k) :
    NeedsDepth (fun j => HLD.newDepth j M.ops g root) k ∧ HLD.newDepth k M.ops g root = HLD.new M.ops g root :=
  ⟨(hld_needs hM G hr hno hn h).1, (hld_needs hM G hr hno hn h).2 k (Nat.le_refl _)⟩

/-- C93: in a tree both hold, and the number is at most that of the vertices. -/
theorem C93_tree {S F : Type} [Monoid S] {M : MapOps S F} (hM : LawfulMap M) {g : List (List Nat)} {root : Nat}
    (T : IsTree g) (hr : root < g.length) (hn : g.length < 2 ^ 32) {k : Nat} (h : LongestFrom g root k) :
    k ≤ g.length ∧ NeedsDepth (fun j => BinaryLifting.fromDepth j g root) k ∧
      NeedsDepth (fun j => HLD.newDepth j M.ops g root) k := by
  have hno : ¬ HasCycleAt g root := fun ⟨c, _, hc, _⟩ => acyclic_of_tree T c hc
  have G := simple_of_tree T
  exact ⟨longest_le G hr h, (lift_needs G hr hno (by omega) h).1, (hld_needs hM G hr hno hn h).1⟩

/-- C93: `solve` nests at most one call more than there are left vertices, for every structure whose mark vector is as
long as the left side. -/
theorem C93_matching {t : AugmentedPath} (ht : t.vis.length = t.l.length) {k : Nat} (hk : t.l.length < k) :
    t.solveDepth k = t.solve := solve_enough ht hk

/-- C93: every structure made by the public functions has such a mark vector. -/
theorem C93_matching_kept (n m : Nat) (t t' : AugmentedPath) (u v x : Nat) :
    (AugmentedPath.new n m).vis.length = (AugmentedPath.new n m).l.length ∧
    (t.addEdge u v = ok t' → t.vis.length = t.l.length → t'.vis.length = t'.l.length) ∧
    (t.solve = ok (t', x) → t.vis.length = t.l.length → t'.vis.length = t'.l.length) := by
  refine ⟨by simp [AugmentedPath.new], fun e h => ?_, fun e h => solve_post h _ e⟩
  obtain ⟨_, -, e⟩ := bind_ok_inv e
  obtain ⟨_, -, e⟩ := bind_ok_inv e
  cases e
  exact h

/-- C93: and on a chain it does nest that many. -/
theorem C93_matching_chain {n : Nat} (hn : 2 ≤ n) :
    ∃ t, chainGraph n = ok t ∧ t.l.length = n ∧ NeedsDepth (fun k => t.solveDepth k) (n + 1) := by
  have h1 := chainGraph_sat hn
  have h2 : Sat (chainGraph n) fun t => ∃ E, MatchInv n (n - 1) E t := by
    unfold chainGraph
    rw [sat_bind]
    refine (forRange_sat (fun _ t => ∃ E, MatchInv n (n - 1) E t) (Nat.zero_le _) ⟨_, matchInv_new n (n - 1)⟩ ?_).mono ?_
    · rintro i t - hi ⟨E, h⟩
      rw [sat_bind]
      refine (addEdge_sat h (by omega)).mono fun t' h' => ?_
      split
      · exact (addEdge_sat h' (by omega)).mono fun t' h' => ⟨_, h'⟩
      · exact (sat_ok _ _).2 ⟨_, h'⟩
    · rintro t ⟨E, h⟩
      exact (addEdge_sat h (by omega)).mono fun t' h' => ⟨_, h'⟩
  obtain ⟨t, e, hG, E, hI⟩ := h1.and h2
  have hl : t.l.length = n := by simp [hG.l]
  have hv : t.vis.length = t.l.length := by simp [hG.vis, hG.l]
  refine ⟨t, e, hl, needs_of (solve_dp · t) ?_ ?_⟩
  · rw [solve_enough hv (by omega)]
    exact satOr_nd' (BipP.solve_satOr hI.sok hI.edges)
  · intro j hj
    obtain rfl : j = n := by omega
    exact solve_chain hn hG

/-- C93: `get_max_flow` nests at most as many calls as there are vertices, for every structure with a level for each
vertex. -/
theorem C93_flow (ty : IntTy) {d : Dinic} (hd : d.h.length = d.n) (s t : Nat) {k : Nat} (hk : d.n ≤ k) :
    d.getMaxFlowDepth ty k s t = d.getMaxFlow ty s t := flow_enough ty hd hk

/-- C93: every structure made by the public functions has a level for each vertex. -/
theorem C93_flow_kept (ty : IntTy) (n : Nat) (d d' : Dinic) (u v s t : Nat) (c x : Int) :
    (Dinic.new n).h.length = (Dinic.new n).n ∧
    (d.addEdge u v c = ok d' → d.h.length = d.n → d'.h.length = d'.n) ∧
    (d.getMaxFlow ty s t = ok (d', x) → d.h.length = d.n → d'.h.length = d'.n) := by
  refine ⟨by simp [Dinic.new], fun e h => ?_, fun e h => flow_post ty h _ e⟩
  obtain ⟨_, -, e⟩ := bind_ok_inv e
  obtain ⟨_, -, e⟩ := bind_ok_inv e
  obtain ⟨_, -, e⟩ := bind_ok_inv e
  obtain ⟨_, -, e⟩ := bind_ok_inv e
  cases e
  exact h

/-- C93: and on a path network it does nest that many. -/
theorem C93_flow_path (ty : IntTy) (hmx : 0 < ty.mx) {n : Nat} (h2 : 2 ≤ n) (hn : n < 2 ^ 31) :
    ∃ d, pathNetwork n = ok d ∧ d.n = n ∧ NeedsDepth (fun k => d.getMaxFlowDepth ty k 0 (n - 1)) n := by
  have h1 := pathNetwork_sat (n := n) (by omega)
  have h3 : Sat (pathNetwork n) fun d => ∃ N, FlowRep ty n N d := by
    unfold pathNetwork
    refine forRange_sat (fun _ d => ∃ N, FlowRep ty n N d) (Nat.zero_le _) ⟨_, flowRep_new ty n⟩ ?_
    rintro i d - hi ⟨N, h⟩
    exact (flowAdd_sat h (by omega) (by omega) (by omega) (by omega)).mono fun d' h' => ⟨_, h'⟩
  obtain ⟨d, e, hP, N, hF⟩ := h1.and h3
  have hdn : d.n = n := hP.dn
  refine ⟨d, e, hdn, needs_of (flow_dp ty · d 0 (n - 1)) ?_ fun j hj => flow_path ty hn h2 (by omega) hP⟩
  rw [flow_enough ty (by rw [hP.h]; simp [hdn]) (by omega)]
  exact satOr_nd' (DinicP.loop_sat' hF.st hF.cap hF.fits hmx (by omega) (by omega) (by omega))

/-! Concrete cases. -/

/-- From 0 the longest path of the tree has four vertices: 0, 1, 3, 4. -/
example : LongestFrom treeExample 0 4 ∧ IsSimpleGraph treeExample ∧ ¬ HasCycleAt treeExample 0 ∧ LawfulMap shiftOps := by
  have G := simple_of_tree treeExample_isTree
  have hno : ¬ HasCycleAt treeExample 0 := fun ⟨c, _, hc, _⟩ => acyclic_of_tree treeExample_isTree c hc
  obtain ⟨k, h, -⟩ := C93_longest G (root := 0) (by decide)
  have hk := (C93_lifting G (by decide) hno (by decide) h).1
  have h4 : k ≤ 4 := by
    refine Nat.le_of_not_lt fun hlt => ?_
    have e : BinaryLifting.fromDepth 4 treeExample 0 = .diverge := hk.2 4 hlt
    revert e
    decide +kernel
  have h3 : 3 < k := by
    have : IsPath treeExample 0 4 [0, 1, 3, 4] := ⟨rfl, rfl, by decide, by decide⟩
    exact h.2 _ _ this
  obtain rfl : k = 4 := by omega
  exact ⟨h, G, hno, shiftOps_lawful⟩

example : BinaryLifting.fromDepth 3 treeExample 0 = .diverge ∧
    BinaryLifting.fromDepth 4 treeExample 0 = BinaryLifting.from treeExample 0 := by decide +kernel

example : pathGraph 4 = [[1], [2], [3], []] ∧ sccDepth 3 (pathGraph 4) = .diverge ∧
    sccDepth 4 (pathGraph 4) = ok (4, [3, 2, 1, 0]) := by decide +kernel

example : (chainGraph 4 >>= fun t => ok (t.g, t.vis.length, t.l.length)) = ok ([[0, 1], [1, 2], [2], [0]], 4, 4) := by
  decide +kernel
example : (chainGraph 4 >>= fun t => t.solveDepth 4) = .diverge := by decide +kernel
example : (chainGraph 4 >>= fun t => t.solveDepth 5 >>= fun o => ok o.2) = ok 3 := by decide +kernel

example : (pathNetwork 4 >>= fun d => ok (d.h.length, d.n)) = ok (4, 4) := by decide +kernel
example : (pathNetwork 4 >>= fun d => d.getMaxFlowDepth ⟨true, 64⟩ 3 0 3) = .diverge := by decide +kernel
example : (pathNetwork 4 >>= fun d => d.getMaxFlowDepth ⟨true, 64⟩ 4 0 3 >>= fun o => ok o.2) = ok 1 := by decide +kernel

end Verif.Props
