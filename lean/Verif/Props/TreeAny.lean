import Verif.Proof.BLAny
import Verif.Proof.TreeCheck
/-! C79: binary lifting on graphs that need not be trees (`Verif/Spec/TreeAny.lean`). -/
namespace Verif.Props
open Res Model Spec TreeP BLP

variable {g : List (List Nat)} {root : Nat}

/-- C79, any adjacency lists (directed, with self-loops, parallel edges or entries out of range): if the walks
from the root that never turn straight back are bounded, the recursion ends; if they are not, then no depth
of recursion is enough for the search to return, whatever the state it starts in. -/
theorem C79_recursion (g : List (List Nat)) (root : Nat) :
    ((∃ k, ¬ NoReturnWalk g k root root) → BinaryLifting.from g root ≠ .diverge) ∧
    ((∀ k, NoReturnWalk g k root root) → (∀ t, BinaryLifting.from g root ≠ .ok t) ∧
      ∀ fuel t timer r, BinaryLifting.dfs fuel g root root t timer ≠ .ok r) := by
  constructor
  · rintro ⟨k, hk⟩
    unfold BinaryLifting.from
    refine nd_bind ?_ fun _ => nd_bind nd_addU fun _ => nd_bind (dfs_nd fun h => hk ?_) fun _ => nd_ok
    · by_cases h0 : g.length = 0
      · rw [h0]; decide
      · by_cases h1 : g.length < 2 ^ 64
        · rw [lg_eq h0 h1]; exact nd_ok
        · unfold lg; exact nd_subU
    · exact nrw_unbounded (by omega) h k
  · intro h
    refine ⟨?_, fun fuel t timer r hr => dfs_ok_bounded hr (h fuel)⟩
    intro t ht
    unfold BinaryLifting.from at ht
    obtain ⟨_, -, ht⟩ := bind_ok_inv ht
    obtain ⟨_, -, ht⟩ := bind_ok_inv ht
    obtain ⟨_, hd, -⟩ := bind_ok_inv ht
    exact dfs_ok_bounded hd (h _)

/-- C79: on an undirected graph without self-loops and parallel edges, `from` returns exactly when no cycle is
connected to the root. -/
theorem C79_returns_iff (S : IsSimpleGraph g) (hr : root < g.length) (hn : g.length < 2 ^ 64) :
    (∃ t, BinaryLifting.from g root = .ok t) ↔ ¬ HasCycleAt g root := by
  constructor
  · rintro ⟨t, ht⟩ hc
    exact ((C79_recursion g root).2 ((nrw_component S hr).1 hc)).1 t ht
  · intro hno
    obtain ⟨V, -, t, ht, -⟩ := from_component S hr hno hn
    exact ⟨t, ht⟩

/-- C79: if it returns, `is_ancestor`, `lca` and `dis` are right for all vertices connected to the root: the
other components do not matter. -/
theorem C79_component (S : IsSimpleGraph g) (hr : root < g.length) (hno : ¬ HasCycleAt g root)
    (hn : g.length < 2 ^ 63) :
    ∃ t, BinaryLifting.from g root = .ok t ∧ ∀ u v, Connected g root u → Connected g root v →
      (∃ b, t.isAncestor u v = .ok b ∧ (b = true ↔ Ancestor g root u v)) ∧
      (∃ l, t.lca u v = .ok l ∧ IsLca g root u v l) ∧
      (∃ d, t.dis u v = .ok d ∧ IsTreeDist g u v d) := by
  obtain ⟨V, hV, t, ht, h⟩ := from_component S hr hno (by omega)
  have T := gplus_tree S hr hno
  have hl : (gplus g root).length = g.length := gplus_length
  have hroot : root < (gplus g root).length := by omega
  refine ⟨t, ht, fun u v hu hv => ⟨?_, ?_, ?_⟩⟩
  · obtain ⟨b, h1, h2⟩ := isAncestor_sat T hroot h ((hV u).2 hu) ((hV v).2 hv)
    exact ⟨b, h1, h2.trans (gplus_anc S hr hno hv)⟩
  · obtain ⟨l, h1, h2, h3, h4, h5⟩ := lca_satOn T hroot h ((hV u).2 hu) ((hV v).2 hv)
    rw [gplus_anc S hr hno hu] at h3
    rw [gplus_anc S hr hno hv] at h4
    refine ⟨l, h1, h3, h4, fun x hx hx' => ?_⟩
    rw [← gplus_anc S hr hno ((hV l).1 h2)]
    exact h5 x ((gplus_anc S hr hno hu).2 hx) ((gplus_anc S hr hno hv).2 hx')
  · obtain ⟨d, h1, ⟨w, h2, h3⟩, h4⟩ := dis_sat T hroot h (by omega) ((hV u).2 hu) ((hV v).2 hv)
    have hmin : ∀ w, IsWalk g u v w → d + 1 ≤ w.length := by
      intro w hw
      obtain ⟨a1, a2, a3⟩ := hw
      obtain ⟨l, rfl⟩ := List.head?_eq_some_iff.1 a1
      exact h4 _ ⟨rfl, a2, gplus_chain S hr hu a3⟩
    refine ⟨d, h1, ?_, hmin⟩
    obtain ⟨w', hw'⟩ := conn_trans (conn_symm S.symm hu) hv
    obtain ⟨q, hq, -⟩ := walk_to_path hw'
    obtain ⟨p, hp, hpl⟩ := walk_to_path h2
    have e := hp.eq T ((gplus_path S hr hno hu hv).2 hq) (by rw [hl]; exact conn_lt S.inRange hr hu)
    have hqw : IsWalk g u v q := ⟨hq.head, hq.last, hq.chain⟩
    have := hmin q hqw
    refine ⟨q, hqw, ?_⟩
    rw [e] at hpl
    omega

/-- C79: a vertex that is not connected to the root is nevertheless reported to lie below the root, and never
to lie above a vertex connected to the root. -/
theorem C79_outside (S : IsSimpleGraph g) (hr : root < g.length) (hno : ¬ HasCycleAt g root)
    (hn : g.length < 2 ^ 64) :
    ∃ t, BinaryLifting.from g root = .ok t ∧ ∀ x, x < g.length → ¬ Connected g root x →
      t.isAncestor root x = .ok true ∧ t.isAncestor x x = .ok false ∧
      ∀ u, Connected g root u → t.isAncestor x u = .ok false := by
  obtain ⟨V, hV, t, ht, h⟩ := from_component S hr hno hn
  have hl : (gplus g root).length = g.length := gplus_length
  have T := gplus_tree S hr hno
  have hroot : root < (gplus g root).length := by omega
  refine ⟨t, ht, fun x hx hxc => ?_⟩
  obtain ⟨f1, f2, -⟩ := h.frame x (by omega) fun h => hxc ((hV x).1 h)
  have hvr := (hV root).2 (conn_refl _)
  have key : ∀ u c, t.tin[u]? = some c → t.isAncestor x u = .ok false := by
    intro u c hc
    unfold BinaryLifting.isAncestor
    rw [idx_of_some hc, idx_of_some f1, idx_of_some f2]
    simp [ok_bind]
  refine ⟨?_, key x 0 f1, fun u hu => ?_⟩
  · obtain ⟨a, b, c, h1, h2, h3, h4⟩ := h.anc root root hvr hvr
    have h5 := h4.2 (anc_refl T hroot hroot)
    rw [h1] at h3; cases h3
    -- the root is entered at time zero
    rw [h.rootTin] at h1
    cases h1
    unfold BinaryLifting.isAncestor
    rw [idx_of_some f1, idx_of_some h.rootTin, idx_of_some h2]
    simp [ok_bind]; omega
  · obtain ⟨a, b, c, h1, h2, h3, h4⟩ := h.anc u u ((hV u).2 hu) ((hV u).2 hu)
    exact key u a h1

/-- C79: trees are the connected graphs without cycles, so C16 and C17 apply exactly to those. -/
theorem C79_tree_iff : IsTree g ↔ IsSimpleGraph g ∧ (∀ u v, u < g.length → v < g.length → Connected g u v) ∧
    ∀ c, ¬ IsCycle g c := by
  constructor
  · intro T
    refine ⟨simple_of_tree T, fun u v hu hv => ?_, acyclic_of_tree T⟩
    obtain ⟨p, hp, -⟩ := T.path u v hu hv
    exact ⟨p, hp.head, hp.last, hp.chain⟩
  · rintro ⟨S, h1, h2⟩
    exact isTree_of_acyclic S h1 h2

/-- A triangle hanging on the root 0 by the edge 0–1, and a separate edge 4–5. -/
def graphExample : List (List Nat) := [[1], [0, 2, 3], [1, 3], [1, 2], [5], [4]]

theorem graphExample_simple : IsSimpleGraph graphExample := by
  have hlt : ∀ u v, v ∈ graphExample.getD u [] → u < 6 := by
    intro u v hv
    by_contra hu
    rw [List.getD_eq_getElem?_getD, List.getElem?_eq_none (by simp [graphExample]; omega)] at hv
    simp at hv
  have h : ∀ u < 6, (∀ v ∈ graphExample.getD u [], v < 6 ∧ u ∈ graphExample.getD v []) ∧
      u ∉ graphExample.getD u [] ∧ (graphExample.getD u []).Nodup := by decide
  refine ⟨fun u v hv => ((h u (hlt u v hv)).1 v hv).1, fun u v hv => ((h u (hlt u v hv)).1 v hv).2,
    fun u hu => (h u (hlt u u hu)).2.1 hu, fun u => ?_⟩
  by_cases hu : u < 6
  · exact (h u hu).2.2
  · rw [List.getD_eq_getElem?_getD, List.getElem?_eq_none (by simp [graphExample]; omega)]; simp

example : BinaryLifting.from graphExample 0 = .diverge := by decide +kernel
example : HasCycleAt graphExample 0 :=
  ⟨[1, 2, 3], 1, ⟨by decide, by decide, by decide, by rintro _ _ ⟨⟩ ⟨⟩; decide⟩, by decide, [0, 1], by decide, by decide, by decide⟩
/-- From 4 the search returns: its component is the edge 4–5. -/
example : ((BinaryLifting.from graphExample 4) >>= fun t => t.dis 4 5) = .ok 1 := by decide +kernel
example : ((BinaryLifting.from graphExample 4) >>= fun t => t.isAncestor 4 2) = .ok true := by decide +kernel
/-- One self-loop away from the root does not prevent the search from returning, though it goes through the
tree twice. -/
example : ((BinaryLifting.from [[1], [0, 1]] 0) >>= fun t => ok (t.tin, t.tout)) = .ok ([3, 2], [4, 4]) := by
  decide +kernel

end Verif.Props
