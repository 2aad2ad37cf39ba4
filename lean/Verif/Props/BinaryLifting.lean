import Verif.Proof.BinaryLifting
import Verif.Proof.TreeCheck
/-! C16, C17: binary lifting on trees (`Verif/Spec/Tree.lean`). -/
namespace Verif.Props
open Res Model Spec TreeP BLP

variable {g : List (List Nat)} {root : Nat}

/-- C16: for the adjacency list of any tree and any root, `from` returns, and `is_ancestor(u, v)`
is true exactly when `u` lies on the path from the root to `v`. -/
theorem C16_is_ancestor (T : IsTree g) (hr : root < g.length) (hn : g.length < 2 ^ 64) :
    ∃ t, BinaryLifting.from g root = .ok t ∧ ∀ u v, u < g.length → v < g.length →
      ∃ b, t.isAncestor u v = .ok b ∧ (b = true ↔ Ancestor g root u v) := by
  obtain ⟨t, h1, h2⟩ := from_sat T hr hn
  exact ⟨t, h1, fun u v hu hv => isAncestor_sat T hr h2 hu hv⟩

/-- C17: `lca(u, v)` is the lowest common ancestor. -/
theorem C17_lca (T : IsTree g) (hr : root < g.length) (hn : g.length < 2 ^ 64) :
    ∃ t, BinaryLifting.from g root = .ok t ∧ ∀ u v, u < g.length → v < g.length →
      ∃ l, t.lca u v = .ok l ∧ IsLca g root u v l := by
  obtain ⟨t, h1, h2⟩ := from_sat T hr hn
  exact ⟨t, h1, fun u v hu hv => lca_sat T hr h2 hu hv⟩

/-- C17: the lowest common ancestor is unique, so `lca` is completely determined. -/
theorem C17_lca_unique (T : IsTree g) (hr : root < g.length) {u v l l' : Nat}
    (h : IsLca g root u v l) (h' : IsLca g root u v l') : l = l' := by
  have hl := (anc_lt T hr h.1).1
  have hl' := (anc_lt T hr h'.1).1
  have h1 := (anc_iff T hr hl hl').1 (h'.2.2 l h.1 h.2.1)
  have h2 := (anc_iff T hr hl' hl).1 (h.2.2 l' h'.1 h'.2.1)
  exact rpath_inj T hr hl hl' (h1.eq_of_length (Nat.le_antisymm h1.length_le h2.length_le))

/-- C17: `dis(u, v)` is the number of edges of a shortest walk (`Vec` lengths are below `2^63`). -/
theorem C17_dis (T : IsTree g) (hr : root < g.length) (hn : g.length < 2 ^ 63) :
    ∃ t, BinaryLifting.from g root = .ok t ∧ ∀ u v, u < g.length → v < g.length →
      ∃ d, t.dis u v = .ok d ∧ IsTreeDist g u v d := by
  obtain ⟨t, h1, h2⟩ := from_sat T hr (by omega)
  exact ⟨t, h1, fun u v hu hv => dis_sat T hr h2 hn hu hv⟩

/-- The published tables: `dep[v]` is the number of edges from the root, and `pa[v][i]` for every
level is the ancestor `2^i` edges up (the root when there is none): the vertex at distance
`dep[v] - 2^i` from the root on the root path of `v`. -/
theorem C17_tables (T : IsTree g) (hr : root < g.length) (hn : g.length < 2 ^ 64) :
    ∃ t, BinaryLifting.from g root = .ok t ∧ ∀ v p, IsPath g root v p →
      t.dep[v]? = some (p.length - 1) ∧ ∃ row, t.pa[v]? = some row ∧ row.length = t.level ∧
        ∀ i, i < t.level → ∃ a, row[i]? = some a ∧ p[p.length - 1 - 2 ^ i]? = some a := by
  obtain ⟨t, h1, h2⟩ := from_sat T hr hn
  refine ⟨t, h1, fun v p hp => ?_⟩
  have hv : v < g.length := hp.lt T hr v (List.mem_of_getLast? hp.last)
  have e := rpath_eq T hr hp
  refine ⟨by rw [h2.dep v hv, e], _, h2.pa v hv, by simp [rowOf], ?_⟩
  intro i hi
  obtain ⟨h3, h4⟩ := par_iter T hr hv (2 ^ i)
  refine ⟨(par g root)^[2 ^ i] v, by simp [rowOf, hi], ?_⟩
  obtain ⟨A, hA⟩ := rpath_snoc T hr h3
  have hpos : 0 < p.length := List.length_pos_iff.2 hp.ne_nil
  have hk := Nat.two_pow_pos i
  rw [hA, e] at h4
  have h5 := congrArg List.length h4
  simp only [List.length_append, List.length_singleton, List.length_take] at h5
  have h6 := congrArg (fun l => l[A.length]?) h4
  simp only [List.getElem?_append_right (Nat.le_refl _), Nat.sub_self] at h6
  rw [List.getElem?_take_of_lt (by omega)] at h6
  rw [show p.length - 1 - 2 ^ i = A.length by omega, ← h6]; rfl

/-- A tree with two branches of different depth, rooted at an inner vertex. -/
def treeExample : List (List Nat) := [[1, 2], [0, 3], [0], [1, 4, 5], [3], [3]]

theorem treeExample_isTree : IsTree treeExample := isTree_of_check (by decide +kernel)

example : IsTree treeExample ∧ 1 < treeExample.length ∧ treeExample.length < 2 ^ 63 :=
  ⟨treeExample_isTree, by decide, by decide⟩

example : (do let t ← BinaryLifting.from treeExample 1; t.lca 2 5) = .ok 1 := by decide +kernel
example : (do let t ← BinaryLifting.from treeExample 0; t.lca 4 5) = .ok 3 := by decide +kernel
example : (do let t ← BinaryLifting.from treeExample 0; t.dis 2 5) = .ok 4 := by decide +kernel
example : IsLca treeExample 0 4 5 3 := by
  obtain ⟨t, h1, h2⟩ := C17_lca (root := 0) treeExample_isTree (by decide) (by decide)
  obtain ⟨l, h3, h4⟩ := h2 4 5 (by decide) (by decide)
  have : (do let t ← BinaryLifting.from treeExample 0; t.lca 4 5) = .ok 3 := by decide +kernel
  rw [h1, ok_bind, h3] at this
  cases this
  exact h4

end Verif.Props
