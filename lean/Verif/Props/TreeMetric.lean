import Verif.Proof.TreeMetric
import Verif.Props.BinaryLifting
/-! C101: the distances and lowest common ancestors computed by binary lifting, as a metric and for other roots. -/
namespace Verif.Props
open Res Model Spec TreeP BLP

variable {g : List (List Nat)}

/-- Everything below is about one function `D` of two vertices: the one that `dis` computes, for every root. -/
theorem C101_root_free (T : IsTree g) (hn : g.length < 2 ^ 63) :
    ∃ D : Nat → Nat → Nat, (∀ root < g.length, ∃ t, BinaryLifting.from g root = .ok t ∧
        ∀ u < g.length, ∀ v < g.length, t.dis u v = .ok (D u v)) ∧
      ∀ u < g.length, ∀ v < g.length, IsTreeDist g u v (D u v) := by
  have hDe : ∀ u v, ∃ d, u < g.length → v < g.length → IsTreeDist g u v d := by
    intro u v
    by_cases hu : u < g.length
    · by_cases hv : v < g.length
      · obtain ⟨d, hd⟩ := dist_exists T hu hv
        exact ⟨d, fun _ _ => hd⟩
      · exact ⟨0, fun _ h => absurd h hv⟩
    · exact ⟨0, fun h => absurd h hu⟩
  choose D hD using hDe
  refine ⟨D, fun root hr => ?_, fun u hu v hv => hD u v hu hv⟩
  obtain ⟨t, h1, h2⟩ := C17_dis T hr hn
  refine ⟨t, h1, fun u hu v hv => ?_⟩
  obtain ⟨d, h3, h4⟩ := h2 u v hu hv
  rw [h3, dist_unique h4 (hD u v hu hv)]

/-- C101: `dis` is a metric that satisfies the four point condition; distance one is adjacency; and the distances add
up exactly at the vertices of the path. The answers do not depend on the root. -/
theorem C101_metric (T : IsTree g) (hn : g.length < 2 ^ 63) :
    ∃ D : Nat → Nat → Nat, (∀ root < g.length, ∃ t, BinaryLifting.from g root = .ok t ∧
        ∀ u < g.length, ∀ v < g.length, t.dis u v = .ok (D u v)) ∧
      (∀ u < g.length, ∀ v < g.length, (D u v = 0 ↔ u = v) ∧ (D u v = 1 ↔ v ∈ g.getD u []) ∧ D u v = D v u ∧
        ∀ w < g.length, D u w ≤ D u v + D v w ∧ (D u v + D v w = D u w ↔ ∃ p, IsPath g u w p ∧ v ∈ p) ∧
          ∀ x < g.length, D u v + D w x ≤ max (D u w + D v x) (D u x + D v w)) := by
  obtain ⟨D, h1, h2⟩ := C101_root_free T hn
  have M := treeMetric T hn h2
  refine ⟨D, h1, fun u hu v hv => ⟨M.zero u hu v hv, dist_one T (h2 u hu v hv), M.symm u hu v hv, fun w hw =>
    ⟨M.tri u hu v hv w hw, ?_, M.four u hu v hv w hw⟩⟩⟩
  exact between_iff T hn hu hv hw (h2 u hu v hv) (h2 v hv w hw) (h2 u hu w hw)

/-- C101: the two sweeps. If `a` is farthest from any vertex `x` and `b` is farthest from `a`, no two vertices are
farther apart than `a` and `b`, and the vertex farthest from any `y` is one of the two. -/
theorem C101_diameter (T : IsTree g) (hn : g.length < 2 ^ 63) {root : Nat} (hr : root < g.length) :
    ∃ t, ∃ D : Nat → Nat → Nat, BinaryLifting.from g root = .ok t ∧
      (∀ u < g.length, ∀ v < g.length, t.dis u v = .ok (D u v)) ∧
      ∀ x < g.length, ∀ a < g.length, ∀ b < g.length, (∀ y < g.length, D x y ≤ D x a) → (∀ y < g.length, D a y ≤ D a b) →
        (∀ u < g.length, ∀ v < g.length, D u v ≤ D a b) ∧
        ∀ y < g.length, ∀ z < g.length, D y z ≤ max (D y a) (D y b) := by
  obtain ⟨D, h1, h2⟩ := C101_root_free T hn
  obtain ⟨t, h3, h4⟩ := h1 root hr
  have M := treeMetric T hn h2
  refine ⟨t, D, h3, h4, fun x hx a ha b hb q1 q2 => ?_⟩
  have h5 := M.diameter hx ha q1 q2
  exact ⟨h5, M.ecc ha hb h5⟩

/-- C101: another root. Of the three answers of `lca` for the pairs of `u`, `v`, `r` two agree, and the exclusive or
of all three is the lowest common ancestor of `u` and `v` in the tree rooted at `r`; it is what `lca` answers there. -/
theorem C101_reroot (T : IsTree g) (hn : g.length < 2 ^ 63) {root r : Nat} (hr : root < g.length) (hR : r < g.length) :
    ∃ t t', BinaryLifting.from g root = .ok t ∧ BinaryLifting.from g r = .ok t' ∧
      ∀ u < g.length, ∀ v < g.length, ∃ a b c, t.lca u v = .ok a ∧ t.lca u r = .ok b ∧ t.lca v r = .ok c ∧
        (a = b ∨ a = c ∨ b = c) ∧ t'.lca u v = .ok (a ^^^ b ^^^ c) ∧ IsLca g r u v (a ^^^ b ^^^ c) := by
  obtain ⟨t, h1, h2⟩ := C17_lca T hr (by omega)
  obtain ⟨t', h3, h4⟩ := C17_lca T hR (by omega)
  refine ⟨t, t', h1, h3, fun u hu v hv => ?_⟩
  obtain ⟨a, ea, ha⟩ := h2 u v hu hv
  obtain ⟨b, eb, hb⟩ := h2 u r hu hR
  obtain ⟨c, ec, hc⟩ := h2 v r hv hR
  obtain ⟨l, el, hl⟩ := h4 u v hu hv
  have key : (a = b ∨ a = c ∨ b = c) ∧ IsLca g r u v (a ^^^ b ^^^ c) := by
    rcases reroot T hn hr ha hb hc with ⟨rfl, h⟩ | ⟨rfl, h⟩ | ⟨rfl, h⟩
    · exact ⟨.inr (.inr rfl), by rwa [Nat.xor_assoc, Nat.xor_self, Nat.xor_zero]⟩
    · exact ⟨.inr (.inl rfl), by rwa [Nat.xor_comm a b, Nat.xor_assoc, Nat.xor_self, Nat.xor_zero]⟩
    · exact ⟨.inl rfl, by rwa [Nat.xor_self, Nat.zero_xor]⟩
  exact ⟨a, b, c, ea, eb, ec, key.1, by rw [el, C17_lca_unique T hR hl key.2], key.2⟩

example : IsTree treeExample ∧ treeExample.length < 2 ^ 63 ∧ 0 < treeExample.length ∧ 4 < treeExample.length :=
  ⟨treeExample_isTree, by decide, by decide, by decide⟩

/-- The two sweeps on the example: 5 is farthest from 2, and 2 from 5. -/
example : (do let t ← BinaryLifting.from treeExample 0; t.dis 2 5) = .ok 4 ∧
    (do let t ← BinaryLifting.from treeExample 3; t.dis 5 2) = .ok 4 ∧
    (do let t ← BinaryLifting.from treeExample 3; t.dis 4 5) = .ok 2 := by decide +kernel

/-- The lowest common ancestor of 2 and 5 is 0, and 3 for the root 4. -/
example : (do let t ← BinaryLifting.from treeExample 0
              let a ← t.lca 2 5
              let b ← t.lca 2 4
              let c ← t.lca 5 4
              ok (a, b, c)) = .ok (0, 0, 3) ∧
    (do let t ← BinaryLifting.from treeExample 4; t.lca 2 5) = .ok (0 ^^^ 0 ^^^ 3) := by decide +kernel

end Verif.Props
