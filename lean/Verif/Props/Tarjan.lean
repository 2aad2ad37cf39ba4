import Verif.Proof.Tarjan
/-! C21, C22: `scc` finds the strongly connected components, in reverse topological order. -/
namespace Verif.Props
open Model Spec Res TarjanP

/-- **C21 and C22 in one statement.** For every digraph with in-range edges (fewer than `2^31`
vertices), `scc` returns `(cnt, color)` where equal colours mean mutual reachability, the colours used
are exactly `0 .. cnt`, and edges never go to a larger colour. -/
theorem C21_scc (g : List (List Nat)) (hg : ∀ x y, DEdge g x y → y < g.length)
    (hn : g.length < 2 ^ 31) :
    ∃ cnt color, scc g = ok (cnt, color) ∧ color.length = g.length ∧
      (∀ (x y : Nat) (hx : x < color.length) (hy : y < color.length),
        color[x] = color[y] ↔ DReach g x y ∧ DReach g y x) ∧
      (∀ c, c < cnt ↔ c ∈ color) := by
  obtain ⟨⟨cnt, color⟩, e, hlen, C, rfl, hne, hcol, hall, hscc, htopo⟩ := scc_sat hg hn
  simp only at hlen hcol
  refine ⟨C.length, color, e, hlen, ?_, ?_⟩
  · intro x y hx hy
    obtain ⟨i, hi⟩ := hall x (by omega)
    obtain ⟨j, hj⟩ := hall y (by omega)
    have h1 := (hcol i x hi).2
    have h2 := (hcol j y hj).2
    rw [List.getElem?_eq_getElem hx, Option.some.injEq] at h1
    rw [List.getElem?_eq_getElem hy, Option.some.injEq] at h2
    rw [h1, h2, ← hscc i x hi y]
    constructor
    · rintro rfl; exact hj
    · intro h
      have h3 := (hcol i y h).2
      rw [List.getElem?_eq_getElem hy, Option.some.injEq] at h3
      omega
  · intro c
    constructor
    · intro hc
      obtain ⟨x, hx⟩ := List.exists_mem_of_ne_nil _ (hne c hc)
      exact List.mem_of_getElem? (hcol c x hx).2
    · intro hc
      obtain ⟨x, hx, rfl⟩ := List.mem_iff_getElem.1 hc
      obtain ⟨i, hi⟩ := hall x (by omega)
      have h1 := (hcol i x hi).2
      rw [List.getElem?_eq_getElem hx, Option.some.injEq] at h1
      rw [h1]
      exact mem_getD_lt hi

/-- **C21.** Exactly when the call panics: an edge ends outside the graph (reachable or not, since every
vertex is visited), or the `i32` counter overflows. It never runs for ever. -/
theorem C21_panics_iff (g : List (List Nat)) :
    scc g = .panic ↔ DLeaves g ∨ 2 ^ 31 ≤ g.length := by
  refine ⟨fun h => ?_, scc_panic⟩
  by_contra hc
  rw [not_or] at hc
  obtain ⟨cnt, color, e, -⟩ := C21_scc g (fun x y he => Nat.lt_of_not_le fun h => hc.1 ⟨x, y, he, h⟩)
    (Nat.lt_of_not_le hc.2)
  rw [h] at e; cases e

/-- Vertex 1 is isolated except for an edge out of the graph. -/
example : DLeaves [[0], [2]] ∧ scc [[0], [2]] = .panic :=
  ⟨⟨1, 2, ⟨[2], rfl, by simp⟩, by decide⟩, by decide +kernel⟩

/-- **C22.** Components are numbered in reverse topological order: along every path the colour never
increases, and it drops strictly when the path leaves the component. -/
theorem C22_reverse_topological (g : List (List Nat)) (hg : ∀ x y, DEdge g x y → y < g.length)
    (hn : g.length < 2 ^ 31) :
    ∃ cnt color, scc g = ok (cnt, color) ∧ color.length = g.length ∧
      ∀ (x y : Nat) (hx : x < color.length) (hy : y < color.length), DReach g x y →
        color[y] ≤ color[x] ∧ (¬ DReach g y x → color[y] < color[x]) := by
  obtain ⟨⟨cnt, color⟩, e, hlen, C, rfl, hne, hcol, hall, hscc, htopo⟩ := scc_sat hg hn
  simp only at hlen hcol
  refine ⟨C.length, color, e, hlen, ?_⟩
  have key : ∀ x y, x < g.length → DReach g x y → ∀ i, x ∈ C.getD i [] → ∃ j, j ≤ i ∧ y ∈ C.getD j [] := by
    intro x y _ hr i hi
    induction hr with
    | refl => exact ⟨i, Nat.le_refl _, hi⟩
    | tail _ he ih =>
      obtain ⟨j, hj, hm⟩ := ih
      obtain ⟨k, hk, hm'⟩ := htopo j _ _ hm he
      exact ⟨k, by omega, hm'⟩
  intro x y hx hy hr
  obtain ⟨i, hi⟩ := hall x (by omega)
  obtain ⟨j, hj, hm⟩ := key x y (by omega) hr i hi
  have h1 := (hcol i x hi).2
  have h2 := (hcol j y hm).2
  rw [List.getElem?_eq_getElem hx, Option.some.injEq] at h1
  rw [List.getElem?_eq_getElem hy, Option.some.injEq] at h2
  rw [h1, h2]
  refine ⟨hj, fun hn => ?_⟩
  rcases Nat.lt_or_eq_of_le hj with h | rfl
  · exact h
  · exact absurd ((hscc j x hi y).1 hm).2 hn

/-- Every edge goes to the same or a smaller colour. -/
theorem C22_edges (g : List (List Nat)) (hg : ∀ x y, DEdge g x y → y < g.length)
    (hn : g.length < 2 ^ 31) :
    ∃ cnt color, scc g = ok (cnt, color) ∧ color.length = g.length ∧
      ∀ (x y : Nat) (hx : x < color.length) (hy : y < color.length), DEdge g x y →
        color[y] ≤ color[x] := by
  obtain ⟨cnt, color, e, hl, h⟩ := C22_reverse_topological g hg hn
  exact ⟨cnt, color, e, hl, fun x y hx hy he => (h x y hx hy (Relation.ReflTransGen.single he)).1⟩

/-- Two cycles joined by a bridge, a cross edge to a finished component, a self loop and a vertex
reached last: the hypotheses hold and the result is as expected. -/
example : (∀ x y, DEdge [[1], [2, 3], [0, 2], [4], [3], [4, 5, 0]] x y → y < 6) ∧
    scc [[1], [2, 3], [0, 2], [4], [3], [4, 5, 0]] = ok (3, [1, 1, 1, 0, 0, 2]) := by
  refine ⟨?_, by decide +kernel⟩
  rintro x y ⟨a, ha, hy⟩
  have hm := List.mem_of_getElem? ha
  have : ∀ a ∈ [[1], [2, 3], [0, 2], [4], [3], [4, 5, 0]], ∀ y ∈ a, y < 6 := by decide
  exact this a hm y hy

end Verif.Props
