import Verif.Proof.Dijkstra
/-! C15: `dijkstra` computes exact shortest distances. -/
namespace Verif.Props
open Res Model Spec DijkstraP

variable {B : BinaryHeap (Nat ×ₗ Nat)ᵒᵈ} {g : List (List (Nat × Nat))} {s : Nat}

theorem leavesGraph_not (hE : EdgesInRange g) : ¬ LeavesGraph g s := by
  rintro ⟨u, d, v, c, -, he, hv⟩
  exact absurd (hE u v c he) (Nat.not_lt.2 hv)

/-- C15: for every digraph, every source and every correct binary heap, when no distance plus an
outgoing edge weight exceeds `usize::MAX` and no reachable vertex has an edge out of the graph,
`dijkstra` returns after at most (number of edges) + 2 heap pops, with one entry per vertex: `None`
exactly for the unreachable vertices and otherwise `Some` of the least weight over all walks. -/
theorem C15_shortest_paths (hs : s < g.length) (hE : ¬ LeavesGraph g s) (ho : ¬ DistOverflow g s) :
    ∃ dis, dijkstra B g s = .ok dis ∧ dis.length = g.length ∧ ∀ v, v < g.length →
      (dis[v]? = some none ↔ ¬ ∃ d, Walk g s v d) ∧
      ∀ d, dis[v]? = some (some d) ↔ IsDist g s v d := by
  obtain ⟨dis, h1, h2, h3, h4⟩ := (dijkstra_satOr (B := B) hs).sat (by tauto)
  refine ⟨dis, h1, h2, fun v hv => ?_⟩
  rw [getD_some (h2 ▸ hv)]
  cases hd : dis.getD v none with
  | none =>
    have := h3 v hv hd
    refine ⟨⟨fun _ ⟨d, hw⟩ => this d hw, fun _ => rfl⟩, fun d => ⟨fun h => by simp at h, ?_⟩⟩
    intro h; exact absurd h.1 (this d)
  | some d =>
    have hD := (h4 v d hd).1
    refine ⟨⟨fun h => by simp at h, fun h => absurd ⟨d, hD.1⟩ h⟩, fun d' => ⟨?_, ?_⟩⟩
    · intro h
      have : d = d' := by simpa using h
      exact this ▸ hD
    · intro h
      rw [Nat.le_antisymm (hD.2 d' h.1) (h.2 d hD.1)]

/-- C15: the source is at distance `0`. -/
theorem C15_source (hs : s < g.length) (hE : ¬ LeavesGraph g s) (ho : ¬ DistOverflow g s) :
    ∃ dis, dijkstra B g s = .ok dis ∧ dis[s]? = some (some 0) := by
  obtain ⟨dis, h1, -, h3⟩ := C15_shortest_paths (B := B) hs hE ho
  exact ⟨dis, h1, ((h3 s hs).2 0).2 ⟨.nil, fun _ _ => Nat.zero_le _⟩⟩

/-- C15: exactly when the (debug) program panics. (It never runs for ever.) -/
theorem C15_panics_iff :
    dijkstra B g s = .panic ↔ g.length ≤ s ∨ DistOverflow g s ∨ LeavesGraph g s := by
  constructor
  · intro h
    by_contra hc
    simp only [not_or, Nat.not_le] at hc
    obtain ⟨dis, h1, -⟩ := C15_shortest_paths (B := B) hc.1 hc.2.2 hc.2.1
    rw [h1] at h; cases h
  · rcases Nat.lt_or_ge s g.length with hs | hs
    · intro hbad
      refine (dijkstra_satOr (B := B) hs).panic ?_
      rintro dis ⟨h2, h3, h4⟩
      have hlt : ∀ {u e}, e ∈ g.getD u [] → u < g.length := by
        intro u e he
        by_contra hu
        rw [List.getD_eq_getElem?_getD, List.getElem?_eq_none (by omega)] at he
        simp at he
      rcases hbad with h | ⟨u, d, v, c, hd, he, hov⟩ | ⟨u, d, v, c, hd, he, hv⟩
      · omega
      · cases hx : dis.getD u none with
        | none => exact h3 u (hlt he) hx d hd.1
        | some x =>
          obtain ⟨hD, hr⟩ := h4 u x hx
          have h5 := (hr _ he).1
          have := hd.2 x hD.1
          simp only at h5
          omega
      · cases hx : dis.getD u none with
        | none => exact h3 u (hlt he) hx d hd
        | some x =>
          have h5 := ((h4 u x hx).2 _ he).2
          simp only at h5
          omega
    · intro _
      have : upd (List.replicate g.length (none : Option Nat)) s (some 0) = .panic :=
        upd_panic (by simpa using hs)
      simp only [dijkstra, this, panic_bind]

/-- A graph with a zero-weight cycle, parallel edges, a loop and an unreachable vertex. -/
def dijkstraExample : List (List (Nat × Nat)) :=
  [[(1, 7), (1, 4), (2, 1)], [(0, 0), (1, 3)], [(1, 2), (0, 0)], [(0, 1)]]

example : (0 < dijkstraExample.length ∧ EdgesInRange dijkstraExample ∧
    ¬ DistOverflow dijkstraExample 0) := by
  have hE : ∀ u v c, (v, c) ∈ dijkstraExample.getD u [] → v < 4 ∧ c ≤ 7 ∧ (u < 3 → v < 3) := by
    intro u v c h
    rcases u with _ | _ | _ | _ | u <;> simp [dijkstraExample] at h <;> omega
  refine ⟨by decide, fun u v c h => (hE u v c h).1, ?_⟩
  rintro ⟨u, d, v, c, hd, he, ho⟩
  have hc := (hE u v c he).2.1
  have hu : u < 3 := by
    have : ∀ x w, Walk dijkstraExample 0 x w → x < 3 := by
      intro x w h
      induction h with
      | nil => omega
      | snoc _ h ih => exact (hE _ _ _ h).2.2 ih
    exact this u d hd.1
  have h1 : Walk dijkstraExample 0 2 (0 + 1) := .snoc (u := 0) .nil (by decide)
  have h2 : Walk dijkstraExample 0 1 (0 + 1 + 2) := .snoc h1 (by decide)
  have : d ≤ 3 := by
    rcases u with _ | _ | _ | u
    · exact (hd.2 0 .nil).trans (by omega)
    · exact hd.2 3 h2
    · exact (hd.2 1 h1).trans (by omega)
    · omega
  omega

example : dijkstra (listHeap _) dijkstraExample 0 = .ok [some 0, some 3, some 1, none] := by
  decide +kernel

/-- Vertex 2 has an edge out of the graph: harmless from 0, a panic from 2. -/
example : ¬ LeavesGraph [[(1, 1)], [(0, 5)], [(9, 1)]] 0 ∧ LeavesGraph [[(1, 1)], [(0, 5)], [(9, 1)]] 2 := by
  refine ⟨?_, 2, 0, 9, 1, .nil, by decide, by decide⟩
  rintro ⟨u, d, v, c, hd, he, hv⟩
  have : ∀ x w, Walk [[(1, 1)], [(0, 5)], [(9, 1)]] 0 x w → x < 2 := by
    intro x w h
    induction h with
    | nil => omega
    | @snoc u v w c _ h ih => rcases u with _ | _ | u <;> simp at h <;> omega
  have := this u d hd
  rcases u with _ | _ | u <;> simp at he hv <;> omega

example : dijkstra (listHeap _) [[(1, 1)], [(0, 5)], [(9, 1)]] 0 = .ok [some 0, some 1, none] ∧
    dijkstra (listHeap _) [[(1, 1)], [(0, 5)], [(9, 1)]] 2 = .panic := by decide +kernel

example : DistOverflow [[(1, 2 ^ 64 - 1)], [(0, 1)]] 0 := by
  refine ⟨1, 2 ^ 64 - 1, 0, 1, ⟨?_, ?_⟩, by decide, by omega⟩
  · have : Walk [[(1, 2 ^ 64 - 1)], [(0, 1)]] 0 1 (0 + (2 ^ 64 - 1)) := .snoc .nil (by decide)
    simpa using this
  · intro w hw
    cases hw with
    | @snoc u v w c _ he =>
      rcases u with _ | _ | u <;> simp at he
      omega

end Verif.Props
