import Verif.Proof.DijkstraRuns
/-! C102: relations between runs of `dijkstra` on one graph and on related graphs (`Verif/Spec/DijkstraRuns.lean`). The
heaps of the runs may be different ones. -/
namespace Verif.Props
open Res Model Spec DijkstraP

variable {B B' B'' : BinaryHeap (Nat ×ₗ Nat)ᵒᵈ} {g h : List (List (Nat × Nat))} {s : Nat} {D E F : List (Option Nat)}

/-- C102: the result raises by at most the weight along every edge and is above every other such function that is zero
at the source; every entry other than the source is attained by some last edge. -/
theorem C102_potential (hD : dijkstra B g s = ok D) :
    D[s]? = some (some 0) ∧
    (∀ u v c d, D[u]? = some (some d) → (v, c) ∈ g.getD u [] → ∃ x, D[v]? = some (some x) ∧ x ≤ d + c) ∧
    (∀ p, Feasible g p → p s = 0 → ∀ v d, D[v]? = some (some d) → p v ≤ d) ∧
    ∀ v d, v ≠ s → D[v]? = some (some d) → ∃ u c x, D[u]? = some (some x) ∧ (v, c) ∈ g.getD u [] ∧ d = x + c := by
  obtain ⟨-, -, -, r⟩ := ret hD
  refine ⟨(r s 0).2 ⟨.nil, fun _ _ => Nat.zero_le _⟩, ?_, ?_, ?_⟩
  · intro u v c d hu he
    obtain ⟨x, hx, hle⟩ := exists_dist (Walk.snoc ((r u d).1 hu).1 he)
    exact ⟨x, (r v x).2 hx, hle⟩
  · intro p hp h0 v d hv
    have := feasible_walk hp ((r v d).1 hv).1
    omega
  · intro v d hne hv
    have hm := (r v d).1 hv
    cases hm.1 with
    | nil => exact absurd rfl hne
    | @snoc u _ w c hw he =>
      obtain ⟨x, hx, hle⟩ := exists_dist hw
      have := hm.2 _ (.snoc hx.1 he)
      have e : x = w := by omega
      subst e
      exact ⟨u, c, x, (r u x).2 hx, he, rfl⟩

/-- C102: the triangle inequality between two runs; equality holds exactly when some lightest walk to `v` passes
through `u`. -/
theorem C102_triangle {u v a b : Nat} (hD : dijkstra B g s = ok D) (hE : dijkstra B' g u = ok E)
    (ha : D[u]? = some (some a)) (hb : E[v]? = some (some b)) :
    ∃ c, D[v]? = some (some c) ∧ c ≤ a + b ∧
      (c = a + b ↔ ∃ x y, Walk g s u x ∧ Walk g u v y ∧ IsDist g s v (x + y)) := by
  obtain ⟨-, -, -, r⟩ := ret hD
  obtain ⟨-, -, -, r'⟩ := ret hE
  have h1 := (r u a).1 ha
  have h2 := (r' v b).1 hb
  obtain ⟨c, hc, hle⟩ := exists_dist (walk_append h1.1 h2.1)
  refine ⟨c, (r v c).2 hc, hle, ?_, ?_⟩
  · rintro rfl
    exact ⟨a, b, h1.1, h2.1, hc⟩
  · rintro ⟨x, y, hx, hy, hd⟩
    have := h1.2 x hx
    have := h2.2 y hy
    have := hc.2 _ hd.1
    have := hd.2 _ hc.1
    omega

/-- C102: with all edges turned round, the distance from `v` to `s` is that from `s` to `v`. -/
theorem C102_reverse {v : Nat} (H : IsReverse g h) (hD : dijkstra B g s = ok D) (hE : dijkstra B' h v = ok E) :
    D[v]? = E[s]? := by
  obtain ⟨hs, -⟩ := ret hD
  obtain ⟨hv, -⟩ := ret hE
  have hl := H.length
  refine entry_eq hD hE (by omega) (by omega) (fun d => least_iff (fun x => ⟨?_, ?_⟩) d)
  · exact walk_reverse fun u v c => (H.edge u v c).1
  · exact walk_reverse fun u v c => (H.edge v u c).2

/-- C102: in a graph that is its own reverse distances are symmetric. -/
theorem C102_symmetric {v : Nat} (H : IsReverse g g) (hD : dijkstra B g s = ok D) (hE : dijkstra B' g v = ok E) :
    D[v]? = E[s]? := C102_reverse H hD hE

/-- C102: with weights reduced by a feasible function `p` every distance changes by `p s - p v`. -/
theorem C102_reduced {p : Nat → Nat} (hp : Feasible g p) (hD : dijkstra B g s = ok D)
    (hE : dijkstra B' (reduced g p) s = ok E) :
    E.length = D.length ∧ ∀ v x, E[v]? = some (some x) ↔ ∃ d, D[v]? = some (some d) ∧ x + p v = d + p s := by
  obtain ⟨-, l, -, r⟩ := ret hD
  obtain ⟨-, l', -, r'⟩ := ret hE
  refine ⟨by rw [l, l']; simp [reduced], fun v x => ?_⟩
  rw [r' v x]
  constructor
  · intro hx
    obtain ⟨d, hd, e⟩ := (walk_reduced hp).1 hx.1
    refine ⟨d, (r v d).2 ⟨hd, fun y hy => ?_⟩, e⟩
    have hf := feasible_walk hp hy
    have := hx.2 (y + p s - p v) ((walk_reduced hp).2 ⟨y, hy, by omega⟩)
    omega
  · rintro ⟨d, hd, e⟩
    have hd := (r v d).1 hd
    refine ⟨(walk_reduced hp).2 ⟨d, hd.1, e⟩, fun y hy => ?_⟩
    obtain ⟨z, hz, e'⟩ := (walk_reduced hp).1 hy
    have := hd.2 z hz
    omega

/-- C102: multiplying all weights by `k` multiplies all distances by `k` (also for `k = 0`). -/
theorem C102_scaled {k : Nat} (hD : dijkstra B g s = ok D) (hE : dijkstra B' (scaled g k) s = ok E) :
    E = D.map (Option.map (k * ·)) := by
  obtain ⟨-, l, -, r⟩ := ret hD
  obtain ⟨-, l', -, r'⟩ := ret hE
  have hl : E.length = D.length := by rw [l, l']; simp [scaled]
  have key : ∀ (v d : Nat), D[v]? = some (some d) → E[v]? = some (some (k * d)) := by
    intro v d hd
    have hd := (r v d).1 hd
    refine (r' v _).2 ⟨walk_scaled.2 ⟨d, hd.1, rfl⟩, fun y hy => ?_⟩
    obtain ⟨z, hz, rfl⟩ := walk_scaled.1 hy
    exact Nat.mul_le_mul_left k (hd.2 z hz)
  refine List.ext_getElem? fun v => ?_
  rw [List.getElem?_map]
  rcases Nat.lt_or_ge v D.length with hv | hv
  · obtain ⟨x, e1⟩ : ∃ x, D[v]? = some x := ⟨D[v], by simp⟩
    obtain ⟨y, e2⟩ : ∃ y, E[v]? = some y := ⟨E[v]'(by omega), by simp⟩
    cases x with
    | some d => rw [key v d e1, e1]; rfl
    | none =>
      cases y with
      | none => rw [e1, e2]; rfl
      | some y =>
        obtain ⟨z, hz, -⟩ := walk_scaled.1 ((r' v y).1 e2).1
        obtain ⟨d, hd, -⟩ := exists_dist hz
        rw [(r v d).2 hd] at e1
        simp at e1
  · rw [List.getElem?_eq_none (by omega), List.getElem?_eq_none (by omega)]; rfl

/-- C102: a run from one more vertex with edges of weight 0 to the vertices `S` gives the least of the distances from
the vertices of `S`. -/
theorem C102_sources {S : List Nat} (hr : EdgesInRange g) {R : Nat → List (Option Nat)}
    (hR : ∀ x ∈ S, dijkstra B g x = ok (R x)) (hE : dijkstra B' (withSource g S) g.length = ok E) :
    ∀ v < g.length, ∀ d, E[v]? = some (some d) ↔ Least (fun y => ∃ x ∈ S, (R x)[v]? = some (some y)) d := by
  obtain ⟨-, -, -, r'⟩ := ret hE
  intro v hv d
  rw [r' v d]
  have hS : ∀ x ∈ S, x < g.length := fun x hx => (ret (hR x hx)).1
  refine least_congr (fun y hy => ?_) (fun y hy => ?_) d
  · obtain ⟨x, hx, hw⟩ := (walk_withSource hr hv hS).1 hy
    obtain ⟨d, hd, hle⟩ := exists_dist hw
    exact ⟨d, hle, x, hx, ((ret (hR x hx)).2.2.2 v d).2 hd⟩
  · obtain ⟨x, hx, hw⟩ := hy
    exact ⟨y, Nat.le_refl _, (walk_withSource hr hv hS).2 ⟨x, hx, (((ret (hR x hx)).2.2.2 v y).1 hw).1⟩⟩

/-- C102: after an edge from `a` to `b` of weight `c` is added, every distance is the least of the old one and the one
over the new edge. -/
theorem C102_add_edge {a b c : Nat} (H : IsAddEdge g h a b c) (hD : dijkstra B g s = ok D)
    (hF : dijkstra B' g b = ok F) (hE : dijkstra B'' h s = ok E) :
    ∀ v d : Nat, E[v]? = some (some d) ↔ Least (fun x => D[v]? = some (some x) ∨
      ∃ y z, D[a]? = some (some y) ∧ F[v]? = some (some z) ∧ x = y + c + z) d := by
  obtain ⟨-, -, -, r⟩ := ret hD
  obtain ⟨-, -, -, rF⟩ := ret hF
  obtain ⟨-, -, -, r'⟩ := ret hE
  have mono : ∀ {t v w}, Walk g t v w → Walk h t v w := walk_mono fun u e he => (H.edge u e).2 (.inl he)
  intro v d
  rw [r' v d]
  refine least_congr (fun w hw => ?_) (fun x hx => ?_) d
  · obtain ⟨x, hx, hc⟩ := walk_addEdge H hw
    rcases hc with hc | ⟨y, z, hy, hz, rfl⟩
    · obtain ⟨d, hd, hle⟩ := exists_dist hc
      exact ⟨d, by omega, .inl ((r v d).2 hd)⟩
    · obtain ⟨y', hy', h1⟩ := exists_dist hy
      obtain ⟨z', hz', h2⟩ := exists_dist hz
      exact ⟨y' + c + z', by omega, .inr ⟨y', z', (r a y').2 hy', (rF v z').2 hz', rfl⟩⟩
  · refine ⟨x, Nat.le_refl _, ?_⟩
    rcases hx with hx | ⟨y, z, hy, hz, rfl⟩
    · exact mono ((r v x).1 hx).1
    · exact walk_append (.snoc (mono ((r a y).1 hy).1) ((H.edge a _).2 (.inr ⟨rfl, rfl⟩))) (mono ((rF v z).1 hz).1)

/-! The example graph, its reverse, its reduction by a feasible function, and the graph with two sources. -/

def dijkstraReverse : List (List (Nat × Nat)) := [[(1, 0), (2, 0), (3, 1)], [(0, 4), (0, 7), (1, 3), (2, 2)], [(0, 1)], []]

example : IsReverse dijkstraExample dijkstraReverse := by
  refine ⟨rfl, fun u v c => ?_⟩
  rcases u with _ | _ | _ | _ | u <;> rcases v with _ | _ | _ | _ | v <;>
    simp [dijkstraExample, dijkstraReverse] <;> omega

example : dijkstra (listHeap _) dijkstraExample 0 = ok [some 0, some 3, some 1, none] ∧
    dijkstra (listHeap _) dijkstraReverse 1 = ok [some 3, some 0, some 2, some 4] ∧
    dijkstra (listHeap _) dijkstraReverse 3 = ok [none, none, none, some 0] := by decide +kernel

/-- A feasible function that is not zero at the source. -/
example : Feasible [[(1, 2), (2, 9)], [(2, 3)], [(0, 1)]] (fun v => 5 + v) ∧
    dijkstra (listHeap _) [[(1, 2), (2, 9)], [(2, 3)], [(0, 1)]] 1 = ok [some 4, some 0, some 3] ∧
    reduced [[(1, 2), (2, 9)], [(2, 3)], [(0, 1)]] (fun v => 5 + v) = [[(1, 1), (2, 7)], [(2, 2)], [(0, 3)]] ∧
    dijkstra (listHeap _) (reduced [[(1, 2), (2, 9)], [(2, 3)], [(0, 1)]] (fun v => 5 + v)) 1 =
      ok [some 5, some 0, some 2] := by
  refine ⟨fun u v c h => ?_, by decide +kernel, by decide +kernel, by decide +kernel⟩
  rcases u with _ | _ | _ | u <;> simp at h <;> simp only [] <;> omega

example : dijkstra (listHeap _) (scaled dijkstraExample 5) 0 = ok [some 0, some 15, some 5, none] := by decide +kernel

example : dijkstra (listHeap _) (withSource dijkstraExample [2, 3]) 4 = ok [some 0, some 2, some 0, some 0, some 0] ∧
    dijkstra (listHeap _) dijkstraExample 2 = ok [some 0, some 2, some 0, none] ∧
    dijkstra (listHeap _) dijkstraExample 3 = ok [some 1, some 4, some 2, some 0] := by decide +kernel

example : IsAddEdge [[(1, 5)], [(2, 5)], []] [[(1, 5), (2, 3)], [(2, 5)], []] 0 2 3 ∧
    dijkstra (listHeap _) [[(1, 5)], [(2, 5)], []] 0 = ok [some 0, some 5, some 10] ∧
    dijkstra (listHeap _) [[(1, 5)], [(2, 5)], []] 2 = ok [none, none, some 0] ∧
    dijkstra (listHeap _) [[(1, 5), (2, 3)], [(2, 5)], []] 0 = ok [some 0, some 5, some 3] := by
  refine ⟨⟨rfl, fun u e => ?_⟩, by decide +kernel, by decide +kernel, by decide +kernel⟩
  rcases u with _ | _ | _ | u <;> simp

end Verif.Props
