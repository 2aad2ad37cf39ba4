import Verif.Props.Dijkstra
import Verif.Spec.DijkstraRuns
/-! Walks in related graphs. -/
namespace Verif.DijkstraP
open Res Model Spec Props

variable {g h : List (List (Nat × Nat))} {s : Nat}

theorem walk_append {u v a b : Nat} (h1 : Walk g s u a) (h2 : Walk g u v b) : Walk g s v (a + b) := by
  induction h2 with
  | nil => exact h1
  | snoc _ he ih => rw [← Nat.add_assoc]; exact .snoc ih he

theorem walk_one {u v c : Nat} (h : (v, c) ∈ g.getD u []) : Walk g u v c := by
  have := Walk.snoc (g := g) (s := u) .nil h
  rwa [Nat.zero_add] at this

theorem walk_mono (H : ∀ u e, e ∈ g.getD u [] → e ∈ h.getD u []) {v w : Nat} (h1 : Walk g s v w) : Walk h s v w := by
  induction h1 with
  | nil => exact .nil
  | snoc _ he ih => exact .snoc ih (H _ _ he)

theorem walk_reverse (H : ∀ u v c, (v, c) ∈ g.getD u [] → (u, c) ∈ h.getD v []) {v w : Nat} (h1 : Walk g s v w) :
    Walk h v s w := by
  induction h1 with
  | nil => exact .nil
  | @snoc u v w c _ he ih =>
    rw [Nat.add_comm]
    exact walk_append (walk_one (H _ _ _ he)) ih

theorem isDist_iff {v d : Nat} : IsDist g s v d ↔ Least (Walk g s v) d := Iff.rfl

/-- Some walk of least weight exists whenever there is any walk. -/
theorem exists_dist {v w : Nat} (h : Walk g s v w) : ∃ d, IsDist g s v d ∧ d ≤ w := by
  classical
  have hx : ∃ d, Walk g s v d := ⟨w, h⟩
  exact ⟨Nat.find hx, ⟨Nat.find_spec hx, fun w hw => Nat.find_min' hx hw⟩, Nat.find_min' hx h⟩

theorem least_congr {P Q : Nat → Prop} (h1 : ∀ x, P x → ∃ y ≤ x, Q y) (h2 : ∀ x, Q x → ∃ y ≤ x, P y) (d : Nat) :
    Least P d ↔ Least Q d := by
  have key : ∀ {P Q : Nat → Prop}, (∀ x, P x → ∃ y ≤ x, Q y) → (∀ x, Q x → ∃ y ≤ x, P y) → Least P d → Least Q d := by
    intro P Q h1 h2 h
    obtain ⟨y, hy, hq⟩ := h1 d h.1
    have hm : ∀ z, Q z → d ≤ z := by
      intro z hz
      obtain ⟨x, hx, hp⟩ := h2 z hz
      exact (h.2 x hp).trans hx
    exact ⟨Nat.le_antisymm hy (hm y hq) ▸ hq, hm⟩
  exact ⟨key h1 h2, key h2 h1⟩

theorem least_iff {P Q : Nat → Prop} (h : ∀ x, P x ↔ Q x) (d : Nat) : Least P d ↔ Least Q d :=
  least_congr (fun x hx => ⟨x, Nat.le_refl _, (h x).1 hx⟩) (fun x hx => ⟨x, Nat.le_refl _, (h x).2 hx⟩) d

theorem least_unique {P : Nat → Prop} {x y : Nat} (h1 : Least P x) (h2 : Least P y) : x = y :=
  Nat.le_antisymm (h1.2 y h2.1) (h2.2 x h1.1)

/-- What a returned run says. -/
theorem ret {B : BinaryHeap (Nat ×ₗ Nat)ᵒᵈ} {dis : List (Option Nat)} (h : dijkstra B g s = ok dis) :
    s < g.length ∧ dis.length = g.length ∧ ¬ LeavesGraph g s ∧ ∀ v d, dis[v]? = some (some d) ↔ Least (Walk g s v) d := by
  have hp : ¬ dijkstra B g s = .panic := by rw [h]; simp
  rw [C15_panics_iff] at hp
  simp only [not_or, Nat.not_le] at hp
  obtain ⟨dis', h1, h2, h3⟩ := C15_shortest_paths (B := B) hp.1 hp.2.2 hp.2.1
  rw [h] at h1
  cases h1
  refine ⟨hp.1, h2, hp.2.2, fun v d => ?_⟩
  by_cases hv : v < g.length
  · exact (h3 v hv).2 d
  · constructor
    · intro hx
      rw [List.getElem?_eq_none (by omega)] at hx
      cases hx
    · intro hx
      exfalso
      cases hx.1 with
      | nil => exact hv hp.1
      | snoc hw he => exact hp.2.2 ⟨_, _, _, _, hw, he, by omega⟩

/-- Two results agree at two vertices when the distances do. -/
theorem entry_eq {B B' : BinaryHeap (Nat ×ₗ Nat)ᵒᵈ} {t u v : Nat} {D E : List (Option Nat)}
    (h1 : dijkstra B g s = ok D) (h2 : dijkstra B' h t = ok E) (hu : u < g.length) (hv : v < h.length)
    (H : ∀ d, Least (Walk g s u) d ↔ Least (Walk h t v) d) : D[u]? = E[v]? := by
  obtain ⟨-, l1, -, r1⟩ := ret h1
  obtain ⟨-, l2, -, r2⟩ := ret h2
  have e1 : ∃ x, D[u]? = some x := ⟨D[u]'(by omega), by simp⟩
  have e2 : ∃ y, E[v]? = some y := ⟨E[v]'(by omega), by simp⟩
  obtain ⟨x, e1⟩ := e1
  obtain ⟨y, e2⟩ := e2
  have k : ∀ d, D[u]? = some (some d) ↔ E[v]? = some (some d) := fun d => (r1 u d).trans ((H d).trans (r2 v d).symm)
  rw [e1, e2] at k ⊢
  cases x with
  | none =>
    cases y with
    | none => rfl
    | some d => have := (k d).2 rfl; simp at this
  | some d => exact ((k d).1 rfl).symm

theorem feasible_walk {p : Nat → Nat} (hp : Feasible g p) {v w : Nat} (h : Walk g s v w) : p v ≤ p s + w := by
  induction h with
  | nil => simp
  | snoc _ he ih => have := hp _ _ _ he; omega

theorem getD_reduced {p : Nat → Nat} (u : Nat) :
    (reduced g p).getD u [] = (g.getD u []).map fun e => (e.1, p u + e.2 - p e.1) := by
  rw [List.getD_eq_getElem?_getD, List.getD_eq_getElem?_getD, reduced, List.getElem?_mapIdx]
  cases g[u]? <;> simp

theorem walk_reduced {p : Nat → Nat} (hp : Feasible g p) {v w : Nat} :
    Walk (reduced g p) s v w ↔ ∃ x, Walk g s v x ∧ w + p v = x + p s := by
  constructor
  · intro h
    induction h with
    | nil => exact ⟨0, .nil, rfl⟩
    | snoc _ he ih =>
      obtain ⟨x, hx, e⟩ := ih
      rw [getD_reduced] at he
      obtain ⟨⟨v', c'⟩, hm, e'⟩ := List.mem_map.1 he
      simp only [Prod.mk.injEq] at e'
      obtain ⟨rfl, rfl⟩ := e'
      have := hp _ _ _ hm
      exact ⟨_, .snoc hx hm, by omega⟩
  · rintro ⟨x, hx, e⟩
    induction hx generalizing w with
    | nil =>
      have : w = 0 := by omega
      subst this; exact .nil
    | @snoc u v y c hy he ih =>
      have hf := feasible_walk hp hy
      have hf' := hp _ _ _ he
      have h1 := ih (w := y + p s - p u) (by omega)
      have h2 := Walk.snoc h1 (v := v) (c := p u + c - p v) (by
        rw [getD_reduced]; exact List.mem_map.2 ⟨(v, c), he, rfl⟩)
      have : w = y + p s - p u + (p u + c - p v) := by omega
      rwa [this]

theorem getD_scaled {k : Nat} (u : Nat) :
    (scaled g k).getD u [] = (g.getD u []).map fun e => (e.1, k * e.2) := by
  rw [List.getD_eq_getElem?_getD, List.getD_eq_getElem?_getD, scaled, List.getElem?_map]
  cases g[u]? <;> simp

theorem walk_scaled {k v w : Nat} : Walk (scaled g k) s v w ↔ ∃ x, Walk g s v x ∧ w = k * x := by
  constructor
  · intro h
    induction h with
    | nil => exact ⟨0, .nil, by simp⟩
    | snoc _ he ih =>
      obtain ⟨x, hx, e⟩ := ih
      rw [getD_scaled] at he
      obtain ⟨⟨v', c'⟩, hm, e'⟩ := List.mem_map.1 he
      simp only [Prod.mk.injEq] at e'
      obtain ⟨rfl, rfl⟩ := e'
      exact ⟨_, .snoc hx hm, by rw [e, Nat.mul_add]⟩
  · rintro ⟨x, hx, rfl⟩
    induction hx with
    | nil => exact .nil
    | @snoc u v y c hy he ih =>
      rw [Nat.mul_add]
      exact .snoc ih (by rw [getD_scaled]; exact List.mem_map.2 ⟨(v, c), he, rfl⟩)

theorem getD_withSource {S : List Nat} (u : Nat) (e : Nat × Nat) : e ∈ (withSource g S).getD u [] ↔
    (u < g.length ∧ e ∈ g.getD u []) ∨ (u = g.length ∧ e.1 ∈ S ∧ e.2 = 0) := by
  rw [List.getD_eq_getElem?_getD, List.getD_eq_getElem?_getD, withSource]
  rcases Nat.lt_trichotomy u g.length with hu | hu | hu
  · rw [List.getElem?_append_left hu]
    exact ⟨fun x => .inl ⟨hu, x⟩, fun x => x.elim (·.2) (fun y => absurd y.1 (by omega))⟩
  · subst hu
    rw [List.getElem?_append_right (Nat.le_refl _)]
    simp only [Nat.sub_self, List.getElem?_cons_zero, Option.getD_some, List.mem_map, Nat.lt_irrefl, false_and, false_or,
      true_and]
    constructor
    · rintro ⟨a, ha, rfl⟩; exact ⟨ha, rfl⟩
    · rintro ⟨h1, h2⟩; exact ⟨e.1, h1, by rw [← h2]⟩
  · rw [List.getElem?_eq_none (by simp; omega)]
    simp only [Option.getD_none, List.not_mem_nil, false_iff, not_or]
    exact ⟨fun x => by omega, fun x => by omega⟩

theorem walk_withSource {S : List Nat} (hE : EdgesInRange g) {v w : Nat} (hv : v < g.length) (hS : ∀ x ∈ S, x < g.length) :
    Walk (withSource g S) g.length v w ↔ ∃ x ∈ S, Walk g x v w := by
  constructor
  · intro h
    induction h with
    | nil => omega
    | @snoc u v w c hw he ih =>
      rcases (getD_withSource u _).1 he with ⟨hu, hm⟩ | ⟨hu, h1, h2⟩
      · obtain ⟨x, hx, hw⟩ := ih hu
        exact ⟨x, hx, .snoc hw hm⟩
      · have hu0 : ∀ {y z}, Walk (withSource g S) g.length y z → y = g.length → z = 0 := by
          intro y z hz
          cases hz with
          | nil => exact fun _ => rfl
          | @snoc u y w c _ he =>
            intro ey
            rcases (getD_withSource u _).1 he with ⟨_, hm⟩ | ⟨_, h1, _⟩
            · have := hE _ _ _ hm; omega
            · have := hS _ h1; simp only at this; omega
        have hw0 := hu0 hw hu
        simp only at h1 h2
        exact ⟨v, h1, by rw [hw0, h2]; exact .nil⟩
  · rintro ⟨x, hx, hw⟩
    have h1 : Walk (withSource g S) g.length x 0 := walk_one ((getD_withSource _ _).2 (.inr ⟨rfl, hx, rfl⟩))
    have h2 : Walk (withSource g S) x v w := by
      refine walk_mono (fun u e he => (getD_withSource u e).2 (.inl ⟨?_, he⟩)) hw
      by_contra hu
      rw [List.getD_eq_getElem?_getD, List.getElem?_eq_none (by omega)] at he
      simp at he
    have := walk_append h1 h2
    rwa [Nat.zero_add] at this

/-- A walk after the insertion of an edge uses it at most once, without loss. -/
theorem walk_addEdge {a b c v w : Nat} (H : IsAddEdge g h a b c) (h1 : Walk h s v w) :
    ∃ x ≤ w, Walk g s v x ∨ ∃ y z, Walk g s a y ∧ Walk g b v z ∧ x = y + c + z := by
  induction h1 with
  | nil => exact ⟨0, Nat.le_refl _, .inl .nil⟩
  | @snoc u v w c' _ he ih =>
    obtain ⟨x, hx, hc⟩ := ih
    rcases (H.edge _ _).1 he with hm | ⟨rfl, e⟩
    · rcases hc with hc | ⟨y, z, hy, hz, rfl⟩
      · exact ⟨x + c', by omega, .inl (.snoc hc hm)⟩
      · exact ⟨y + c + z + c', by omega, .inr ⟨y, z + c', hy, .snoc hz hm, by omega⟩⟩
    · simp only [Prod.mk.injEq] at e
      obtain ⟨rfl, rfl⟩ := e
      rcases hc with hc | ⟨y, z, hy, _, rfl⟩
      · exact ⟨x + c', by omega, .inr ⟨x, 0, hc, .nil, rfl⟩⟩
      · exact ⟨y + c', by omega, .inr ⟨y, 0, hy, .nil, rfl⟩⟩

end Verif.DijkstraP
