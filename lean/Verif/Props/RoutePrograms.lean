import Verif.Props.DijkstraRuns
import Verif.Prelude.NoDiv
/-! C124: programs that use `dijkstra`: finding a lightest walk by going back, and walks on which some edges are free. -/
namespace Verif.Props
open Res Model Spec DijkstraP

variable {B : BinaryHeap (Nat ×ₗ Nat)ᵒᵈ} {g : List (List (Nat × Nat))} {s : Nat} {D : List (Option Nat)}

/-! ### Going back

The loops are a user's, after `dijkstra` of /repo/src/graph/shortest_path.rs:2-19. -/

/-- `|&(x, c)| x == v && dis[u] + c == dis[v]`, for vertices that are reached. -/
def isTight (D : List (Option Nat)) (u v : Nat) (e : Nat × Nat) : Bool :=
  e.1 == v && match D.getD u none, D.getD v none with
    | some x, some d => x + e.2 == d
    | _, _ => false

/-- `(0..n).find(|&u| g[u].iter().any(tight))`. -/
def backStep (g : List (List (Nat × Nat))) (D : List (Option Nat)) (v : Nat) : Option Nat :=
  (List.range g.length).find? fun u => (g.getD u []).any (isTight D u v)

/-- `while v != s { v = back_step(v).unwrap(); p.insert(0, v) }`. -/
def goBack (fuel : Nat) (g : List (List (Nat × Nat))) (D : List (Option Nat)) (s v : Nat) : Res (List Nat) :=
  loop fuel ((v, [v]) : Nat × List Nat) fun st =>
    if st.1 = s then ok (.done st.2)
    else do
      let u ← unwrap (backStep g D st.1)
      ok (.next (u, u :: st.2))

/-- The vertices of `p` in order are a walk of total weight `w`. -/
def WalkAlong (g : List (List (Nat × Nat))) : List Nat → Nat → Prop
  | [], _ => False
  | [_], w => w = 0
  | u :: v :: p, w => ∃ c w', (v, c) ∈ g.getD u [] ∧ WalkAlong g (v :: p) w' ∧ w = c + w'

theorem backStep_spec {v u : Nat} (h : backStep g D v = some u) :
    ∃ c x d, (v, c) ∈ g.getD u [] ∧ D[u]? = some (some x) ∧ D[v]? = some (some d) ∧ x + c = d := by
  have := List.find?_some h
  rw [List.any_eq_true] at this
  obtain ⟨⟨v', c⟩, he, ht⟩ := this
  unfold isTight at ht
  rw [Bool.and_eq_true, beq_iff_eq] at ht
  obtain ⟨rfl, ht⟩ := ht
  have get : ∀ w x, D.getD w none = some x → D[w]? = some (some x) := by
    intro w x hx
    rw [List.getD_eq_getElem?_getD] at hx
    cases hw : D[w]? with
    | none => rw [hw] at hx; cases hx
    | some y => rw [hw] at hx; exact congrArg some hx
  cases hu : D.getD u none with
  | none => rw [hu] at ht; simp at ht
  | some x =>
    cases hv : D.getD v' none with
    | none => rw [hu, hv] at ht; simp at ht
    | some d =>
      rw [hu, hv] at ht
      exact ⟨c, x, d, he, get _ _ hu, get _ _ hv, by simpa using ht⟩

theorem backStep_some (hD : dijkstra B g s = ok D) {v d : Nat} (hv : v ≠ s) (hd : D[v]? = some (some d)) :
    ∃ u, backStep g D v = some u := by
  obtain ⟨u, c, x, h1, h2, h3⟩ := (C102_potential hD).2.2.2 v d hv hd
  rw [← Option.isSome_iff_exists, backStep, List.find?_isSome]
  refine ⟨u, ?_, ?_⟩
  · rw [List.mem_range]
    by_contra hc
    rw [List.getD_eq_getElem?_getD, List.getElem?_eq_none (by omega)] at h2
    simp at h2
  · rw [List.any_eq_true]
    refine ⟨(v, c), h2, ?_⟩
    unfold isTight
    rw [List.getD_eq_getElem?_getD, List.getD_eq_getElem?_getD, h1, hd]
    simp [h3]

/-- **C124, a lightest walk.** If all weights are positive, going back along edges on which the distances fit exactly arrives at
the source, after at most as many steps as the distance; the vertices met are a walk from the source whose weight is the
distance, the least of all walks. -/
theorem C124_route (hD : dijkstra B g s = ok D) (hpos : ∀ u v c, (v, c) ∈ g.getD u [] → 0 < c) {v d : Nat}
    (hd : D[v]? = some (some d)) :
    ∀ fuel, d < fuel → ∃ p, goBack fuel g D s v = ok p ∧ p.head? = some s ∧ p.getLast? = some v ∧ WalkAlong g p d ∧
      IsDist g s v d := by
  intro fuel hf
  have hdist : IsDist g s v d := ((ret hD).2.2.2 v d).1 hd
  have : Sat (goBack fuel g D s v) (fun p => p.head? = some s ∧ p.getLast? = some v ∧ WalkAlong g p d) := by
    refine loop_satG (fun (st : Nat × List Nat) x => ∃ q w, st.2 = st.1 :: q ∧ D[st.1]? = some (some x) ∧
      st.2.getLast? = some v ∧ WalkAlong g st.2 w ∧ x + w = d) _ ?_ fuel (v, [v]) d
      ⟨[], 0, rfl, hd, rfl, rfl, rfl⟩ hf
    rintro ⟨u, p⟩ x ⟨q, w, hp, hx, hl, hw, hsum⟩
    simp only [] at hp hx hl hw ⊢
    by_cases hu : u = s
    · rw [if_pos hu, sat_ok]
      subst hu
      have h0 := (C102_potential hD).1
      rw [hx] at h0
      simp only [Option.some.injEq] at h0
      refine ⟨by rw [hp]; rfl, hl, ?_⟩
      rw [← hsum, h0, Nat.zero_add]
      exact hw
    · rw [if_neg hu]
      obtain ⟨u', hb⟩ := backStep_some hD hu hx
      obtain ⟨c, x', d', h1, h2, h3, h4⟩ := backStep_spec hb
      rw [hx] at h3
      simp only [Option.some.injEq] at h3
      have hc := hpos _ _ _ h1
      rw [hb]
      simp only [unwrap, ok_bind, sat_ok]
      refine ⟨x', by omega, p, c + w, rfl, h2, ?_, ?_, by omega⟩
      · rw [hp, List.getLast?_cons_cons, ← hp]; exact hl
      · rw [hp]
        rw [hp] at hw
        exact ⟨c, w, h1, hw, rfl⟩
  obtain ⟨p, e, h1, h2, h3⟩ := this
  exact ⟨p, e, h1, h2, h3, hdist⟩

/-- Two walks of the same weight to vertex 3; the first that is found is returned. -/
example : (∀ u v c, (v, c) ∈ ([[(1, 2), (2, 1)], [(3, 1)], [(3, 2), (1, 5)], []] : List (List (Nat × Nat))).getD u [] → 0 < c) ∧
    dijkstra (listHeap _) [[(1, 2), (2, 1)], [(3, 1)], [(3, 2), (1, 5)], []] 0 = ok [some 0, some 2, some 1, some 3] ∧
    goBack 4 [[(1, 2), (2, 1)], [(3, 1)], [(3, 2), (1, 5)], []] [some 0, some 2, some 1, some 3] 0 3 = ok [0, 1, 3] := by
  refine ⟨fun u v c h => ?_, by decide +kernel, by decide +kernel⟩
  rcases u with _ | _ | _ | _ | u <;> simp at h <;> omega

/-- **C124.** With edges of weight zero the same loop may run for ever, although the distances are right: it goes round a
circle of weight zero. -/
theorem C124_route_false : ∃ (g : List (List (Nat × Nat))) (D : List (Option Nat)), dijkstra (listHeap _) g 2 = ok D ∧
    D[0]? = some (some 0) ∧ ∀ fuel, goBack fuel g D 2 0 = .diverge := by
  refine ⟨[[(1, 0)], [(0, 0)], [(0, 0)]], [some 0, some 0, some 0], by decide +kernel, rfl, ?_⟩
  have h0 : backStep [[(1, 0)], [(0, 0)], [(0, 0)]] [some 0, some 0, some 0] 0 = some 1 := by decide +kernel
  have h1 : backStep [[(1, 0)], [(0, 0)], [(0, 0)]] [some 0, some 0, some 0] 1 = some 0 := by decide +kernel
  have key : ∀ fuel p, loop fuel ((0, p) : Nat × List Nat) (fun st =>
        if st.1 = 2 then ok (.done st.2)
        else do
          let u ← unwrap (backStep [[(1, 0)], [(0, 0)], [(0, 0)]] [some 0, some 0, some 0] st.1)
          ok (.next (u, u :: st.2))) = (.diverge : Res (List Nat)) ∧
      loop fuel ((1, p) : Nat × List Nat) (fun st =>
        if st.1 = 2 then ok (.done st.2)
        else do
          let u ← unwrap (backStep [[(1, 0)], [(0, 0)], [(0, 0)]] [some 0, some 0, some 0] st.1)
          ok (.next (u, u :: st.2))) = (.diverge : Res (List Nat)) := by
    intro fuel
    induction fuel with
    | zero => intro p; exact ⟨rfl, rfl⟩
    | succ fuel ih =>
      intro p
      constructor
      · rw [loop]
        simp only [h0, unwrap, ok_bind]
        rw [if_neg (by omega), ok_bind]
        exact (ih _).2
      · rw [loop]
        simp only [h1, unwrap, ok_bind]
        rw [if_neg (by omega), ok_bind]
        exact (ih _).1
  intro fuel
  exact (key fuel [0]).1

/-! ### Some edges are free -/

/-- `k + 1` copies of the graph; along every edge one can also go to the next copy, at no cost. -/
def layers (g : List (List (Nat × Nat))) (k : Nat) : List (List (Nat × Nat)) :=
  (List.range ((k + 1) * g.length)).map fun i =>
    (g.getD (i % g.length) []).flatMap fun e =>
      (i / g.length * g.length + e.1, e.2) ::
        if i / g.length < k then [((i / g.length + 1) * g.length + e.1, 0)] else []

/-- `dijkstra` on the copies; the least entry of the copies of `v`. -/
def freeDist (B : BinaryHeap (Nat ×ₗ Nat)ᵒᵈ) (g : List (List (Nat × Nat))) (k s v : Nat) : Res (Option Nat) := do
  let D ← dijkstra B (layers g k) s
  ok ((List.range (k + 1)).filterMap fun j => D.getD (j * g.length + v) none).min?

/-- A walk from `s` to `v` on which `j` edges are taken free and the others cost `w` together. -/
inductive FreeWalk (g : List (List (Nat × Nat))) (s : Nat) : Nat → Nat → Nat → Prop where
  | nil : FreeWalk g s s 0 0
  | pay {u v j w c : Nat} : FreeWalk g s u j w → (v, c) ∈ g.getD u [] → FreeWalk g s v j (w + c)
  | free {u v j w c : Nat} : FreeWalk g s u j w → (v, c) ∈ g.getD u [] → FreeWalk g s v (j + 1) w

theorem layers_edge (k j u : Nat) (hj : j ≤ k) (hu : u < g.length) (y c : Nat) :
    (y, c) ∈ (layers g k).getD (j * g.length + u) [] ↔
      (∃ v, (v, c) ∈ g.getD u [] ∧ y = j * g.length + v) ∨
      (j < k ∧ c = 0 ∧ ∃ v c', (v, c') ∈ g.getD u [] ∧ y = (j + 1) * g.length + v) := by
  have hlt : j * g.length + u < (k + 1) * g.length := by
    have : (j + 1) * g.length ≤ (k + 1) * g.length := Nat.mul_le_mul_right _ (by omega)
    rw [Nat.add_mul, Nat.one_mul] at this
    omega
  have hdiv : (j * g.length + u) / g.length = j := by
    rw [Nat.mul_comm, Nat.mul_add_div (by omega), Nat.div_eq_of_lt hu, Nat.add_zero]
  have hmod : (j * g.length + u) % g.length = u := by
    rw [Nat.mul_comm, Nat.mul_add_mod, Nat.mod_eq_of_lt hu]
  have hget : (layers g k).getD (j * g.length + u) [] = (g.getD u []).flatMap fun e =>
      (j * g.length + e.1, e.2) :: if j < k then [((j + 1) * g.length + e.1, 0)] else [] := by
    rw [layers, List.getD_eq_getElem?_getD, List.getElem?_map, List.getElem?_range hlt]
    simp only [Option.map_some, Option.getD_some, hdiv, hmod]
  rw [hget, List.mem_flatMap]
  constructor
  · rintro ⟨⟨v, c'⟩, he, hm⟩
    rcases List.mem_cons.1 hm with hm | hm
    · cases hm
      exact Or.inl ⟨v, he, rfl⟩
    · by_cases hk : j < k
      · rw [if_pos hk] at hm
        simp only [List.mem_singleton, Prod.mk.injEq] at hm
        exact Or.inr ⟨hk, hm.2, v, c', he, hm.1⟩
      · rw [if_neg hk] at hm; cases hm
  · rintro (⟨v, he, rfl⟩ | ⟨hk, rfl, v, c', he, rfl⟩)
    · exact ⟨(v, c), he, by simp⟩
    · exact ⟨(v, c'), he, by simp [hk]⟩

theorem layers_walk (hr : EdgesInRange g) (hs : s < g.length) (k j v w : Nat) (hj : j ≤ k) (hv : v < g.length) :
    Walk (layers g k) s (j * g.length + v) w ↔ FreeWalk g s v j w := by
  constructor
  · have : ∀ x w, Walk (layers g k) s x w → ∃ j v, j ≤ k ∧ v < g.length ∧ x = j * g.length + v ∧ FreeWalk g s v j w := by
      intro x w h
      induction h with
      | nil => exact ⟨0, s, by omega, hs, by omega, .nil⟩
      | snoc _ he ih =>
        obtain ⟨j, u, h1, h2, rfl, h4⟩ := ih
        rcases (layers_edge k j u h1 h2 _ _).1 he with ⟨v, h5, rfl⟩ | ⟨h5, rfl, v, c', h6, rfl⟩
        · exact ⟨j, v, h1, hr _ _ _ h5, rfl, .pay h4 h5⟩
        · exact ⟨j + 1, v, h5, hr _ _ _ h6, rfl, .free h4 h6⟩
    intro h
    obtain ⟨j', v', h1, h2, h3, h4⟩ := this _ _ h
    have hjj : j = j' := by
      have : (j * g.length + v) / g.length = (j' * g.length + v') / g.length := by rw [h3]
      rwa [Nat.mul_comm j, Nat.mul_comm j', Nat.mul_add_div (by omega), Nat.mul_add_div (by omega), Nat.div_eq_of_lt hv,
        Nat.div_eq_of_lt h2] at this
    subst hjj
    obtain rfl : v = v' := by omega
    exact h4
  · intro h
    have : ∀ v j w, FreeWalk g s v j w → v < g.length ∧ (j ≤ k → Walk (layers g k) s (j * g.length + v) w) := by
      intro v j w h
      induction h with
      | nil => exact ⟨hs, fun _ => by simpa using Walk.nil⟩
      | pay _ he ih =>
        exact ⟨hr _ _ _ he, fun hj => .snoc (ih.2 hj) ((layers_edge k _ _ hj ih.1 _ _).2 (Or.inl ⟨_, he, rfl⟩))⟩
      | free _ he ih =>
        refine ⟨hr _ _ _ he, fun hj => ?_⟩
        have := Walk.snoc (ih.2 (by omega)) ((layers_edge k _ _ (by omega) ih.1 _ 0).2 (Or.inr ⟨by omega, rfl, _, _, he, rfl⟩))
        exact this
    exact (this v j w h).2 hj

/-- **C124, free edges.** Whenever the run on the copies returns, the answer is the least cost of a walk to `v` on which at most
`k` edges are taken free, and `None` exactly if no walk leads to `v`. -/
theorem C124_free (hr : EdgesInRange g) (hs : s < g.length) (k v : Nat) (hv : v < g.length) (r : Option Nat)
    (h : freeDist B g k s v = ok r) :
    (∀ d, r = some d ↔ Least (fun w => ∃ j ≤ k, FreeWalk g s v j w) d) ∧
      (r = none ↔ ¬ ∃ j ≤ k, ∃ w, FreeWalk g s v j w) := by
  unfold freeDist at h
  obtain ⟨D, hD, h⟩ := bind_ok_inv h
  cases h
  have hdist := (ret hD).2.2.2
  have hmem : ∀ d, d ∈ ((List.range (k + 1)).filterMap fun j => D.getD (j * g.length + v) none) ↔
      ∃ j ≤ k, IsDist (layers g k) s (j * g.length + v) d := by
    intro d
    rw [List.mem_filterMap]
    constructor
    · rintro ⟨j, hj, hd⟩
      rw [List.mem_range] at hj
      refine ⟨j, by omega, (hdist _ _).1 ?_⟩
      rw [List.getD_eq_getElem?_getD] at hd
      cases hx : D[j * g.length + v]? with
      | none => rw [hx] at hd; cases hd
      | some y => rw [hx] at hd; exact congrArg some hd
    · rintro ⟨j, hj, hd⟩
      refine ⟨j, List.mem_range.2 (by omega), ?_⟩
      rw [List.getD_eq_getElem?_getD, (hdist _ _).2 hd]
      rfl
  have hle : ∀ j ≤ k, ∀ w, FreeWalk g s v j w →
      ∃ d ≤ w, d ∈ ((List.range (k + 1)).filterMap fun j => D.getD (j * g.length + v) none) := by
    intro j hj w hw
    obtain ⟨d, h1, h2⟩ := exists_dist ((layers_walk hr hs k j v w hj hv).2 hw)
    exact ⟨d, h2, (hmem d).2 ⟨j, hj, h1⟩⟩
  have hsome : ∀ d, ((List.range (k + 1)).filterMap fun j => D.getD (j * g.length + v) none).min? = some d ↔
      Least (fun w => ∃ j ≤ k, FreeWalk g s v j w) d := by
    intro d
    rw [List.min?_eq_some_iff]
    constructor
    · rintro ⟨h1, h2⟩
      obtain ⟨j, hj, hd⟩ := (hmem d).1 h1
      refine ⟨⟨j, hj, (layers_walk hr hs k j v d hj hv).1 hd.1⟩, ?_⟩
      rintro w ⟨j', hj', hw⟩
      obtain ⟨d', h3, h4⟩ := hle j' hj' w hw
      exact (h2 d' h4).trans h3
    · rintro ⟨⟨j, hj, hw⟩, h2⟩
      have lower : ∀ x ∈ ((List.range (k + 1)).filterMap fun j => D.getD (j * g.length + v) none), d ≤ x := by
        intro x hx
        obtain ⟨j', hj', hd⟩ := (hmem x).1 hx
        exact h2 x ⟨j', hj', (layers_walk hr hs k j' v x hj' hv).1 hd.1⟩
      obtain ⟨d', h3, h4⟩ := hle j hj d hw
      have := lower d' h4
      obtain rfl : d' = d := by omega
      exact ⟨h4, lower⟩
  refine ⟨hsome, ?_⟩
  rw [List.min?_eq_none_iff]
  constructor
  · rintro h0 ⟨j, hj, w, hw⟩
    obtain ⟨d, -, h4⟩ := hle j hj w hw
    rw [h0] at h4
    cases h4
  · intro hno
    rw [List.eq_nil_iff_forall_not_mem]
    intro d hd
    obtain ⟨j, hj, hd⟩ := (hmem d).1 hd
    exact hno ⟨j, hj, d, (layers_walk hr hs k j v d hj hv).1 hd.1⟩

/-- Without and with one free edge; no walk leads to vertex 3. -/
example : EdgesInRange [[(1, 9), (2, 5)], [(2, 1)], [], []] ∧
    freeDist (listHeap _) [[(1, 9), (2, 5)], [(2, 1)], [], []] 0 0 2 = ok (some 5) ∧
    freeDist (listHeap _) [[(1, 9), (2, 5)], [(2, 1)], [], []] 1 0 1 = ok (some 0) ∧
    freeDist (listHeap _) [[(1, 9), (2, 5)], [(2, 1)], [], []] 1 0 3 = ok none := by
  refine ⟨fun u v c h => ?_, by decide +kernel, by decide +kernel, by decide +kernel⟩
  rcases u with _ | _ | _ | _ | u <;> simp at h <;> simp <;> omega

end Verif.Props
