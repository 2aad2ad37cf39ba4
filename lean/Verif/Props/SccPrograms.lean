import Verif.Props.Tarjan
import Verif.Spec.TwoSat
import Mathlib.Data.List.Chain
import Mathlib.Algebra.BigOperators.Group.Finset.Basic
import Mathlib.Algebra.Order.BigOperators.Group.Finset
/-! C121: programs that use `scc`: optima over all walks, computed along the numbers of the components. -/
namespace Verif.Props
open Model Spec Res

/-! ### What is asked for -/

/-- A walk of `g` from `x`: a list of vertices that begins with `x`, each with an edge to the next. -/
def IsWalkFrom (g : List (List Nat)) (x : Nat) (p : List Nat) : Prop := p.head? = some x ∧ p.IsChain (DEdge g)

/-- What a walk collects: the weight of each vertex on it, once however often it is visited. -/
def collected (w : Nat → Nat) (p : List Nat) : Nat := ∑ v ∈ p.toFinset, w v

/-- `b` is the most that a walk from `x` can collect. -/
def IsMostFrom (g : List (List Nat)) (w : Nat → Nat) (x b : Nat) : Prop :=
  (∃ p, IsWalkFrom g x p ∧ collected w p = b) ∧ ∀ p, IsWalkFrom g x p → collected w p ≤ b

/-! ### The program

`scc` is the function of /repo/src/graph/tarjan.rs:49-68; the loops around it are a user's. Sums are of
unbounded numbers. -/

/-- One component: add up the weights of its vertices, take the best that an edge leads to. An edge inside the component leads
to an entry that is still zero. -/
def collectRound (g : List (List Nat)) (w color best : List Nat) (c : Nat) : Res (List Nat) := do
  let sm ← forRange 0 g.length (0, 0) fun x sm => do
    let cx ← idx color x
    if cx = c then do
      let wx ← idx w x
      let gx ← idx g x
      let m ← forList gx sm.2 fun y m => do
        let cy ← idx color y
        let b ← idx best cy
        ok (max m b)
      ok (sm.1 + wx, m)
    else ok sm
  upd best c (sm.1 + sm.2)

/-- `let (cnt, color) = scc(&g); for c in 0..cnt { .. }`, then for each vertex the entry of its component. -/
def collectMost (g : List (List Nat)) (w : List Nat) : Res (List Nat) := do
  let r ← scc g
  let best ← forRange 0 r.1 (List.replicate r.1 0) fun c best => collectRound g w r.2 best c
  forRange 0 g.length [] fun x out => do
    let cx ← idx r.2 x
    let b ← idx best cx
    ok (out ++ [b])

/-! ### Walks and components -/

theorem listWalk_of_reach {g : List (List Nat)} {x y : Nat} (h : DReach g x y) :
    ∃ p, IsWalkFrom g x p ∧ p.getLast? = some y := by
  induction h with
  | refl => exact ⟨[x], ⟨rfl, by simp⟩, rfl⟩
  | @tail b c _ e ih =>
    obtain ⟨p, ⟨h1, h2⟩, h3⟩ := ih
    refine ⟨p ++ [c], ⟨?_, ?_⟩, by simp⟩
    · cases p with
      | nil => simp at h1
      | cons a p => simpa using h1
    · rw [List.isChain_append]
      refine ⟨h2, by simp, ?_⟩
      intro a ha b' hb
      rw [h3] at ha
      simp at ha hb
      subst ha; subst hb; exact e

/-- Two walks, the second from where the first ends: one walk over both. -/
theorem listWalk_join {g : List (List Nat)} {x y z : Nat} {p q : List Nat} (hp : IsWalkFrom g x p) (hl : p.getLast? = some y)
    (hq : IsWalkFrom g z q) (he : DEdge g y z) : IsWalkFrom g x (p ++ q) := by
  refine ⟨?_, ?_⟩
  · cases p with
    | nil => simp [IsWalkFrom] at hp
    | cons a p => simpa using hp.1
  · rw [List.isChain_append]
    refine ⟨hp.2, hq.2, ?_⟩
    intro a ha b hb
    rw [hl] at ha
    rw [hq.1] at hb
    simp at ha hb
    subst ha; subst hb; exact he

theorem listWalk_join' {g : List (List Nat)} {x y : Nat} {p q : List Nat} (hp : IsWalkFrom g x p) (hl : p.getLast? = some y)
    (hq : IsWalkFrom g y q) : ∃ r, IsWalkFrom g x r ∧ r.getLast? = q.getLast? ∧ (∀ v ∈ p, v ∈ r) ∧ ∀ v ∈ q, v ∈ r := by
  obtain ⟨hq1, hq2⟩ := hq
  cases q with
  | nil => simp at hq1
  | cons a q =>
    simp at hq1
    subst hq1
    have ha : a ∈ p := List.mem_of_getLast? hl
    cases q with
    | nil => exact ⟨p, hp, by simp [hl], fun v h => h, fun v h => by simp at h; subst h; exact ha⟩
    | cons b q =>
      rw [List.isChain_cons_cons] at hq2
      refine ⟨p ++ b :: q, listWalk_join hp hl ⟨rfl, hq2.2⟩ hq2.1, ?_, fun v h => by simp [h], fun v h => ?_⟩
      · rw [List.getLast?_append, List.getLast?_cons_cons]
        cases hh : (b :: q).getLast? with
        | none => simp at hh
        | some t => simp
      · rcases List.mem_cons.1 h with rfl | h
        · simp [ha]
        · exact List.mem_append_right _ h

/-- Among vertices that all reach each other, a walk can go through all and end at any of them. -/
theorem listWalk_through {g : List (List Nat)} {z : Nat} (l : List Nat) (x : Nat) (hx : DReach g x z)
    (h : ∀ v ∈ l, DReach g z v ∧ DReach g v z) :
    ∃ p, IsWalkFrom g x p ∧ p.getLast? = some z ∧ ∀ v ∈ l, v ∈ p := by
  induction l with
  | nil =>
    obtain ⟨p, h1, h2⟩ := listWalk_of_reach hx
    exact ⟨p, h1, h2, by simp⟩
  | cons a l ih =>
    obtain ⟨p, h1, h2, h3⟩ := ih fun v hv => h v (by simp [hv])
    obtain ⟨q1, a1, a2⟩ := listWalk_of_reach (h a (by simp)).1
    obtain ⟨q2, b1, b2⟩ := listWalk_of_reach (h a (by simp)).2
    obtain ⟨r1, c1, c2, c3, c4⟩ := listWalk_join' h1 h2 a1
    obtain ⟨r2, d1, d2, d3, d4⟩ := listWalk_join' c1 (c2.trans a2) b1
    refine ⟨r2, d1, d2.trans b2, fun v hv => ?_⟩
    rcases List.mem_cons.1 hv with rfl | hv
    · exact d3 _ (c4 _ (List.mem_of_getLast? a2))
    · exact d3 _ (c3 _ (h3 v hv))

theorem listWalk_reach {g : List (List Nat)} : ∀ (p : List Nat) (x : Nat), IsWalkFrom g x p → ∀ v ∈ p, DReach g x v
  | [], x, h, _, _ => by simp [IsWalkFrom] at h
  | [a], x, h, v, hv => by
    have := h.1
    simp at this hv
    subst this; subst hv; exact .refl
  | a :: b :: p, x, h, v, hv => by
    obtain ⟨h1, h2⟩ := h
    simp at h1
    subst h1
    rw [List.isChain_cons_cons] at h2
    rcases List.mem_cons.1 hv with rfl | hv
    · exact .refl
    · exact .head h2.1 (listWalk_reach (b :: p) b ⟨rfl, h2.2⟩ v hv)

/-- A walk that begins in a set stays in it or leaves it by an edge; what follows is a walk of its own. -/
theorem listWalk_leaves {g : List (List Nat)} (S : Finset Nat) : ∀ (p : List Nat) (x : Nat), IsWalkFrom g x p → x ∈ S →
    p.toFinset ⊆ S ∨ ∃ z y q, z ∈ S ∧ DEdge g z y ∧ y ∉ S ∧ IsWalkFrom g y q ∧ p.toFinset ⊆ S ∪ q.toFinset
  | [], x, h, _ => by simp [IsWalkFrom] at h
  | [a], x, h, hx => by
    have := h.1
    simp at this
    subst this
    exact Or.inl (by simp [hx])
  | a :: b :: p, x, h, hx => by
    obtain ⟨h1, h2⟩ := h
    simp at h1
    subst h1
    rw [List.isChain_cons_cons] at h2
    by_cases hb : b ∈ S
    · rcases listWalk_leaves S (b :: p) b ⟨rfl, h2.2⟩ hb with h | ⟨z, y, q, e1, e2, e3, e4, e5⟩
      · left
        rw [List.toFinset_cons]
        exact Finset.insert_subset hx h
      · right
        refine ⟨z, y, q, e1, e2, e3, e4, ?_⟩
        rw [List.toFinset_cons]
        exact Finset.insert_subset (Finset.mem_union_left _ hx) e5
    · right
      refine ⟨a, b, b :: p, hx, h2.1, hb, ⟨rfl, h2.2⟩, ?_⟩
      rw [List.toFinset_cons]
      exact Finset.insert_subset (Finset.mem_union_left _ hx) Finset.subset_union_right

/-- The best from a component: the weights of its vertices and the best among what its edges lead to. -/
theorem most_component {g : List (List Nat)} (w : Nat → Nat) (S : Finset Nat) (m x : Nat) (hx : x ∈ S)
    (hS : ∀ u ∈ S, ∀ v, v ∈ S ↔ DReach g u v ∧ DReach g v u)
    (hup : ∀ z ∈ S, ∀ y, DEdge g z y → y ∉ S → ∀ q, IsWalkFrom g y q → collected w q ≤ m)
    (hat : m = 0 ∨ ∃ z ∈ S, ∃ y q, DEdge g z y ∧ y ∉ S ∧ IsWalkFrom g y q ∧ collected w q = m) :
    IsMostFrom g w x (∑ v ∈ S, w v + m) := by
  have up : ∀ p, IsWalkFrom g x p → collected w p ≤ ∑ v ∈ S, w v + m := by
    intro p hp
    rcases listWalk_leaves S p x hp hx with h | ⟨z, y, q, e1, e2, e3, e4, e5⟩
    · exact (Finset.sum_le_sum_of_subset h).trans (Nat.le_add_right _ _)
    · have h1 : collected w p ≤ ∑ v ∈ S ∪ q.toFinset, w v := Finset.sum_le_sum_of_subset e5
      have h2 : ∑ v ∈ S ∪ q.toFinset, w v ≤ ∑ v ∈ S, w v + ∑ v ∈ q.toFinset, w v := by
        rw [← Finset.sum_union_inter]; exact Nat.le_add_right _ _
      have h3 := hup z e1 y e2 e3 q e4
      unfold collected at h1 h3 ⊢
      omega
  refine ⟨?_, up⟩
  have fin : ∃ p, IsWalkFrom g x p ∧ ∑ v ∈ S, w v + m ≤ collected w p := by
    rcases hat with rfl | ⟨z, hz, y, q, e1, e2, e3, rfl⟩
    · obtain ⟨p, h1, -, h3⟩ := listWalk_through (z := x) S.toList x .refl fun v hv => (hS x hx v).1 (by simpa using hv)
      exact ⟨p, h1, Finset.sum_le_sum_of_subset fun v hv => by simpa using h3 v (by simpa using hv)⟩
    · obtain ⟨p, h1, h2, h3⟩ := listWalk_through (z := z) S.toList x ((hS x hx z).1 hz).1
        fun v hv => (hS z hz v).1 (by simpa using hv)
      refine ⟨p ++ q, listWalk_join h1 h2 e3 e1, ?_⟩
      have hd : Disjoint S q.toFinset := by
        rw [Finset.disjoint_left]
        intro v hv hq
        have hr := listWalk_reach q y e3 v (by simpa using hq)
        exact e2 ((hS z hz y).2 ⟨.single e1, hr.trans ((hS z hz v).1 hv).2⟩)
      unfold collected
      rw [← Finset.sum_union hd]
      refine Finset.sum_le_sum_of_subset fun v hv => ?_
      rw [Finset.mem_union] at hv
      rcases hv with hv | hv
      · simp [h3 v (by simpa using hv)]
      · simp at hv; simp [hv]
  obtain ⟨p, h1, h2⟩ := fin
  exact ⟨p, h1, le_antisymm (up p h1) h2⟩

/-! ### The loops -/

/-- What a round leaves in the pair after the vertices below `k`. -/
structure RoundInv (g : List (List Nat)) (w color best : List Nat) (c k : Nat) (sm : Nat × Nat) : Prop where
  sum : sm.1 = ∑ v ∈ (Finset.range k).filter (fun v => color[v]? = some c), w.getD v 0
  le : ∀ z < k, color[z]? = some c → ∀ y, DEdge g z y → best.getD (color.getD y 0) 0 ≤ sm.2
  att : sm.2 = 0 ∨ ∃ z < k, color[z]? = some c ∧ ∃ y, DEdge g z y ∧ best.getD (color.getD y 0) 0 = sm.2

theorem collectRound_sat {g : List (List Nat)} {w color best : List Nat} {c : Nat}
    (hg : ∀ x y, DEdge g x y → y < g.length) (hw : w.length = g.length) (hc : color.length = g.length)
    (hlt : ∀ a ∈ color, a < best.length) (hcb : c < best.length) :
    ∃ sm, RoundInv g w color best c g.length sm ∧ collectRound g w color best c = ok (best.set c (sm.1 + sm.2)) := by
  have main : Sat (forRange 0 g.length (0, 0) fun x sm => do
      let cx ← idx color x
      if cx = c then do
        let wx ← idx w x
        let gx ← idx g x
        let m ← forList gx sm.2 fun y m => do
          let cy ← idx color y
          let b ← idx best cy
          ok (max m b)
        ok (sm.1 + wx, m)
      else ok sm) (RoundInv g w color best c g.length) := by
    refine forRange_sat (RoundInv g w color best c) (Nat.zero_le _) ⟨by simp, by simp, Or.inl rfl⟩ ?_
    rintro x ⟨s, m⟩ - hx ⟨i1, i2, i3⟩
    simp only [] at i1 i2 i3
    rw [idx_of_lt (by omega : x < color.length), ok_bind]
    have hcx : color[x]? = some color[x] := List.getElem?_eq_getElem (by omega)
    by_cases h : color[x] = c
    · rw [if_pos h, idx_of_lt (by omega : x < w.length), ok_bind, idx_of_lt hx, ok_bind, sat_bind]
      have inner : Sat (forList g[x] m fun y m => do
          let cy ← idx color y
          let b ← idx best cy
          ok (max m b)) (fun m' => m ≤ m' ∧ (∀ y ∈ g[x], best.getD (color.getD y 0) 0 ≤ m') ∧
            (m' = m ∨ ∃ y ∈ g[x], best.getD (color.getD y 0) 0 = m')) := by
        have := forList_sat (f := fun y m => do
          let cy ← idx color y
          let b ← idx best cy
          ok (max m b)) (fun l m' => m ≤ m' ∧ (∀ y ∈ l, best.getD (color.getD y 0) 0 ≤ m') ∧
            (m' = m ∨ ∃ y ∈ l, best.getD (color.getD y 0) 0 = m')) g[x] [] m ⟨le_rfl, by simp, Or.inl rfl⟩ ?_
        · simpa using this
        · rintro p y r t e ⟨j1, j2, j3⟩
          have hy : y < g.length := hg x y ⟨g[x], List.getElem?_eq_getElem hx, by
            have : y ∈ [] ++ g[x] := by rw [e]; simp
            simpa using this⟩
          have hyc : y < color.length := by omega
          have hb : color[y] < best.length := hlt _ (List.getElem_mem _)
          have hv : best.getD (color.getD y 0) 0 = best[color[y]] := by
            simp [List.getD_eq_getElem?_getD, hyc, hb]
          rw [idx_of_lt hyc, ok_bind, idx_of_lt hb, ok_bind, sat_ok]
          refine ⟨by omega, ?_, ?_⟩
          · intro u hu
            rcases List.mem_append.1 hu with hu | hu
            · exact (j2 u hu).trans (le_max_left _ _)
            · simp at hu; subst hu; rw [hv]; exact le_max_right _ _
          · rcases le_total t best[color[y]] with ht | ht
            · exact Or.inr ⟨y, by simp, by rw [hv, max_eq_right ht]⟩
            · rw [max_eq_left ht]
              rcases j3 with j3 | ⟨u, hu, j3⟩
              · exact Or.inl j3
              · exact Or.inr ⟨u, by simp [hu], j3⟩
      refine inner.mono fun m' ⟨j1, j2, j3⟩ => ?_
      rw [sat_ok]
      have hedge : ∀ y, DEdge g x y ↔ y ∈ g[x] := fun y =>
        ⟨fun ⟨a, ha, hy⟩ => by rw [List.getElem?_eq_getElem hx] at ha; cases ha; exact hy,
          fun hy => ⟨_, List.getElem?_eq_getElem hx, hy⟩⟩
      refine ⟨?_, ?_, ?_⟩
      · simp only []
        rw [Finset.range_add_one, Finset.filter_insert, if_pos (by rw [hcx, h]), Finset.sum_insert (by simp), i1,
          List.getD_eq_getElem?_getD, List.getElem?_eq_getElem (by omega : x < w.length)]
        exact Nat.add_comm _ _
      · intro z hz hzc y he
        simp only []
        rcases Nat.lt_succ_iff_lt_or_eq.1 hz with hz | rfl
        · exact (i2 z hz hzc y he).trans j1
        · exact j2 y ((hedge y).1 he)
      · simp only []
        rcases j3 with rfl | ⟨y, hy, j3⟩
        · rcases i3 with i3 | ⟨z, hz, r⟩
          · exact Or.inl i3
          · exact Or.inr ⟨z, by omega, r⟩
        · exact Or.inr ⟨x, by omega, by rw [hcx, h], y, (hedge y).2 hy, j3⟩
    · rw [if_neg h, sat_ok]
      refine ⟨?_, ?_, ?_⟩
      · simp only []
        rw [Finset.range_add_one, Finset.filter_insert, if_neg (by rw [hcx]; simpa using h), i1]
      · intro z hz hzc y he
        rcases Nat.lt_succ_iff_lt_or_eq.1 hz with hz | rfl
        · exact i2 z hz hzc y he
        · rw [hcx] at hzc; exact absurd (Option.some.inj hzc) h
      · rcases i3 with i3 | ⟨z, hz, r⟩
        · exact Or.inl i3
        · exact Or.inr ⟨z, by omega, r⟩
  obtain ⟨sm, e, hi⟩ := main
  refine ⟨sm, hi, ?_⟩
  unfold collectRound
  rw [e, ok_bind, upd_of_lt hcb]

/-- **C121, the most that a walk collects.** With the weights of the vertices, the program that goes through the components in
the order of their numbers returns for every vertex the most that a walk from it can collect, when every vertex counts once:
some walk collects this much and no walk, however long, collects more. -/
theorem C121_collect (g : List (List Nat)) (w : List Nat) (hg : ∀ x y, DEdge g x y → y < g.length)
    (hn : g.length < 2 ^ 31) (hw : w.length = g.length) :
    ∃ out, collectMost g w = ok out ∧ out.length = g.length ∧
      ∀ x (hx : x < out.length), IsMostFrom g (fun v => w.getD v 0) x out[x] := by
  obtain ⟨cnt, color, e, hl, h1, h2⟩ := C21_scc g hg hn
  obtain ⟨cnt', color', e', -, h3⟩ := C22_reverse_topological g hg hn
  rw [e] at e'
  cases e'
  have hlt : ∀ a ∈ color, a < cnt := fun a ha => (h2 a).2 ha
  have rounds : Sat (forRange 0 cnt (List.replicate cnt 0) fun c best => collectRound g w color best c)
      (fun best => best.length = cnt ∧ ∀ x (hx : x < color.length),
        IsMostFrom g (fun v => w.getD v 0) x (best.getD color[x] 0)) := by
    refine (forRange_sat (fun k best => best.length = cnt ∧ (∀ d, k ≤ d → best.getD d 0 = 0) ∧
      ∀ x (hx : x < color.length), color[x] < k → IsMostFrom g (fun v => w.getD v 0) x (best.getD color[x] 0))
      (Nat.zero_le _) ⟨by simp, fun d _ => ?_, by simp⟩ ?_).mono ?_
    · rw [List.getD_eq_getElem?_getD, List.getElem?_replicate]; split <;> rfl
    · rintro c best - hc ⟨k1, k2, k3⟩
      obtain ⟨sm, hi, er⟩ := collectRound_sat (c := c) hg hw hl (k1 ▸ hlt) (k1 ▸ hc)
      rw [er, sat_ok]
      refine ⟨by simpa using k1, fun d hd => ?_, fun x hx hxc => ?_⟩
      · rw [List.getD_eq_getElem?_getD, List.getElem?_set_ne (by omega), ← List.getD_eq_getElem?_getD]
        exact k2 d (by omega)
      · by_cases hcx : color[x] = c
        · rw [hcx, List.getD_eq_getElem?_getD, List.getElem?_set_self (k1 ▸ hc), Option.getD_some, hi.sum]
          have hmem : ∀ v, v ∈ (Finset.range g.length).filter (fun v => color[v]? = some c) ↔ color[v]? = some c := by
            intro v
            rw [Finset.mem_filter, Finset.mem_range, and_iff_right_iff_imp]
            intro h
            obtain ⟨h, -⟩ := List.getElem?_eq_some_iff.1 h
            omega
          have hval : ∀ z y, color[z]? = some c → DEdge g z y → color[y]? ≠ some c →
              ∃ hy : y < color.length, color[y] < c ∧ color.getD y 0 = color[y] := by
            intro z y hz he hyc
            obtain ⟨hz', hzc⟩ := List.getElem?_eq_some_iff.1 hz
            have hy : y < color.length := by have := hg z y he; omega
            refine ⟨hy, ?_, by simp [List.getD_eq_getElem?_getD, hy]⟩
            have hle := (h3 z y hz' hy (.single he)).1
            have hne : color[y] ≠ c := fun h => hyc (by rw [List.getElem?_eq_getElem hy, h])
            omega
          refine most_component _ _ sm.2 x ((hmem x).2 (by rw [List.getElem?_eq_getElem hx, hcx])) ?_ ?_ ?_
          · intro u hu v
            rw [hmem] at hu ⊢
            obtain ⟨hu', huc⟩ := List.getElem?_eq_some_iff.1 hu
            constructor
            · intro hv
              obtain ⟨hv', hvc⟩ := List.getElem?_eq_some_iff.1 hv
              exact (h1 u v hu' hv').1 (huc.trans hvc.symm)
            · intro hr
              have hv' : v < color.length := by
                rcases Relation.ReflTransGen.cases_tail hr.1 with rfl | ⟨b, -, hb⟩
                · exact hu'
                · have := hg b v hb; omega
              rw [List.getElem?_eq_getElem hv', ← (h1 u v hu' hv').2 hr, huc]
          · intro z hz y he hyS q hq
            rw [hmem] at hz hyS
            obtain ⟨hy, hyc, hyv⟩ := hval z y hz he hyS
            have hz' : z < g.length := by have := (List.getElem?_eq_some_iff.1 hz).1; omega
            have := hi.le z hz' hz y he
            rw [hyv] at this
            exact ((k3 y hy hyc).2 q hq).trans this
          · rcases hi.att with h | ⟨z, hz, hzc, y, he, hb⟩
            · exact Or.inl h
            · by_cases hyc : color[y]? = some c
              · left
                rw [← hb, List.getD_eq_getElem?_getD (l := color), hyc]
                exact k2 c le_rfl
              · right
                obtain ⟨hy, hlt', hyv⟩ := hval z y hzc he hyc
                obtain ⟨q, hq1, hq2⟩ := (k3 y hy hlt').1
                rw [hyv] at hb
                exact ⟨z, (hmem z).2 hzc, y, q, he, fun h => hyc ((hmem y).1 h), hq1, hq2.trans hb⟩
        · rw [List.getD_eq_getElem?_getD, List.getElem?_set_ne (by omega), ← List.getD_eq_getElem?_getD]
          exact k3 x hx (by omega)
    · rintro best ⟨k1, -, k3⟩
      exact ⟨k1, fun x hx => k3 x hx (hlt _ (List.getElem_mem _))⟩
  obtain ⟨best, eb, b1, b2⟩ := rounds
  have last : Sat (forRange 0 g.length [] fun x out => do
      let cx ← idx color x
      let b ← idx best cx
      ok (out ++ [b])) (fun out : List Nat => out.length = g.length ∧
        ∀ x (hx : x < out.length), IsMostFrom g (fun v => w.getD v 0) x out[x]) := by
    refine forRange_sat (fun k (out : List Nat) => out.length = k ∧
      ∀ x (hx : x < out.length), IsMostFrom g (fun v => w.getD v 0) x out[x]) (Nat.zero_le _) ⟨rfl, by simp⟩ ?_
    rintro x out - hx ⟨o1, o2⟩
    have hxc : x < color.length := by omega
    have hb : color[x] < best.length := b1 ▸ hlt _ (List.getElem_mem _)
    rw [idx_of_lt hxc, ok_bind, idx_of_lt hb, ok_bind, sat_ok]
    refine ⟨by simp [o1], fun y hy => ?_⟩
    by_cases hyo : y < out.length
    · rw [List.getElem_append_left hyo]; exact o2 y hyo
    · have : y = x := by simp at hy; omega
      subst this
      have := b2 y hxc
      rw [List.getD_eq_getElem?_getD, List.getElem?_eq_getElem hb, Option.getD_some] at this
      rw [List.getElem_append_right (by omega)]
      simpa [o1] using this
  obtain ⟨out, eo, o1, o2⟩ := last
  refine ⟨out, ?_, o1, o2⟩
  unfold collectMost
  rw [e, ok_bind]
  simp only []
  rw [eb, ok_bind]
  exact eo

/-- Two circles joined by an edge, and a vertex with a choice: from vertex 5 it is better to go to the first circle. -/
example : (∀ x y, DEdge [[1], [2, 3], [0, 2], [4], [3], [4, 5, 0]] x y → y < 6) ∧
    collectMost [[1], [2, 3], [0, 2], [4], [3], [4, 5, 0]] [1, 2, 3, 10, 20, 100] = ok [36, 36, 36, 30, 30, 136] := by
  refine ⟨?_, by decide +kernel⟩
  rintro x y ⟨a, ha, hy⟩
  have hm := List.mem_of_getElem? ha
  have : ∀ a ∈ [[1], [2, 3], [0, 2], [4], [3], [4, 5, 0]], ∀ y ∈ a, y < 6 := by decide
  exact this a hm y hy

/-- In a graph without circles a walk visits no vertex twice. -/
theorem listWalk_nodup {g : List (List Nat)} (h : Acyclic g) {p : List Nat} (hp : p.IsChain (DEdge g)) : p.Nodup := by
  have h1 : p.IsChain (Relation.TransGen (DEdge g)) := hp.imp fun _ _ e => .single e
  refine (List.isChain_iff_pairwise.1 h1).imp ?_
  rintro a b e rfl
  exact h a e

/-- **C121, longest walks.** In a graph without circles, the same program with all weights one returns for every vertex the
number of vertices of the longest walk from it. -/
theorem C121_longest (g : List (List Nat)) (hg : ∀ x y, DEdge g x y → y < g.length) (hn : g.length < 2 ^ 31)
    (ha : Acyclic g) :
    ∃ out, collectMost g (List.replicate g.length 1) = ok out ∧ out.length = g.length ∧
      ∀ x (hx : x < out.length), (∃ p, IsWalkFrom g x p ∧ p.length = out[x]) ∧
        ∀ p, IsWalkFrom g x p → p.length ≤ out[x] := by
  obtain ⟨out, e, hl, h⟩ := C121_collect g (List.replicate g.length 1) hg hn (by simp)
  refine ⟨out, e, hl, fun x hx => ?_⟩
  have hlen : ∀ p, IsWalkFrom g x p → collected (fun v => (List.replicate g.length 1).getD v 0) p = p.length := by
    intro p hp
    rw [collected, ← List.toFinset_card_of_nodup (listWalk_nodup ha hp.2), Finset.card_eq_sum_ones]
    refine Finset.sum_congr rfl fun v hv => ?_
    have hv' : v < g.length := by
      rcases Relation.ReflTransGen.cases_tail (listWalk_reach p x hp v (by simpa using hv)) with rfl | ⟨b, -, hb⟩
      · omega
      · exact hg b v hb
    simp [List.getD_eq_getElem?_getD, hv']
  obtain ⟨⟨p, hp, ep⟩, hmax⟩ := h x hx
  exact ⟨⟨p, hp, by rw [← hlen p hp, ep]⟩, fun q hq => by rw [← hlen q hq]; exact hmax q hq⟩

/-- The edges of `0 → 1 → 3`, `0 → 3`, `2 → 0` go round no circle. -/
example : Acyclic [[3, 1], [3], [0], []] ∧
    collectMost [[3, 1], [3], [0], []] (List.replicate 4 1) = ok [3, 2, 4, 1] := by
  refine ⟨?_, by decide +kernel⟩
  have key : ∀ x y, DEdge [[3, 1], [3], [0], []] x y → [1, 2, 0, 3].getD x 9 < [1, 2, 0, 3].getD y 9 := by
    rintro x y ⟨a, ha, hy⟩
    rcases x with _ | _ | _ | _ | x
    all_goals simp at ha
    all_goals subst ha
    all_goals simp at hy
    · rcases hy with rfl | rfl <;> simp
    · subst hy; simp
    · subst hy; simp
  have tr : ∀ x y, Relation.TransGen (DEdge [[3, 1], [3], [0], []]) x y →
      [1, 2, 0, 3].getD x 9 < [1, 2, 0, 3].getD y 9 := by
    intro x y h
    induction h with
    | single h => exact key _ _ h
    | tail _ h ih => exact ih.trans (key _ _ h)
  exact fun x h => absurd (tr x x h) (by omega)

end Verif.Props
