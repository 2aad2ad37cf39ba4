import Verif.Model.Tarjan
import Verif.Spec.Tarjan
import Verif.Prelude.GetD
import Verif.Prelude.Loop
import Verif.Prelude.SatOr
import Mathlib.Data.List.Nodup
import Mathlib.Algebra.Order.Ring.Int
/-! Tarjan's algorithm: the stack invariant. -/
namespace Verif.TarjanP
open Res Model Spec Relation

variable {g : List (List Nat)}

theorem edge_iff {x y : Nat} : DEdge g x y ↔ y ∈ g.getD x [] := by
  unfold DEdge
  rw [List.getD_eq_getElem?_getD]
  cases g[x]? <;> simp

/-- Visiting time, `-1` if not yet visited. -/
def ord (s : SCC) (x : Nat) : Int := s.order.getD x (-1)
/-- Low link. -/
def lw (s : SCC) (x : Nat) : Int := s.low.getD x 0
/-- `x` belongs to a finished component. -/
def InC (s : SCC) (x : Nat) : Prop := ∃ i, x ∈ s.component.getD i []

/-- The invariant between calls of `dfs`, with `G` the vertices whose calls are active. -/
structure Inv (g : List (List Nat)) (G : List Nat) (s : SCC) : Prop where
  lo : s.order.length = g.length
  ll : s.low.length = g.length
  lon : s.on_stack.length = g.length
  pos : s.pos = (s.order.countP (fun o => decide (o ≠ -1)) : Nat)
  ord : ∀ x, ord s x = -1 ∨ (0 ≤ ord s x ∧ ord s x < s.pos)
  ons : ∀ x, s.on_stack.getD x false = true ↔ x ∈ s.stack
  sorted : s.stack.Pairwise (fun x y => TarjanP.ord s x < TarjanP.ord s y)
  vis : ∀ x, TarjanP.ord s x ≠ -1 ↔ x ∈ s.stack ∨ InC s x
  disj : ∀ x ∈ s.stack, ¬ InC s x
  gst : ∀ x ∈ G, x ∈ s.stack
  black : ∀ x ∈ s.stack, x ∉ G → ∀ y, DEdge g x y → TarjanP.ord s y ≠ -1
  up : ∀ x ∈ s.stack, ∃ y ∈ G, TarjanP.ord s y ≤ TarjanP.ord s x ∧ DReach g x y
  gray : ∀ x ∈ G, ∀ y ∈ s.stack, TarjanP.ord s x ≤ TarjanP.ord s y → DReach g x y
  low : ∀ x ∈ s.stack, lw s x ≤ TarjanP.ord s x ∧
    ∃ y ∈ s.stack, TarjanP.ord s y = lw s x ∧ DReach g x y
  ne : ∀ i, i < s.component.length → s.component.getD i [] ≠ []
  scc : ∀ i x, x ∈ s.component.getD i [] → ∀ y, y ∈ s.component.getD i [] ↔
    DReach g x y ∧ DReach g y x
  topo : ∀ i x y, x ∈ s.component.getD i [] → DEdge g x y → ∃ j, j ≤ i ∧ y ∈ s.component.getD j []
  uniq : ∀ i j x, x ∈ s.component.getD i [] → x ∈ s.component.getD j [] → i = j

/-- What a call `dfs u` guarantees. -/
structure Post (g : List (List Nat)) (G : List Nat) (u : Nat) (s s' : SCC) : Prop where
  inv : Inv g G s'
  stk : ∃ l, s'.stack = s.stack ++ l ∧ (l ≠ [] → u ∈ l) ∧
    ∀ x ∈ l, ∀ y, DEdge g x y → y ∈ s.stack → lw s' u ≤ ord s y
  keep : ∀ x, ord s x ≠ -1 → ord s' x = ord s x ∧ lw s' x = lw s x
  self : ord s' u ≠ -1
  pos : s.pos ≤ s'.pos

theorem Inv.lt {G : List Nat} {s : SCC} (h : Inv g G s) {x : Nat} (hx : TarjanP.ord s x ≠ -1) :
    x < g.length := by
  rw [← h.lo]; exact lt_of_getD_ne hx

theorem Inv.closed {G : List Nat} {s : SCC} (h : Inv g G s) {x y : Nat} (hx : InC s x)
    (hr : DReach g x y) : InC s y := by
  induction hr with
  | refl => exact hx
  | tail _ he ih =>
    obtain ⟨i, hi⟩ := ih
    obtain ⟨j, _, hj⟩ := h.topo i _ _ hi he
    exact ⟨j, hj⟩

/-! ### Entering a vertex -/

/-- The state after the first five lines of `dfs u`. -/
def enter (s : SCC) (u : Nat) : SCC :=
  { s with order := s.order.set u s.pos, low := s.low.set u s.pos, pos := s.pos + 1,
           stack := s.stack ++ [u], on_stack := s.on_stack.set u true }

section
variable {G : List Nat} {s : SCC} {u : Nat}

theorem ord_enter (h : Inv g G s) (hu : u < g.length) (x : Nat) :
    ord (enter s u) x = if x = u then s.pos else ord s x :=
  getD_set (by rw [h.lo]; exact hu)

theorem lw_enter (h : Inv g G s) (hu : u < g.length) (x : Nat) :
    lw (enter s u) x = if x = u then s.pos else lw s x :=
  getD_set (by rw [h.ll]; exact hu)

theorem Inv.pos_nonneg (h : Inv g G s) : 0 ≤ s.pos := by rw [h.pos]; omega

theorem Inv.pos_lt (h : Inv g G s) (hu : u < g.length) (hw : TarjanP.ord s u = -1) :
    s.pos < g.length := by
  have hul : u < s.order.length := by rw [h.lo]; exact hu
  have h1 := countP_visit (a := 0) hul hw (by decide)
  have h2 : (s.order.set u 0).countP (fun o => decide (o ≠ -1)) ≤ (s.order.set u 0).length :=
    List.countP_le_length
  rw [List.length_set, h.lo] at h2
  have h3 := h.pos
  omega

theorem Inv.enter (h : Inv g G s) (hu : u < g.length) (hw : TarjanP.ord s u = -1)
    (hr : ∀ x ∈ G, DReach g x u) : Inv g (u :: G) (enter s u) := by
  have ho := ord_enter h hu
  have hl := lw_enter h hu
  have hp := h.pos_nonneg
  have hust : u ∉ s.stack := fun hm => (h.vis u).2 (.inl hm) hw
  have hne : ∀ x ∈ s.stack, x ≠ u := by rintro x hx rfl; exact hust hx
  have hposx : ∀ x ∈ s.stack, TarjanP.ord s x < s.pos := by
    intro x hx
    rcases h.ord x with e | e
    · exact absurd e ((h.vis x).2 (.inl hx))
    · exact e.2
  have hordst : ∀ x ∈ s.stack, TarjanP.ord (TarjanP.enter s u) x = TarjanP.ord s x := by
    intro x hx; rw [ho, if_neg (hne x hx)]
  have hmem : ∀ x, x ∈ (TarjanP.enter s u).stack ↔ x ∈ s.stack ∨ x = u := by
    intro x; simp [TarjanP.enter]
  have hordu : TarjanP.ord (TarjanP.enter s u) u = s.pos := by rw [ho, if_pos rfl]
  refine ⟨?_, ?_, ?_, ?_, ?_, ?_, ?_, ?_, ?_, ?_, ?_, ?_, ?_, ?_, h.ne, h.scc, h.topo, h.uniq⟩
  · simpa [TarjanP.enter] using h.lo
  · simpa [TarjanP.enter] using h.ll
  · simpa [TarjanP.enter] using h.lon
  · show s.pos + 1 = ((s.order.set u s.pos).countP _ : Nat)
    rw [countP_visit (by rw [h.lo]; exact hu) hw (by omega)]
    have := h.pos
    push_cast; omega
  · intro x
    rw [ho]
    show _ ∨ (_ ∧ _ < s.pos + 1)
    by_cases hx : x = u
    · simp [hx]; omega
    · simp only [hx, if_false]
      rcases h.ord x with e | e
      · exact .inl e
      · exact .inr ⟨e.1, by omega⟩
  · intro x
    show (s.on_stack.set u true).getD x false = true ↔ _
    rw [getD_set (by rw [h.lon]; exact hu), hmem]
    by_cases hx : x = u
    · simp [hx]
    · simp only [hx, if_false, or_false]; exact h.ons x
  · show (s.stack ++ [u]).Pairwise _
    rw [List.pairwise_append]
    refine ⟨?_, List.pairwise_singleton _ _, ?_⟩
    · refine h.sorted.imp_of_mem ?_
      intro x y hx hy hxy
      rw [hordst x hx, hordst y hy]; exact hxy
    · intro x hx y hy
      simp at hy; subst hy
      rw [hordst x hx, hordu]; exact hposx x hx
  · intro x
    rw [ho, hmem]
    by_cases hx : x = u
    · simp [hx]; omega
    · simp only [hx, if_false, or_false]; exact h.vis x
  · intro x hx
    rcases (hmem x).1 hx with hx | rfl
    · exact h.disj x hx
    · intro hc; exact (h.vis x).2 (.inr hc) hw
  · intro x hx
    rw [hmem]
    rcases List.mem_cons.1 hx with rfl | hx
    · exact .inr rfl
    · exact .inl (h.gst x hx)
  · intro x hx hxG y hy
    rcases (hmem x).1 hx with hx | rfl
    · rw [ho]
      by_cases hyu : y = u
      · simp [hyu]; omega
      · simp only [hyu, if_false]
        exact h.black x hx (fun h' => hxG (List.mem_cons_of_mem _ h')) y hy
    · simp at hxG
  · intro x hx
    rcases (hmem x).1 hx with hx | rfl
    · obtain ⟨y, hy, h1, h2⟩ := h.up x hx
      refine ⟨y, List.mem_cons_of_mem _ hy, ?_, h2⟩
      rw [hordst x hx, hordst y (h.gst y hy)]; exact h1
    · exact ⟨x, List.mem_cons_self .., le_refl _, .refl⟩
  · intro x hx y hy hxy
    rcases (hmem y).1 hy with hy2 | rfl
    · rcases List.mem_cons.1 hx with rfl | hx
      · have := hposx y hy2
        rw [hordu, hordst y hy2] at hxy; omega
      · rw [hordst y hy2, hordst x (h.gst x hx)] at hxy
        exact h.gray x hx y hy2 hxy
    · rcases List.mem_cons.1 hx with rfl | hx
      · exact .refl
      · exact hr x hx
  · intro x hx
    rcases (hmem x).1 hx with hx | rfl
    · obtain ⟨h1, y, hy, h2, h3⟩ := h.low x hx
      rw [hl, if_neg (hne x hx), hordst x hx]
      exact ⟨h1, y, (hmem y).2 (.inl hy), by rw [hordst y hy]; exact h2, h3⟩
    · rw [hl, if_pos rfl, hordu]
      exact ⟨le_refl _, x, hx, hordu, .refl⟩

/-! ### Updating a low link -/

theorem Inv.setLow (h : Inv g G s) {v : Nat} (hu : u ∈ s.stack) (hv : v ∈ s.stack)
    (he : DEdge g u v) : Inv g G { s with low := s.low.set u (min (lw s u) (lw s v)) } := by
  have hug : u < g.length := h.lt ((h.vis u).2 (.inl hu))
  have hl : ∀ x, lw { s with low := s.low.set u (min (lw s u) (lw s v)) } x =
      if x = u then min (lw s u) (lw s v) else lw s x := fun x => getD_set (by rw [h.ll]; exact hug)
  refine ⟨h.lo, by simpa using h.ll, h.lon, h.pos, h.ord, h.ons, h.sorted, h.vis, h.disj, h.gst,
    h.black, h.up, h.gray, ?_, h.ne, h.scc, h.topo, h.uniq⟩
  intro x hx
  rw [hl]
  by_cases hxu : x = u
  · subst hxu
    simp only [if_true]
    obtain ⟨h1, y, hy, h2, h3⟩ := h.low x hx
    obtain ⟨h1', y', hy', h2', h3'⟩ := h.low v hv
    refine ⟨by show _ ≤ TarjanP.ord s x; omega, ?_⟩
    rcases le_total (lw s x) (lw s v) with hle | hle
    · rw [min_eq_left hle]; exact ⟨y, hy, h2, h3⟩
    · rw [min_eq_right hle]; exact ⟨y', hy', h2', ReflTransGen.head he h3'⟩
  · simp only [hxu, if_false]
    exact h.low x hx

/-! ### Leaving a vertex -/

/-- What is known at the end of the loop of `dfs u` that started in state `s0`. -/
structure LoopEnd (g : List (List Nat)) (G : List Nat) (u : Nat) (s0 s : SCC) (l : List Nat)
    (dn : List Nat) : Prop where
  inv : Inv g (u :: G) s
  stk : s.stack = s0.stack ++ u :: l
  comp : ∀ x ∈ l, ∀ y, DEdge g x y → y ∈ s0.stack → lw s u ≤ ord s0 y
  keep : ∀ x, ord s0 x ≠ -1 → ord s x = ord s0 x ∧ lw s x = lw s0 x
  ordu : ord s u = s0.pos
  pos : s0.pos < s.pos
  done : ∀ v ∈ dn, ord s v ≠ -1 ∧ (v ∈ s0.stack → lw s u ≤ ord s0 v)

/-- The vertex stays on the stack. -/
theorem LoopEnd.stay {s0 : SCC} {l dn : List Nat} (h0 : Inv g G s0) (h : LoopEnd g G u s0 s l dn)
    (hdn : ∀ v, DEdge g u v → v ∈ dn) (hlow : lw s u ≠ ord s u) : Post g G u s0 s := by
  have hi := h.inv
  have hus : u ∈ s.stack := hi.gst u (List.mem_cons_self ..)
  have hlt : lw s u < ord s u := lt_of_le_of_ne (hi.low u hus).1 hlow
  refine ⟨⟨hi.lo, hi.ll, hi.lon, hi.pos, hi.ord, hi.ons, hi.sorted, hi.vis, hi.disj,
    fun x hx => hi.gst x (List.mem_cons_of_mem _ hx), ?_, ?_,
    fun x hx => hi.gray x (List.mem_cons_of_mem _ hx), hi.low, hi.ne, hi.scc, hi.topo, hi.uniq⟩,
    ⟨u :: l, h.stk, fun _ => List.mem_cons_self .., ?_⟩, h.keep, (hi.vis u).2 (.inl hus),
    le_of_lt h.pos⟩
  · intro x hx hxG y hy
    by_cases hxu : x = u
    · subst hxu; exact (h.done y (hdn y hy)).1
    · exact hi.black x hx (by simp [hxu, hxG]) y hy
  · intro x hx
    obtain ⟨y, hy, h1, h2⟩ := hi.up x hx
    rcases List.mem_cons.1 hy with rfl | hy
    · obtain ⟨-, z, hz, h3, h4⟩ := hi.low y hus
      obtain ⟨w, hw, h5, h6⟩ := hi.up z hz
      refine ⟨w, ?_, by omega, h2.trans (h4.trans h6)⟩
      rcases List.mem_cons.1 hw with rfl | hw
      · omega
      · exact hw
    · exact ⟨y, hy, h1, h2⟩
  · intro x hx y hy hys
    rcases List.mem_cons.1 hx with rfl | hx
    · exact (h.done y (hdn y hy)).2 hys
    · exact h.comp x hx y hy hys

/-- The facts about the component found at `u`. -/
theorem LoopEnd.suffix {s0 : SCC} {l dn : List Nat} (h0 : Inv g G s0)
    (h : LoopEnd g G u s0 s l dn)
    (hdn : ∀ v, DEdge g u v → v ∈ dn) (hlow : lw s u = ord s u) :
    (∀ x y, x ∈ u :: l → DEdge g x y → y ∈ u :: l ∨ InC s y) ∧
    (∀ x ∈ u :: l, ∀ y, y ∈ u :: l ↔ DReach g x y ∧ DReach g y x) := by
  have hi := h.inv
  have hnd : s.stack.Nodup := hi.sorted.imp fun h e => by subst e; omega
  rw [h.stk, List.nodup_append] at hnd
  have hdisj : ∀ x ∈ s0.stack, x ∉ u :: l := fun x hx hx' => hnd.2.2 x hx x hx' rfl
  have hmem : ∀ x, x ∈ s.stack ↔ x ∈ s0.stack ∨ x ∈ u :: l := by
    intro x; rw [h.stk, List.mem_append]
  have hbelow : ∀ y ∈ s0.stack, ¬ lw s u ≤ ord s0 y := by
    intro y hy hle
    rcases h0.ord y with e | e
    · exact (h0.vis y).2 (.inl hy) e
    · have := h.ordu; omega
  have hstep : ∀ x y, x ∈ u :: l → DEdge g x y → y ∈ u :: l ∨ InC s y := by
    intro x y hx he
    have hv : ord s y ≠ -1 ∧ y ∉ s0.stack := by
      rcases List.mem_cons.1 hx with rfl | hx'
      · have := h.done y (hdn y he)
        exact ⟨this.1, fun hy => hbelow y hy (this.2 hy)⟩
      · refine ⟨hi.black x ((hmem x).2 (.inr hx)) ?_ y he, fun hy => hbelow y hy (h.comp x hx' y he hy)⟩
        intro hc
        rcases List.mem_cons.1 hc with rfl | hc
        · exact (List.nodup_cons.1 hnd.2.1).1 hx'
        · exact hdisj x (h0.gst x hc) hx
    rcases (hi.vis y).1 hv.1 with hy | hy
    · rcases (hmem y).1 hy with hy | hy
      · exact absurd hy hv.2
      · exact .inl hy
    · exact .inr hy
  have hclosed : ∀ x y, x ∈ u :: l → DReach g x y → y ∈ u :: l ∨ InC s y := by
    intro x y hx hr
    induction hr with
    | refl => exact .inl hx
    | tail _ he ih =>
      rcases ih with ih | ih
      · exact hstep _ _ ih he
      · exact .inr (hi.closed ih (ReflTransGen.single he))
  have hsort := hi.sorted
  rw [h.stk, List.pairwise_append, List.pairwise_cons] at hsort
  have hfrom : ∀ x ∈ u :: l, DReach g u x := by
    intro x hx
    apply hi.gray u (List.mem_cons_self ..) x ((hmem x).2 (.inr hx))
    rcases List.mem_cons.1 hx with rfl | hx
    · exact le_refl _
    · exact le_of_lt (hsort.2.1.1 x hx)
  have hto : ∀ x ∈ u :: l, DReach g x u := by
    intro x hx
    obtain ⟨y, hy, -, hr⟩ := hi.up x ((hmem x).2 (.inr hx))
    rcases List.mem_cons.1 hy with rfl | hy
    · exact hr
    · have hys := h0.gst y hy
      rcases hclosed x y hx hr with h1 | h1
      · exact absurd h1 (hdisj y hys)
      · exact absurd h1 (hi.disj y ((hmem y).2 (.inl hys)))
  refine ⟨hstep, fun x hx y => ⟨fun hy => ⟨(hto x hx).trans (hfrom y hy), (hto y hy).trans (hfrom x hx)⟩,
    ?_⟩⟩
  rintro ⟨h1, h2⟩
  rcases hclosed x y hx h1 with hy | hy
  · exact hy
  · exact absurd (hi.closed hy h2) (hi.disj x ((hmem x).2 (.inr hx)))

theorem getD_snoc {α : Type} {C : List (List α)} {c : List α} {i : Nat} :
    (C ++ [c]).getD i [] = if i < C.length then C.getD i [] else if i = C.length then c else [] := by
  rw [List.getD_eq_getElem?_getD, List.getD_eq_getElem?_getD]
  by_cases h : i < C.length
  · rw [if_pos h, List.getElem?_append_left h]
  · rw [if_neg h, List.getElem?_append_right (by omega)]
    by_cases h' : i = C.length
    · simp [h']
    · rw [if_neg h', List.getElem?_eq_none (by simp; omega)]; rfl

/-- The vertex closes a component. -/
theorem LoopEnd.close {s0 s' : SCC} {l dn : List Nat} (h0 : Inv g G s0)
    (h : LoopEnd g G u s0 s l dn)
    (hdn : ∀ v, DEdge g u v → v ∈ dn) (hlow : lw s u = ord s u)
    (e1 : s'.stack = s0.stack) (e2 : s'.order = s.order) (e3 : s'.low = s.low) (e4 : s'.pos = s.pos)
    (e5 : s'.component = s.component ++ [(u :: l).reverse])
    (e6 : s'.on_stack.length = s.on_stack.length)
    (e7 : ∀ x, s'.on_stack.getD x false = true ↔ s.on_stack.getD x false = true ∧ x ∉ u :: l) :
    Post g G u s0 s' := by
  obtain ⟨hstep, hscc⟩ := h.suffix h0 hdn hlow
  have hi := h.inv
  have eo : ord s' = ord s := by funext x; unfold ord; rw [e2]
  have el : lw s' = lw s := by funext x; unfold lw; rw [e3]
  have hnd : s.stack.Nodup := hi.sorted.imp fun h e => by subst e; omega
  rw [h.stk, List.nodup_append] at hnd
  have hdisj : ∀ x ∈ s0.stack, x ∉ u :: l := fun x hx hx' => hnd.2.2 x hx x hx' rfl
  have hmem : ∀ x, x ∈ s.stack ↔ x ∈ s0.stack ∨ x ∈ u :: l := by
    intro x; rw [h.stk, List.mem_append]
  have hC : ∀ i x, x ∈ s'.component.getD i [] ↔ (x ∈ s.component.getD i []) ∨
      (i = s.component.length ∧ x ∈ u :: l) := by
    intro i x
    rw [e5, getD_snoc]
    by_cases h1 : i < s.component.length
    · rw [if_pos h1]
      have : i ≠ s.component.length := by omega
      simp [this]
    · rw [if_neg h1, getD_of_le (l := s.component) (by omega)]
      by_cases h2 : i = s.component.length
      · rw [if_pos h2]; simp [h2, or_comm]
      · simp [h2]
  have hIn : ∀ x, InC s' x ↔ InC s x ∨ x ∈ u :: l := by
    intro x
    constructor
    · rintro ⟨i, hi⟩
      rcases (hC i x).1 hi with hi | hi
      · exact .inl ⟨i, hi⟩
      · exact .inr hi.2
    · rintro (⟨i, hi⟩ | hx)
      · exact ⟨i, (hC i x).2 (.inl hi)⟩
      · exact ⟨_, (hC _ x).2 (.inr ⟨rfl, hx⟩)⟩
  have hlt : ∀ i x, x ∈ s.component.getD i [] → i < s.component.length := fun i x hx => mem_getD_lt hx
  have hsufC : ∀ x ∈ u :: l, ¬ InC s x := fun x hx => hi.disj x ((hmem x).2 (.inr hx))
  refine ⟨⟨by rw [e2]; exact hi.lo, by rw [e3]; exact hi.ll, by rw [e6]; exact hi.lon,
    by rw [e4, e2]; exact hi.pos, by rw [eo, e4]; exact hi.ord, ?_, ?_, ?_, ?_, ?_, ?_, ?_, ?_, ?_, ?_,
    ?_, ?_, ?_⟩, ⟨[], by simp [e1], by simp, by simp⟩, by rw [eo, el]; exact h.keep, ?_,
    by rw [e4]; exact le_of_lt h.pos⟩
  · intro x
    rw [e7, hi.ons, hmem, e1]
    constructor
    · rintro ⟨h1 | h1, h2⟩
      · exact h1
      · exact absurd h1 h2
    · exact fun hx => ⟨.inl hx, hdisj x hx⟩
  · rw [e1, eo]
    have := hi.sorted
    rw [h.stk] at this
    exact (List.pairwise_append.1 this).1
  · intro x
    rw [eo, hi.vis, hmem, hIn, e1, or_assoc, or_comm (b := InC s x)]
  · intro x hx
    rw [e1] at hx
    rw [hIn]
    rintro (hc | hc)
    · exact hi.disj x ((hmem x).2 (.inl hx)) hc
    · exact hdisj x hx hc
  · intro x hx; rw [e1]; exact h0.gst x hx
  · intro x hx hxG y hy
    rw [e1] at hx
    have := h0.black x hx hxG y hy
    rw [eo, (h.keep y this).1]; exact this
  · intro x hx
    rw [e1] at hx
    obtain ⟨y, hy, h1, h2⟩ := h0.up x hx
    refine ⟨y, hy, ?_, h2⟩
    rw [eo, (h.keep x ((h0.vis x).2 (.inl hx))).1, (h.keep y ((h0.vis y).2 (.inl (h0.gst y hy)))).1]
    exact h1
  · intro x hx y hy hxy
    rw [e1] at hy
    rw [eo, (h.keep y ((h0.vis y).2 (.inl hy))).1,
      (h.keep x ((h0.vis x).2 (.inl (h0.gst x hx)))).1] at hxy
    exact h0.gray x hx y hy hxy
  · intro x hx
    rw [e1] at hx ⊢
    obtain ⟨h1, y, hy, h2, h3⟩ := h0.low x hx
    have k := h.keep x ((h0.vis x).2 (.inl hx))
    rw [eo, el, k.1, k.2]
    exact ⟨h1, y, hy, by rw [(h.keep y ((h0.vis y).2 (.inl hy))).1]; exact h2, h3⟩
  · intro i hil
    rw [e5, List.length_append, List.length_singleton] at hil
    rw [e5, getD_snoc]
    by_cases h1 : i < s.component.length
    · rw [if_pos h1]; exact hi.ne i h1
    · rw [if_neg h1, if_pos (by omega)]; simp
  · intro i x hx y
    rw [hC]
    rcases (hC i x).1 hx with hx | ⟨rfl, hx2⟩
    · rw [hi.scc i x hx y]
      have := hlt i x hx
      constructor
      · rintro (h1 | ⟨rfl, -⟩)
        · exact h1
        · omega
      · exact .inl
    · rw [← hscc x hx2 y]
      constructor
      · rintro (h1 | h1)
        · have := hlt _ _ h1; omega
        · exact h1.2
      · exact fun h1 => .inr ⟨rfl, h1⟩
  · intro i x y hx he
    rcases (hC i x).1 hx with hx | ⟨rfl, hx2⟩
    · obtain ⟨j, hj, hy⟩ := hi.topo i x y hx he
      exact ⟨j, hj, (hC j y).2 (.inl hy)⟩
    · rcases hstep x y hx2 he with hy | ⟨j, hy⟩
      · exact ⟨_, le_refl _, (hC _ y).2 (.inr ⟨rfl, hy⟩)⟩
      · exact ⟨j, le_of_lt (hlt j y hy), (hC j y).2 (.inl hy)⟩
  · intro i j x hx hx'
    rcases (hC i x).1 hx with hx1 | ⟨rfl, hx1⟩ <;> rcases (hC j x).1 hx' with hx2 | ⟨rfl, hx2⟩
    · exact hi.uniq i j x hx1 hx2
    · exact absurd ⟨i, hx1⟩ (hsufC x hx2)
    · exact absurd ⟨j, hx2⟩ (hsufC x hx1)
    · rfl
  · rw [eo]; exact (hi.vis u).2 (.inl (hi.gst u (List.mem_cons_self ..)))

theorem popLoop_sat {A l : List Nat} {C : List (List Nat)} (hst : s.stack = A ++ u :: l)
    (hc : s.component = C ++ [[]]) (hnd : (u :: l).Nodup)
    (hlt : ∀ x ∈ u :: l, x < s.on_stack.length) :
    Sat (s.popLoop u) (fun s' => s'.stack = A ∧ s'.order = s.order ∧ s'.low = s.low ∧ s'.pos = s.pos ∧
      s'.component = C ++ [(u :: l).reverse] ∧ s'.on_stack.length = s.on_stack.length ∧
      ∀ x, s'.on_stack.getD x false = true ↔ s.on_stack.getD x false = true ∧ x ∉ u :: l) := by
  unfold SCC.popLoop
  refine loop_satG (σ := SCC) (fun s1 k => ∃ l1 l2, u :: l = u :: l1 ++ l2 ∧ k = l1.length ∧
    s1.stack = A ++ u :: l1 ∧ s1.order = s.order ∧ s1.low = s.low ∧ s1.pos = s.pos ∧
    s1.component = C ++ [l2.reverse] ∧ s1.on_stack.length = s.on_stack.length ∧
    ∀ x, s1.on_stack.getD x false = true ↔ s.on_stack.getD x false = true ∧ x ∉ l2) _
    ?_ _ _ l.length ⟨l, [], by simp, rfl, hst, rfl, rfl, rfl, by simpa using hc, rfl, by simp⟩ ?_
  · rintro s1 k ⟨l1, l2, hl, rfl, e1, e2, e3, e4, e5, e6, e7⟩
    rcases List.eq_nil_or_concat l1 with rfl | ⟨l1, v, rfl⟩
    · have hu : u < s1.on_stack.length := by rw [e6]; exact hlt u (by simp)
      simp only [e1, e5]
      have h1 : (A ++ [u]).getLast? = some u := by simp
      have h2 : (C ++ [l2.reverse]).getLast? = some l2.reverse := by simp
      rw [h1, h2, unwrap_some, ok_bind, upd_of_lt hu, ok_bind, unwrap_some, ok_bind, if_pos rfl, sat_ok]
      refine ⟨by simp, e2, e3, e4, ?_, by simpa using e6, ?_⟩
      · show _ = _; rw [hl]; simp
      · intro x
        show (s1.on_stack.set u false).getD x false = true ↔ _
        rw [getD_set hu, hl]
        by_cases hx : x = u
        · simp [hx]
        · simp only [hx, if_false, e7]; simp [hx]
    · rw [List.concat_eq_append] at hl e1 ⊢
      have hvm : v ∈ u :: l := by rw [hl]; simp
      have hv : v < s1.on_stack.length := by rw [e6]; exact hlt v hvm
      have huv : u ≠ v := by
        rintro rfl
        rw [hl] at hnd
        simp at hnd
      simp only [e1, e5]
      have h1 : (A ++ u :: (l1 ++ [v])).getLast? = some v := by
        rw [← List.cons_append, ← List.append_assoc, List.getLast?_concat]
      have h2 : (C ++ [l2.reverse]).getLast? = some l2.reverse := by simp
      rw [h1, h2, unwrap_some, ok_bind, upd_of_lt hv, ok_bind, unwrap_some, ok_bind, if_neg huv, sat_ok]
      refine ⟨l1.length, by simp, l1, v :: l2, by rw [hl]; simp, rfl, ?_, e2, e3, e4, ?_,
        by simpa using e6, ?_⟩
      · show (A ++ u :: (l1 ++ [v])).dropLast = _
        rw [← List.cons_append, ← List.append_assoc, List.dropLast_concat]
      · simp
      · intro x
        show (s1.on_stack.set v false).getD x false = true ↔ _
        rw [getD_set hv]
        by_cases hx : x = v
        · simp [hx]
        · simp only [hx, if_false, e7]; simp [hx]
  · rw [hst]; simp; omega

end

/-! ### `dfs` -/

/-- What makes the program panic. -/
def Bad (g : List (List Nat)) : Prop := DLeaves g ∨ 2 ^ 31 ≤ g.length

theorem dfs_satOr :
    ∀ (fuel u : Nat) (G : List Nat) (s : SCC), Inv g G s → u < g.length → ord s u = -1 →
    (∀ x ∈ G, DReach g x u) → (g.length : Int) < fuel + s.pos →
    SatOr (Bad g) (SCC.dfs fuel u g s) (fun s' => Post g G u s s' ∧ s'.pos < 2 ^ 31) := by
  intro fuel
  induction fuel with
  | zero =>
    intro u G s h hu hw _ hf
    have := h.pos_lt hu hw
    omega
  | succ fuel ih =>
    intro u G s0 h0 hu hw hr hf
    unfold SCC.dfs
    have hposlt := h0.pos_lt hu hw
    have hposnn := h0.pos_nonneg
    rw [upd_of_lt (by rw [h0.lo]; exact hu), ok_bind, upd_of_lt (by rw [h0.ll]; exact hu), ok_bind]
    by_cases hp31 : s0.pos + 1 < 2 ^ 31
    swap
    · have : ckI 32 (s0.pos + 1) = .panic := by
        unfold ckI
        rw [if_neg (by unfold InI; omega)]
      rw [this, panic_bind]
      exact satOr_panic (.inr (by omega))
    rw [ckI_of (by unfold InI; constructor <;> omega), ok_bind,
      upd_of_lt (by rw [h0.lon]; exact hu), ok_bind, idx_of_some (some_getD [] hu), ok_bind]
    refine satOr_bind ?_
    have hent := h0.enter hu hw hr
    refine (forList_satOrR (fun xs (s : SCC) => s.pos < 2 ^ 31 ∧ ∃ l dn, g.getD u [] = dn ++ xs ∧
      LoopEnd g G u s0 s l dn) (g.getD u []) (enter s0 u) ?_ ?_).mono ?_
    · have ho := ord_enter h0 hu
      have hl := lw_enter h0 hu
      refine ⟨hp31, [], [], rfl, hent, by simp [enter], by simp, ?_, by rw [ho, if_pos rfl], ?_, by simp⟩
      · intro x hx
        have : x ≠ u := by rintro rfl; exact hx hw
        rw [ho, hl, if_neg this, if_neg this]; exact ⟨rfl, rfl⟩
      · show s0.pos < s0.pos + 1; omega
    · rintro v xs s hv ⟨hs31, l, dn, hdn, hL⟩
      have hi := hL.inv
      have hev : DEdge g u v := edge_iff.2 hv
      by_cases hvg : v < g.length
      swap
      · rw [idx_panic (by rw [hi.lo]; omega), panic_bind]
        exact satOr_panic (.inl ⟨u, v, hev, by omega⟩)
      have hus : u ∈ s.stack := hi.gst u (List.mem_cons_self ..)
      have hou : ord s u ≠ -1 := (hi.vis u).2 (.inl hus)
      rw [idx_of_some (some_getD (-1) (by rw [hi.lo]; exact hvg)), ok_bind]
      refine satOr_bind ?_
      -- after the optional recursive call
      have key : SatOr (Bad g) (if s.order.getD v (-1) = -1 then SCC.dfs fuel v g s else ok s) (fun s1 => s1.pos < 2 ^ 31 ∧
          ∃ l1, Inv g (u :: G) s1 ∧ s1.stack = s0.stack ++ u :: l1 ∧
          (∀ x ∈ l1, ∀ y, DEdge g x y → y ∈ s0.stack →
            lw s1 u ≤ ord s0 y ∨ (v ∈ s1.stack ∧ lw s1 v ≤ ord s0 y)) ∧
          (∀ x, ord s0 x ≠ -1 → ord s1 x = ord s0 x ∧ lw s1 x = lw s0 x) ∧
          ord s1 u = s0.pos ∧ s0.pos < s1.pos ∧
          (∀ w ∈ dn, ord s1 w ≠ -1 ∧ (w ∈ s0.stack → lw s1 u ≤ ord s0 w)) ∧ ord s1 v ≠ -1) := by
        change SatOr (Bad g) (if ord s v = -1 then _ else _) _
        by_cases hvw : ord s v = -1
        · rw [if_pos hvw]
          refine (ih v (u :: G) s hi hvg hvw ?_ ?_).mono ?_
          · intro x hx
            rcases List.mem_cons.1 hx with rfl | hx
            · exact ReflTransGen.single hev
            · exact (hr x hx).tail hev
          · have := hL.pos
            push_cast at hf
            omega
          · rintro s1 ⟨hP, hP31⟩
            obtain ⟨l2, hs1, hl2, hc2⟩ := hP.stk
            have hku := hP.keep u hou
            have hks : ∀ x, ord s0 x ≠ -1 → ord s x ≠ -1 := by
              intro x hx; rw [(hL.keep x hx).1]; exact hx
            refine ⟨hP31, l ++ l2, hP.inv, by rw [hs1, hL.stk]; simp, ?_, ?_, by rw [hku.1]; exact hL.ordu,
              lt_of_lt_of_le hL.pos hP.pos, ?_, hP.self⟩
            · intro x hx y he hy
              rcases List.mem_append.1 hx with hx | hx
              · left; rw [hku.2]; exact hL.comp x hx y he hy
              · right
                refine ⟨?_, ?_⟩
                · rw [hs1]; exact List.mem_append_right _ (hl2 (List.ne_nil_of_mem hx))
                · have := hc2 x hx y he (by rw [hL.stk]; exact List.mem_append_left _ hy)
                  rw [(hL.keep y ((h0.vis y).2 (.inl hy))).1] at this
                  exact this
            · intro x hx
              have a := hL.keep x hx
              have b := hP.keep x (hks x hx)
              exact ⟨b.1.trans a.1, b.2.trans a.2⟩
            · intro w hw
              have a := hL.done w hw
              refine ⟨by rw [(hP.keep w a.1).1]; exact a.1, fun hws => ?_⟩
              rw [hku.2]; exact a.2 hws
        · rw [if_neg hvw, satOr_ok]
          exact ⟨hs31, l, hi, hL.stk, fun x hx y he hy => .inl (hL.comp x hx y he hy), hL.keep, hL.ordu, hL.pos,
            hL.done, hvw⟩
      refine key.mono ?_
      rintro s1 ⟨k31, l1, k1, k2, k3, k4, k5, k6, k7, k8⟩
      rw [idx_of_some (some_getD false (by rw [k1.lon]; exact hvg)), ok_bind]
      have hus1 : u ∈ s1.stack := k1.gst u (List.mem_cons_self ..)
      by_cases hvs : v ∈ s1.stack
      · rw [if_pos ((k1.ons v).2 hvs), idx_of_some (some_getD 0 (by rw [k1.ll]; exact hu)), ok_bind,
          idx_of_some (some_getD 0 (by rw [k1.ll]; exact hvg)), ok_bind,
          upd_of_lt (by rw [k1.ll]; exact hu), ok_bind, satOr_ok]
        have hl' : ∀ x, lw { s1 with low := s1.low.set u (min (lw s1 u) (lw s1 v)) } x =
          if x = u then min (lw s1 u) (lw s1 v) else lw s1 x :=
          fun x => getD_set (by rw [k1.ll]; exact hu)
        refine ⟨k31, l1, dn ++ [v], by rw [hdn]; simp, k1.setLow hus1 hvs hev, k2, ?_, ?_, k5, k6, ?_⟩
        · intro x hx y he hy
          have e := hl' u
          rw [if_pos rfl] at e
          show lw { s1 with low := s1.low.set u (min (lw s1 u) (lw s1 v)) } u ≤ _
          rw [e]
          rcases k3 x hx y he hy with h | h
          · omega
          · have := h.2; omega
        · intro x hx
          have hxu : x ≠ u := by rintro rfl; exact hx hw
          refine ⟨(k4 x hx).1, ?_⟩
          exact (hl' x).trans (by rw [if_neg hxu]; exact (k4 x hx).2)
        · intro w hw'
          have e := hl' u
          rw [if_pos rfl] at e
          show ord s1 w ≠ -1 ∧ (w ∈ s0.stack →
            lw { s1 with low := s1.low.set u (min (lw s1 u) (lw s1 v)) } u ≤ ord s0 w)
          rw [e]
          rcases List.mem_append.1 hw' with hw' | hw'
          · refine ⟨(k7 w hw').1, fun hws => ?_⟩
            have := (k7 w hw').2 hws; omega
          · simp at hw'; subst hw'
            refine ⟨k8, fun hws => ?_⟩
            have h1 := (k1.low w hvs).1
            rw [(k4 w ((h0.vis w).2 (.inl hws))).1] at h1
            omega
      · have hb : ¬ s1.on_stack.getD v false = true := fun h => hvs ((k1.ons v).1 h)
        rw [if_neg hb, satOr_ok]
        refine ⟨k31, l1, dn ++ [v], by rw [hdn]; simp, k1, k2, ?_, k4, k5, k6, ?_⟩
        · intro x hx y he hy
          rcases k3 x hx y he hy with h | h
          · exact h
          · exact absurd h.1 hvs
        · intro w hw'
          rcases List.mem_append.1 hw' with hw' | hw'
          · exact k7 w hw'
          · simp at hw'; subst hw'
            refine ⟨k8, fun hws => ?_⟩
            exact absurd (by rw [k2]; exact List.mem_append_left _ hws) hvs
    · rintro s ⟨hs31, l, dn, hdn, hL⟩
      rw [List.append_nil] at hdn
      have hi := hL.inv
      have hall : ∀ v, DEdge g u v → v ∈ dn := fun v hv => hdn ▸ edge_iff.1 hv
      rw [idx_of_some (some_getD 0 (by rw [hi.ll]; exact hu)), ok_bind,
        idx_of_some (some_getD (-1) (by rw [hi.lo]; exact hu)), ok_bind]
      change SatOr (Bad g) (if lw s u = ord s u then _ else _) _
      by_cases hlow : lw s u = ord s u
      · rw [if_pos hlow]
        have hnd : s.stack.Nodup := hi.sorted.imp fun h e => by subst e; omega
        rw [hL.stk, List.nodup_append] at hnd
        refine (Sat.toOr (popLoop_sat (s := { s with component := s.component ++ [[]] }) (A := s0.stack) (l := l)
          hL.stk rfl hnd.2.1 ?_)).mono ?_
        · intro x hx
          show x < s.on_stack.length
          rw [hi.lon]
          exact hi.lt ((hi.vis x).2 (.inl (by rw [hL.stk]; exact List.mem_append_right _ hx)))
        · rintro s' ⟨e1, e2, e3, e4, e5, e6, e7⟩
          exact ⟨hL.close h0 hall hlow e1 e2 e3 e4 e5 e6 e7, by rw [e4]; exact hs31⟩
      · rw [if_neg hlow, satOr_ok]
        exact ⟨hL.stay h0 hall hlow, hs31⟩

/-! ### `scc` -/

theorem inv_new (g : List (List Nat)) : Inv g [] (SCC.new g.length) := by
  have ho : ∀ x, ord (SCC.new g.length) x = -1 := fun x => getD_replicate
  have hI : ∀ x, ¬ InC (SCC.new g.length) x := by
    rintro x ⟨i, hi⟩; simp [SCC.new] at hi
  refine ⟨by simp [SCC.new], by simp [SCC.new], by simp [SCC.new], ?_, fun x => .inl (ho x), ?_, ?_, ?_,
    ?_, ?_, ?_, ?_, ?_, ?_, ?_, ?_, ?_, ?_⟩
  · simp [SCC.new, List.countP_replicate]
  · intro x
    show (List.replicate g.length false).getD x false = true ↔ _
    rw [getD_replicate]; simp [SCC.new]
  · simp [SCC.new]
  · intro x; rw [ho]; simp [SCC.new]; simpa [SCC.new] using hI x
  all_goals simp [SCC.new]

/-- The components written into the colour table. -/
theorem color_sat {n : Nat} (C : List (List Nat)) (hlt : ∀ i, ∀ x ∈ C.getD i [], x < n)
    (hu : ∀ i j x, x ∈ C.getD i [] → x ∈ C.getD j [] → i = j) :
    Sat (forList C.zipIdx (List.replicate n 0) fun (v, i) color =>
      forList v color fun x color => upd color x i) (fun color => color.length = n ∧
        ∀ i, ∀ x ∈ C.getD i [], color[x]? = some i) := by
  refine (forList_satR (fun xs (color : List Nat) => color.length = n ∧
    ∃ k, xs = (C.drop k).zipIdx k ∧ ∀ i, i < k → ∀ x ∈ C.getD i [], color[x]? = some i)
    _ _ ⟨by simp, 0, by simp, by omega⟩ ?_).mono ?_
  · rintro ⟨v, i⟩ xs color - ⟨hlen, k, hk, hcol⟩
    have hkl : k < C.length := by
      apply Nat.lt_of_not_le
      intro hle
      rw [List.drop_of_length_le hle] at hk; simp at hk
    rw [List.drop_eq_getElem_cons hkl, List.zipIdx_cons, List.cons.injEq, Prod.mk.injEq] at hk
    obtain ⟨⟨hv, rfl⟩, hxs⟩ := hk
    have hvg : v = C.getD i [] := by rw [hv, List.getD_eq_getElem?_getD]; simp [hkl]
    show Sat (forList v color fun x color => upd color x i) _
    refine (forList_satR (fun ys (color : List Nat) => color.length = n ∧
      (∃ dn, v = dn ++ ys ∧ ∀ x ∈ dn, color[x]? = some i) ∧
      ∀ j, j < i → ∀ x ∈ C.getD j [], color[x]? = some j) v color
      ⟨hlen, ⟨[], rfl, by simp⟩, hcol⟩ ?_).mono ?_
    · rintro x ys color hx ⟨hlen, ⟨dn, hdn, h1⟩, h2⟩
      have hxi : x ∈ C.getD i [] := hvg ▸ hx
      have hxl : x < color.length := by rw [hlen]; exact hlt i x hxi
      rw [upd_of_lt hxl, sat_ok]
      have hset : ∀ y, (color.set x i)[y]? = if x = y then some i else color[y]? := by
        intro y; rw [List.getElem?_set]; by_cases e : x = y
        · subst e; simp [hxl]
        · simp [e]
      refine ⟨by simpa using hlen, ⟨dn ++ [x], by rw [hdn]; simp, ?_⟩, ?_⟩
      · intro y hy
        rw [hset]
        split
        · rfl
        · rcases List.mem_append.1 hy with hy | hy
          · exact h1 y hy
          · simp at hy; rename_i e; exact absurd hy.symm e
      · intro j hj y hy
        rw [hset, if_neg]
        · exact h2 j hj y hy
        · rintro rfl
          have := hu i j x hxi hy; omega
    · rintro color ⟨hlen, ⟨dn, hdn, h1⟩, h2⟩
      rw [List.append_nil] at hdn
      refine ⟨hlen, i + 1, hxs, ?_⟩
      intro j hj x hx
      rcases Nat.lt_succ_iff_lt_or_eq.1 hj with hj | rfl
      · exact h2 j hj x hx
      · exact h1 x (by rw [← hdn, hvg]; exact hx)
  · rintro color ⟨hlen, k, hk, hcol⟩
    refine ⟨hlen, fun i x hx => hcol i ?_ x hx⟩
    have hil := mem_getD_lt hx
    have : C.length ≤ k := by
      have := congrArg List.length hk
      simp at this; omega
    omega

theorem scc_satOr :
    SatOr (Bad g) (scc g) (fun o => g.length < 2 ^ 31 ∧ o.2.length = g.length ∧ ∃ C : List (List Nat), o.1 = C.length ∧
      (∀ i, i < C.length → C.getD i [] ≠ []) ∧
      (∀ i, ∀ x ∈ C.getD i [], x < g.length ∧ o.2[x]? = some i) ∧
      (∀ x, x < g.length → ∃ i, x ∈ C.getD i []) ∧
      (∀ i x, x ∈ C.getD i [] → ∀ y, y ∈ C.getD i [] ↔ DReach g x y ∧ DReach g y x) ∧
      (∀ i x y, x ∈ C.getD i [] → DEdge g x y → ∃ j, j ≤ i ∧ y ∈ C.getD j [])) := by
  unfold scc
  refine satOr_bind ?_
  refine (forRange_satOr (fun i (s : SCC) => (Inv g [] s ∧ s.pos < 2 ^ 31) ∧ ∀ x, x < i → ord s x ≠ -1) (Nat.zero_le _)
    ⟨⟨inv_new g, by simp [SCC.new]⟩, by omega⟩ ?_).mono ?_
  · rintro i s _ hi ⟨⟨h, h31⟩, hv⟩
    rw [idx_of_some (some_getD (-1) (by rw [h.lo]; exact hi)), ok_bind]
    change SatOr (Bad g) (if ord s i = -1 then _ else _) _
    by_cases hw : ord s i = -1
    · rw [if_pos hw]
      refine (dfs_satOr _ i [] s h hi hw (by simp) ?_).mono ?_
      · have := h.pos_nonneg; push_cast; omega
      · rintro s' ⟨hP, hP31⟩
        refine ⟨⟨hP.inv, hP31⟩, fun x hx => ?_⟩
        rcases Nat.lt_succ_iff_lt_or_eq.1 hx with hx | rfl
        · rw [(hP.keep x (hv x hx)).1]; exact hv x hx
        · exact hP.self
    · rw [if_neg hw, satOr_ok]
      refine ⟨⟨h, h31⟩, fun x hx => ?_⟩
      rcases Nat.lt_succ_iff_lt_or_eq.1 hx with hx | rfl
      · exact hv x hx
      · exact hw
  · rintro s ⟨⟨h, h31⟩, hv⟩
    have hempty : ∀ x, x ∉ s.stack := by
      intro x hx
      obtain ⟨y, hy, -⟩ := h.up x hx
      simp at hy
    have hlt : ∀ i, ∀ x ∈ s.component.getD i [], x < g.length :=
      fun i x hx => h.lt ((h.vis x).2 (.inr ⟨i, hx⟩))
    refine satOr_bind ((Sat.toOr (color_sat s.component hlt h.uniq)).mono ?_)
    rintro color ⟨hlen, hcol⟩
    rw [satOr_ok]
    refine ⟨?_, hlen, s.component, rfl, h.ne, fun i x hx => ⟨hlt i x hx, hcol i x hx⟩, ?_, h.scc, h.topo⟩
    · have hc : s.order.countP (fun o => decide (o ≠ -1)) = s.order.length := by
        rw [List.countP_eq_length]
        intro o ho
        obtain ⟨x, hx, rfl⟩ := List.mem_iff_getElem.1 ho
        have := hv x (by rw [← h.lo]; exact hx)
        unfold ord at this
        rw [List.getD_eq_getElem?_getD, List.getElem?_eq_getElem hx] at this
        simpa using this
      have := h.pos
      rw [hc, h.lo] at this
      omega
    intro x hx
    rcases (h.vis x).1 (hv x hx) with hx | hx
    · exact absurd hx (hempty x)
    · exact hx

theorem scc_sat (hg : ∀ x y, DEdge g x y → y < g.length) (hn : g.length < 2 ^ 31) :
    Sat (scc g) (fun o => o.2.length = g.length ∧ ∃ C : List (List Nat), o.1 = C.length ∧
      (∀ i, i < C.length → C.getD i [] ≠ []) ∧
      (∀ i, ∀ x ∈ C.getD i [], x < g.length ∧ o.2[x]? = some i) ∧
      (∀ x, x < g.length → ∃ i, x ∈ C.getD i []) ∧
      (∀ i x, x ∈ C.getD i [] → ∀ y, y ∈ C.getD i [] ↔ DReach g x y ∧ DReach g y x) ∧
      (∀ i x y, x ∈ C.getD i [] → DEdge g x y → ∃ j, j ≤ i ∧ y ∈ C.getD j [])) := by
  refine (scc_satOr.sat ?_).mono fun o h => h.2
  rintro (⟨x, y, he, hy⟩ | h)
  · exact absurd (hg x y he) (by omega)
  · omega

theorem scc_panic (h : Bad g) : scc g = .panic := by
  refine scc_satOr.panic ?_
  rintro o ⟨h31, -, C, -, -, hcol, hall, -, htopo⟩
  rcases h with ⟨x, y, he, hy⟩ | h
  · have hx : x < g.length := by
      obtain ⟨a, ha, -⟩ := he
      exact (List.getElem?_eq_some_iff.1 ha).1
    obtain ⟨i, hi⟩ := hall x hx
    obtain ⟨j, -, hj⟩ := htopo i x y hi he
    have := (hcol j y hj).1
    omega
  · omega

end Verif.TarjanP
