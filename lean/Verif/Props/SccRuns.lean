import Verif.Spec.SccRuns
import Verif.Props.Tarjan
/-! C105: relations between the answers of `scc` for related digraphs. -/
namespace Verif.Props
open Model Spec Res Finset

variable {g g' : List (List Nat)} {cnt cnt' : Nat} {color color' : List Nat}

/-- What C21 says about a run that returned. -/
structure SccFacts (g : List (List Nat)) (cnt : Nat) (color : List Nat) : Prop where
  rng : ∀ x y, DEdge g x y → y < g.length
  len : color.length = g.length
  same : ∀ x y, x < g.length → y < g.length → (color[x]? = color[y]? ↔ DReach g x y ∧ DReach g y x)
  used : ∀ c, c < cnt ↔ c ∈ color

theorem sccFacts (h : scc g = ok (cnt, color)) : SccFacts g cnt color := by
  have hp : ¬(DLeaves g ∨ 2 ^ 31 ≤ g.length) := by
    rw [← C21_panics_iff, h]
    intro h; cases h
  have hg : ∀ x y, DEdge g x y → y < g.length := by
    intro x y hxy
    by_contra hc
    exact hp (.inl ⟨x, y, hxy, by omega⟩)
  obtain ⟨c, co, e, h1, h2, h3⟩ := C21_scc g hg (by omega)
  rw [h] at e
  cases e
  refine ⟨hg, h1, ?_, h3⟩
  intro x y hx hy
  rw [← h2 x y (by omega) (by omega), List.getElem?_eq_getElem (by omega), List.getElem?_eq_getElem (by omega)]
  simp

theorem SccFacts.col (h : SccFacts g cnt color) {x : Nat} (hx : x < g.length) : ∃ c < cnt, color[x]? = some c := by
  have : x < color.length := by rw [h.len]; exact hx
  exact ⟨color[x], (h.used _).2 (List.getElem_mem _), List.getElem?_eq_getElem _⟩

theorem SccFacts.pick (h : SccFacts g cnt color) {c : Nat} (hc : c < cnt) : ∃ x < g.length, color[x]? = some c := by
  obtain ⟨x, hx, e⟩ := List.getElem_of_mem ((h.used c).1 hc)
  exact ⟨x, by rw [← h.len]; exact hx, by rw [List.getElem?_eq_getElem hx, e]⟩

/-- When `f` sends vertices of different colours to vertices of different colours, there are no fewer colours. -/
theorem cnt_le (h : SccFacts g cnt color) (h' : SccFacts g' cnt' color') (f : Nat → Nat)
    (hf : ∀ x < g'.length, f x < g.length)
    (hs : ∀ x y, x < g'.length → y < g'.length → color[f x]? = color[f y]? → color'[x]? = color'[y]?) : cnt' ≤ cnt := by
  have e1 : ∀ c, ∃ x d, c < cnt' → x < g'.length ∧ color'[x]? = some c ∧ d < cnt ∧ color[f x]? = some d := by
    intro c
    by_cases hc : c < cnt'
    · obtain ⟨x, hx, a⟩ := h'.pick hc
      obtain ⟨d, hd, b⟩ := h.col (hf x hx)
      exact ⟨x, d, fun _ => ⟨hx, a, hd, b⟩⟩
    · exact ⟨0, 0, fun h => absurd h hc⟩
  choose r d e using e1
  have := card_le_card_of_injOn (s := range cnt') (t := range cnt) d
    (fun c hc => by simpa using (e c (by simpa using hc)).2.2.1) (by
    intro a ha b hb hab
    obtain ⟨a1, a2, _, a4⟩ := e a (by simpa using ha)
    obtain ⟨b1, b2, _, b4⟩ := e b (by simpa using hb)
    have := hs _ _ a1 b1 (by rw [a4, b4, hab])
    rw [a2, b2] at this
    exact Option.some.inj this)
  simpa using this

theorem same_of_reach (h : SccFacts g cnt color) (h' : SccFacts g' cnt' color') (hl : g'.length = g.length)
    (hr : ∀ x y, x < g.length → y < g.length →
      (DReach g x y ∧ DReach g y x ↔ DReach g' x y ∧ DReach g' y x)) :
    cnt' = cnt ∧ SameClasses g.length color color' := by
  have s : SameClasses g.length color color' := by
    intro x y hx hy
    rw [h.same x y hx hy, h'.same x y (by omega) (by omega)]
    exact hr x y hx hy
  refine ⟨Nat.le_antisymm (cnt_le h h' id (fun x hx => by simpa [hl] using hx) fun x y hx hy e => ?_)
    (cnt_le h' h id (fun x hx => by simpa [hl] using hx) fun x y hx hy e => ?_), s⟩
  · exact (s x y (by omega) (by omega)).1 e
  · exact (s x y hx hy).2 e

/-- C105: turning all edges round gives the same components. -/
theorem C105_reverse (ht : IsTurned g g') (h : scc g = ok (cnt, color)) (h' : scc g' = ok (cnt', color')) :
    cnt' = cnt ∧ SameClasses g.length color color' := by
  have key : ∀ {g g' : List (List Nat)}, (∀ x y, DEdge g' x y ↔ DEdge g y x) → ∀ {x y}, DReach g x y → DReach g' y x := by
    intro g g' he x y hxy
    induction hxy with
    | refl => exact .refl
    | tail _ e ih => exact .head ((he _ _).2 e) ih
  refine same_of_reach (sccFacts h) (sccFacts h') ht.len fun x y _ _ => ?_
  have k : ∀ {x y}, DReach g' x y → DReach g y x := key fun x y => (ht.edge y x).symm
  exact ⟨fun ⟨a, b⟩ => ⟨key ht.edge b, key ht.edge a⟩, fun ⟨a, b⟩ => ⟨k b, k a⟩⟩

/-- C105: components depend on the set of edges only through reachability. -/
theorem C105_reach (hl : g'.length = g.length)
    (hr : ∀ x y, x < g.length → y < g.length → (DReach g x y ↔ DReach g' x y))
    (h : scc g = ok (cnt, color)) (h' : scc g' = ok (cnt', color')) : cnt' = cnt ∧ SameClasses g.length color color' :=
  same_of_reach (sccFacts h) (sccFacts h') hl fun x y hx hy => and_congr (hr x y hx hy) (hr y x hy hx)

/-- C105: with more edges, components only grow together, and there are no more of them. -/
theorem C105_mono (hl : g'.length = g.length) (he : ∀ x y, DEdge g x y → DEdge g' x y)
    (h : scc g = ok (cnt, color)) (h' : scc g' = ok (cnt', color')) : cnt' ≤ cnt ∧
      ∀ x y, x < g.length → y < g.length → color[x]? = color[y]? → color'[x]? = color'[y]? := by
  have a := sccFacts h
  have b := sccFacts h'
  have s : ∀ x y, x < g.length → y < g.length → color[x]? = color[y]? → color'[x]? = color'[y]? := by
    intro x y hx hy e
    rw [a.same x y hx hy] at e
    rw [b.same x y (by omega) (by omega)]
    exact ⟨Relation.ReflTransGen.mono he _ _ e.1, Relation.ReflTransGen.mono he _ _ e.2⟩
  exact ⟨cnt_le a b id (fun x hx => by simpa [hl] using hx) fun x y hx hy => s x y (by omega) (by omega), s⟩

/-- C105: renaming the vertices renames the components. -/
theorem C105_relabel {f : Nat → Nat} (hl : g'.length = g.length) (hf : ∀ x < g.length, f x < g.length)
    (hi : ∀ x < g.length, ∀ y < g.length, f x = f y → x = y)
    (he : ∀ x y, x < g.length → y < g.length → (DEdge g' (f x) (f y) ↔ DEdge g x y))
    (h : scc g = ok (cnt, color)) (h' : scc g' = ok (cnt', color')) : cnt' = cnt ∧
      ∀ x y, x < g.length → y < g.length → (color[x]? = color[y]? ↔ color'[f x]? = color'[f y]?) := by
  have a := sccFacts h
  have b := sccFacts h'
  have src : ∀ {g : List (List Nat)} {x y : Nat}, DEdge g x y → x < g.length := by
    rintro g x y ⟨l, hl, _⟩
    exact (List.getElem?_eq_some_iff.1 hl).1
  have sur : ∀ z < g.length, ∃ x < g.length, f x = z := by
    have := surjOn_of_injOn_of_card_le (s := range g.length) (t := range g.length) f
      (fun x hx => by simpa using hf x (by simpa using hx))
      (fun x hx y hy => hi x (by simpa using hx) y (by simpa using hy)) (le_refl _)
    intro z hz
    obtain ⟨x, hx, e⟩ := this (by simpa using hz : z ∈ (range g.length : Set Nat))
    exact ⟨x, by simpa using hx, e⟩
  have fwd : ∀ {x y}, x < g.length → DReach g x y → DReach g' (f x) (f y) ∧ y < g.length := by
    intro x y hx hxy
    induction hxy with
    | refl => exact ⟨.refl, hx⟩
    | tail _ e ih => exact ⟨ih.1.tail ((he _ _ ih.2 (a.rng _ _ e)).2 e), a.rng _ _ e⟩
  have bwd : ∀ {x z}, x < g.length → DReach g' (f x) z → ∃ y < g.length, f y = z ∧ DReach g x y := by
    intro x z hx hxz
    induction hxz with
    | refl => exact ⟨x, hx, rfl, .refl⟩
    | tail _ e ih =>
      obtain ⟨y, hy, rfl, hr⟩ := ih
      obtain ⟨w, hw, rfl⟩ := sur _ (hl ▸ b.rng _ _ e)
      exact ⟨w, hw, rfl, hr.tail ((he _ _ hy hw).1 e)⟩
  have iff : ∀ x y, x < g.length → y < g.length → (DReach g x y ↔ DReach g' (f x) (f y)) := by
    intro x y hx hy
    refine ⟨fun h => (fwd hx h).1, fun h => ?_⟩
    obtain ⟨w, hw, e, hr⟩ := bwd hx h
    rwa [hi w hw y hy e] at hr
  have s : ∀ x y, x < g.length → y < g.length → (color[x]? = color[y]? ↔ color'[f x]? = color'[f y]?) := by
    intro x y hx hy
    rw [a.same x y hx hy, b.same _ _ (by rw [hl]; exact hf x hx) (by rw [hl]; exact hf y hy), iff x y hx hy, iff y x hy hx]
  refine ⟨Nat.le_antisymm ?_ (cnt_le b a f (fun x hx => by rw [hl]; exact hf x hx) fun x y hx hy => (s x y hx hy).2), s⟩
  choose! i hi1 hi2 using sur
  refine cnt_le a b i (fun x hx => hi1 x (by omega)) fun x y hx hy e => ?_
  have := (s _ _ (hi1 x (by omega)) (hi1 y (by omega))).1 e
  rwa [hi2 x (by omega), hi2 y (by omega)] at this

theorem added_reach {u v : Nat} (ha : IsAdded g g' u v) (x y : Nat) :
    DReach g' x y ↔ DReach g x y ∨ (DReach g x u ∧ DReach g v y) := by
  constructor
  · intro h
    induction h with
    | refl => exact .inl .refl
    | tail _ e ih =>
      rcases (ha.edge _ _).1 e with e | ⟨rfl, rfl⟩
      · exact ih.imp (fun h => h.tail e) fun h => ⟨h.1, h.2.tail e⟩
      · exact .inr ⟨ih.elim id fun h => h.1, .refl⟩
  · have m : ∀ {x y}, DReach g x y → DReach g' x y := 
      Relation.ReflTransGen.mono (fun _ _ e => (ha.edge _ _).2 (.inl e)) _ _
    rintro (h | ⟨h1, h2⟩)
    · exact m h
    · exact (m h1).trans (.head ((ha.edge _ _).2 (.inr ⟨rfl, rfl⟩)) (m h2))

/-- C105: adding the edge `u → v` joins exactly the components on walks from `v` to `u`. -/
theorem C105_add_edge {u v : Nat} (ha : IsAdded g g' u v) (h : scc g = ok (cnt, color))
    (h' : scc g' = ok (cnt', color')) : ∀ x y, x < g.length → y < g.length →
      (color'[x]? = color'[y]? ↔ color[x]? = color[y]? ∨
        ((DReach g v x ∧ DReach g x u) ∧ DReach g v y ∧ DReach g y u)) := by
  intro x y hx hy
  rw [(sccFacts h).same x y hx hy, (sccFacts h').same x y (by rw [ha.len]; exact hx) (by rw [ha.len]; exact hy),
    added_reach ha, added_reach ha]
  constructor
  · rintro ⟨a | ⟨a1, a2⟩, b | ⟨b1, b2⟩⟩
    · exact .inl ⟨a, b⟩
    · exact .inr ⟨⟨b2, a.trans b1⟩, b2.trans a, b1⟩
    · exact .inr ⟨⟨a2.trans b, a1⟩, a2, b.trans a1⟩
    · exact .inr ⟨⟨b2, a1⟩, a2, b1⟩
  · rintro (⟨a, b⟩ | ⟨⟨a, b⟩, c, d⟩)
    · exact ⟨.inl a, .inl b⟩
    · exact ⟨.inr ⟨b, c⟩, .inr ⟨d, a⟩⟩

/-- C105: an edge `u → v` leaves the number of components unchanged exactly when `v` does not reach `u`, or `u` and `v`
are in one component already. -/
theorem C105_add_edge_count {u v : Nat} (hu : u < g.length) (hv : v < g.length) (ha : IsAdded g g' u v)
    (h : scc g = ok (cnt, color)) (h' : scc g' = ok (cnt', color')) :
    cnt' = cnt ↔ (DReach g v u → color[u]? = color[v]?) := by
  have a := sccFacts h
  have b := sccFacts h'
  have s := C105_add_edge ha h h'
  have mono := C105_mono ha.len (fun x y e => (ha.edge x y).2 (.inl e)) h h'
  constructor
  · intro hc hvu
    have e' : color'[u]? = color'[v]? := (s u v hu hv).2 (.inr ⟨⟨hvu, .refl⟩, .refl, hvu⟩)
    by_contra hne
    -- the colours of `g`, followed by those of `g'`: onto, so one to one when the numbers agree
    have e1 : ∀ c, ∃ x d, c < cnt → x < g.length ∧ color[x]? = some c ∧ d < cnt' ∧ color'[x]? = some d := by
      intro c
      by_cases hc : c < cnt
      · obtain ⟨x, hx, p⟩ := a.pick hc
        obtain ⟨d, hd, q⟩ := b.col (x := x) (by rw [ha.len]; exact hx)
        exact ⟨x, d, fun _ => ⟨hx, p, hd, q⟩⟩
      · exact ⟨0, 0, fun h => absurd h hc⟩
    choose r d e using e1
    have sj : Set.SurjOn d (range cnt) (range cnt') := by
      intro c hc
      obtain ⟨x, hx, p⟩ := b.pick (c := c) (by simpa using hc)
      obtain ⟨c0, hc0, q⟩ := a.col (x := x) (by rw [← ha.len]; exact hx)
      obtain ⟨r1, r2, _, r4⟩ := e c0 hc0
      refine ⟨c0, by simpa using hc0, ?_⟩
      have := mono.2 _ _ r1 (by rw [← ha.len]; exact hx) (by rw [r2, q])
      rw [r4, p] at this
      exact Option.some.inj this
    have inj := injOn_of_surjOn_of_card_le d
      (fun c hc => by simpa using (e c (by simpa using hc)).2.2.1) sj (by simp [hc])
    obtain ⟨cu, hcu, pu⟩ := a.col hu
    obtain ⟨cv, hcv, pv⟩ := a.col hv
    obtain ⟨u1, u2, _, u4⟩ := e cu hcu
    obtain ⟨v1, v2, _, v4⟩ := e cv hcv
    have h1 := mono.2 _ _ u1 hu (by rw [u2, pu])
    have h2 := mono.2 _ _ v1 hv (by rw [v2, pv])
    rw [u4] at h1
    rw [v4] at h2
    have : d cu = d cv := Option.some.inj (by rw [h1, h2, e'])
    have := inj (by simpa using hcu) (by simpa using hcv) this
    rw [pu, pv, this] at hne
    exact hne rfl
  · intro hh
    refine Nat.le_antisymm mono.1 (cnt_le b a id (fun x hx => by rw [ha.len]; exact hx) fun x y hx hy e => ?_)
    rcases (s x y hx hy).1 e with e | ⟨⟨p, q⟩, r, t⟩
    · exact e
    · have huv := (a.same u v hu hv).1 (hh (p.trans q))
      exact (a.same x y hx hy).2 ⟨(q.trans huv.1).trans r, (t.trans huv.1).trans p⟩

/-- C105: the graph of the components: walks correspond, and running `scc` on it finds every vertex alone. -/
theorem C105_condensed (hc : IsCondensed g g' cnt color) (h : scc g = ok (cnt, color))
    (h' : scc g' = ok (cnt', color')) : cnt' = cnt ∧ color'.Nodup ∧
      ∀ (x y a b : Nat), color[x]? = some a → color[y]? = some b → (DReach g' a b ↔ DReach g x y) := by
  have f := sccFacts h
  have f' := sccFacts h'
  have lt : ∀ {x a : Nat}, color[x]? = some a → x < g.length := by
    intro x a e
    rw [← f.len]
    exact (List.getElem?_eq_some_iff.1 e).1
  have fwd : ∀ {a b : Nat}, DReach g' a b → ∀ x y : Nat, color[x]? = some a → color[y]? = some b → DReach g x y := by
    intro a b hab
    induction hab with
    | refl => intro x y p q; exact ((f.same x y (lt p) (lt q)).1 (by rw [p, q])).1
    | tail _ e ih =>
      intro x y p q
      obtain ⟨_, x', y', e', p', q'⟩ := (hc.edge _ _).1 e
      exact ((ih x x' p p').tail e').trans ((f.same y' y (lt q') (lt q)).1 (by rw [q', q])).1
  have bwd : ∀ {x y : Nat}, DReach g x y → ∀ a b : Nat, color[x]? = some a → color[y]? = some b → DReach g' a b := by
    intro x y hxy
    induction hxy with
    | refl => intro a b p q; rw [p] at q; cases q; exact .refl
    | @tail z w hz e ih =>
      intro a b p q
      have hzl : z < g.length := by
        obtain ⟨l, hl, _⟩ := e
        exact (List.getElem?_eq_some_iff.1 hl).1
      obtain ⟨c, _, r⟩ := f.col hzl
      by_cases hcb : c = b
      · exact hcb ▸ ih a c p r
      · exact (ih a c p r).tail ((hc.edge c b).2 ⟨hcb, z, w, e, r, q⟩)
  have one : ∀ a b, a < g'.length → b < g'.length → color'[a]? = color'[b]? → a = b := by
    intro a b ha hb e
    rw [f'.same a b ha hb] at e
    rw [hc.len] at ha hb
    obtain ⟨x, hx, p⟩ := f.pick ha
    obtain ⟨y, hy, q⟩ := f.pick hb
    have := (f.same x y hx hy).2 ⟨fwd e.1 x y p q, fwd e.2 y x q p⟩
    rw [p, q] at this
    exact Option.some.inj this
  have nd : color'.Nodup := by
    rw [List.nodup_iff_injective_get]
    intro i j e
    refine Fin.ext (one i j (by have := i.2; have := f'.len; omega) (by have := j.2; have := f'.len; omega) ?_)
    rw [List.getElem?_eq_getElem i.2, List.getElem?_eq_getElem j.2]
    exact congrArg some e
  refine ⟨?_, nd, fun x y a b p q => ⟨fun h => fwd h x y p q, fun h => bwd h a b p q⟩⟩
  have : color'.toFinset = range cnt' := by
    ext c
    rw [List.mem_toFinset, mem_range, f'.used]
  have := congrArg card this
  rw [List.toFinset_card_of_nodup nd, card_range, f'.len, hc.len] at this
  exact this.symm

/-! A cycle of three vertices with an edge to a further path of two. -/
def sccExample : List (List Nat) := [[1], [2], [0, 3], [4], []]

example : scc sccExample = ok (3, [2, 2, 2, 1, 0]) ∧ scc [[2], [0], [1], [2], [3]] = ok (3, [0, 0, 0, 1, 2]) ∧
    scc [[1], [2], [0, 3], [4], [3]] = ok (2, [1, 1, 1, 0, 0]) ∧ scc [[1], [2], [0, 3], [4], [1]] = ok (1, [0, 0, 0, 0, 0]) ∧
    scc [[], [0], [1]] = ok (3, [0, 1, 2]) := by decide +kernel

theorem dedge_iff (g : List (List Nat)) (x y : Nat) : DEdge g x y ↔ y ∈ g.getD x [] := by
  unfold DEdge
  rw [List.getD_eq_getElem?_getD]
  cases g[x]? <;> simp

/-- The turned graph, the graph with the edge 4 → 3, and the graph of the components. -/
example : IsTurned sccExample [[2], [0], [1], [2], [3]] ∧ IsAdded sccExample [[1], [2], [0, 3], [4], [3]] 4 3 ∧
    IsCondensed sccExample [[], [0], [1]] 3 [2, 2, 2, 1, 0] := by
  have big : ∀ {g : List (List Nat)} {x y : Nat}, DEdge g x y → x < g.length := by
    rintro g x y ⟨l, hl, _⟩
    exact (List.getElem?_eq_some_iff.1 hl).1
  refine ⟨⟨rfl, ?_⟩, ⟨rfl, ?_⟩, ⟨rfl, ?_⟩⟩
  · intro x y
    rw [dedge_iff, dedge_iff]
    match x, y with
    | 0, 0 | 0, 1 | 0, 2 | 0, 3 | 0, 4 | 1, 0 | 1, 1 | 1, 2 | 1, 3 | 1, 4 | 2, 0 | 2, 1 | 2, 2 | 2, 3 | 2, 4
    | 3, 0 | 3, 1 | 3, 2 | 3, 3 | 3, 4 | 4, 0 | 4, 1 | 4, 2 | 4, 3 | 4, 4 => decide
    | x + 5, y => rcases y with _ | _ | _ | _ | _ | y <;> simp [sccExample]
    | 0, y + 5 | 1, y + 5 | 2, y + 5 | 3, y + 5 | 4, y + 5 => simp [sccExample]
  · intro x y
    rw [dedge_iff, dedge_iff]
    rcases x with _ | _ | _ | _ | _ | x <;> simp [sccExample]
  · intro a b
    rw [dedge_iff]
    constructor
    · intro h
      match a, h with
      | 1, h => simp at h; subst h; exact ⟨by decide, 3, 4, (dedge_iff ..).2 (by decide), rfl, rfl⟩
      | 2, h => simp at h; subst h; exact ⟨by decide, 2, 3, (dedge_iff ..).2 (by decide), rfl, rfl⟩
    · rintro ⟨hne, x, y, e, p, q⟩
      have hx := big e
      rw [dedge_iff] at e
      match x, hx with
      | 0, _ | 1, _ | 2, _ | 3, _ | 4, _ =>
        simp [sccExample] at e
        try rcases e with rfl | rfl
        all_goals (simp at p q; subst p q; simp at hne ⊢)

end Verif.Props
