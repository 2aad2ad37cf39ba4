import Mathlib.Algebra.BigOperators.Group.List.Basic
import Verif.Proof.HLDChain
import Verif.Proof.LazyRange
import Verif.Spec.HLD
/-! The operations of the heavy-light decomposition. -/
namespace Verif.HLDP
open Res Model Spec TreeP

/-! ### Node values in position order -/
section
variable {S : Type} [Monoid S]

/-- The segment tree contents: the node values in position order. -/
def D (ord : List Nat) (a : List S) : List S := ord.map fun x => a.getD x 1

theorem getD_eq_of_lt {a : List S} {x : Nat} (h : x < a.length) : a.getD x 1 = a[x] := by
  rw [List.getD_eq_getElem?_getD]; simp [h]

theorem D_set {ord : List Nat} {a : List S} (hn : ord.Nodup) {i u : Nat} (hi : ord[i]? = some u)
    (hu : u < a.length) (x : S) : (D ord a).set i x = D ord (a.set u x) := by
  apply List.ext_getElem?
  intro j
  obtain ⟨hil, hie⟩ := List.getElem?_eq_some_iff.1 hi
  rw [List.getElem?_set]
  by_cases e : i = j
  · subst e
    rw [if_pos rfl, if_pos (by simpa [D] using hil)]
    simp [D, hi, hu, List.getD_eq_getElem?_getD, -List.getElem?_eq_getElem]
  · rw [if_neg e]
    simp only [D, List.getElem?_map]
    cases hj : ord[j]? with
    | none => rfl
    | some y =>
      obtain ⟨hjl, hje⟩ := List.getElem?_eq_some_iff.1 hj
      have : u ≠ y := by
        rintro rfl
        exact e ((List.Nodup.getElem_inj_iff hn).1 (hie.trans hje.symm))
      simp [List.getD_eq_getElem?_getD, List.getElem?_set, this]

theorem mem_seg {ord : List Nat} (hn : ord.Nodup) {i y l r : Nat} (hi : ord[i]? = some y) :
    y ∈ (ord.take r).drop l ↔ l ≤ i ∧ i < r := by
  obtain ⟨hil, hie⟩ := List.getElem?_eq_some_iff.1 hi
  rw [List.mem_iff_getElem?]
  constructor
  · rintro ⟨j, hj⟩
    rw [List.getElem?_drop, List.getElem?_take] at hj
    split at hj
    · obtain ⟨hjl, hje⟩ := List.getElem?_eq_some_iff.1 hj
      have := (List.Nodup.getElem_inj_iff hn).1 (hie.trans hje.symm)
      omega
    · simp at hj
  · rintro ⟨h1, h2⟩
    refine ⟨i - l, ?_⟩
    rw [List.getElem?_drop, List.getElem?_take, show l + (i - l) = i by omega, if_pos h2, hi]

theorem D_map {ord : List Nat} {a : List S} (hn : ord.Nodup) (hlt : ∀ x ∈ ord, x < a.length)
    (f : S → S) (l r : Nat) :
    mapRange f (D ord a) l r = D ord (mapNodes f a ((ord.take r).drop l)) := by
  apply List.ext_getElem?
  intro i
  simp only [mapRange, D, List.getElem?_mapIdx, List.getElem?_map]
  cases hi : ord[i]? with
  | none => rfl
  | some y =>
    have hy := hlt y (List.mem_of_getElem? hi)
    simp only [Option.map_some, mem_seg hn hi, mapNodes, List.getD_eq_getElem?_getD,
      List.getElem?_mapIdx, List.getElem?_eq_getElem hy, Option.getD_some]

theorem D_prod (ord : List Nat) (a : List S) (l r : Nat) :
    rangeProd (D ord a) l r = nodeProd a ((ord.take r).drop l) := by
  simp [rangeProd, D, nodeProd, List.map_drop, List.map_take]

theorem mapNodes_append {f : S → S} {a : List S} {p q : List Nat} (h : ∀ x ∈ p, x ∉ q) :
    mapNodes f (mapNodes f a p) q = mapNodes f a (p ++ q) := by
  apply List.ext_getElem?
  intro i
  simp only [mapNodes, List.getElem?_mapIdx, List.mem_append, Option.map_map]
  cases a[i]? with
  | none => rfl
  | some x =>
    simp only [Option.map_some, Function.comp]
    by_cases h1 : i ∈ p
    · simp [h1, h i h1]
    · simp [h1]

theorem mapNodes_nil {f : S → S} {a : List S} : mapNodes f a [] = a := by
  apply List.ext_getElem?; intro i; simp [mapNodes]

theorem mapNodes_congr {f : S → S} {a : List S} {p q : List Nat} (h : ∀ x, x ∈ p ↔ x ∈ q) :
    mapNodes f a p = mapNodes f a q := by
  simp [mapNodes, h]

theorem mapNodes_length {f : S → S} {a : List S} {p : List Nat} :
    (mapNodes f a p).length = a.length := by
  simp [mapNodes]

theorem nodeProd_append {a : List S} {p q : List Nat} :
    nodeProd a (p ++ q) = nodeProd a p * nodeProd a q := by
  simp [nodeProd]

end

/-! ### Path rounds -/
section
variable {g : List (List Nat)} {root : Nat} {t : HArr} {c : Forest}

theorem _root_.Verif.Spec.IsPath.rev (T : IsTree g) {u v : Nat} {p : List Nat}
    (h : IsPath g u v p) : IsPath g v u p.reverse := by
  refine ⟨?_, ?_, ?_, List.nodup_reverse.2 h.nodup⟩
  · rw [List.head?_reverse]; exact h.last
  · rw [List.getLast?_reverse]; exact h.head
  · rw [List.isChain_reverse]
    exact h.chain.imp fun a b hab => T.symm _ _ hab

/-- The pair of nodes a round works on. -/
def pick (b : Prop) [Decidable b] (u v : Nat) : Nat × Nat := if b then (v, u) else (u, v)

/-- One step along a path in the order in which the loops visit: an edge climbed is light, an edge descended is
heavy. -/
def InOrder (g : List (List Nat)) (root : Nat) (t : HArr) (x y : Nat) : Prop :=
  (Ancestor g root y x → Hd t x = x) ∧ (Ancestor g root x y → Hd t y ≠ y)

/-- A stretch of a chain, from the top. -/
def Down (g : List (List Nat)) (root : Nat) (t : HArr) (x y : Nat) : Prop :=
  Ancestor g root x y ∧ ¬ Ancestor g root y x ∧ Hd t y ≠ y

theorem seg_down (T : IsTree g) (hr : root < g.length) (H : HOk g root t c) {x y : Nat} (hx : x < g.length)
    (hy : y < g.length) (hyx : rpath g root y <+: rpath g root x)
    (hhy : rpath g root (Hd t x) <+: rpath g root y) :
    ((rpath g root x).drop ((rpath g root y).length - 1)).IsChain (Down g root t) := by
  rw [List.isChain_iff_getElem]
  intro i hi
  rw [List.length_drop] at hi
  obtain ⟨a1, a2, a3, a4⟩ := H.head_spec T hr _ x hx rfl
  have l1 := hhy.length_le
  have l2 := rpath_pos T hr a1
  have el : ∀ k (hk : k < (rpath g root x).length), (rpath g root x)[k] < g.length ∧
      rpath g root (rpath g root x)[k] = (rpath g root x).take (k + 1) := by
    intro k hk
    refine ⟨(rpath_path T hr hx).lt T hr _ (List.getElem_mem hk), ?_⟩
    rw [rpath_split T hr hx (A := (rpath g root x).take k) (B := (rpath g root x).drop (k + 1)) (by
      rw [← List.drop_eq_getElem_cons, List.take_append_drop])]
    rw [List.take_succ_eq_append_getElem hk]
  simp only [List.getElem_drop]
  obtain ⟨e1, e2⟩ := el ((rpath g root y).length - 1 + i) (by omega)
  obtain ⟨f1, f2⟩ := el ((rpath g root y).length - 1 + (i + 1)) (by omega)
  refine ⟨?_, ?_, ?_⟩
  · rw [anc_iff T hr e1 f1, e2, f2]
    exact List.take_prefix_take_left (by omega)
  · rw [anc_iff T hr f1 e1, e2, f2]
    intro h
    have := h.length_le
    rw [List.length_take, List.length_take] at this
    omega
  · have h2 : rpath g root (rpath g root x)[(rpath g root y).length - 1 + (i + 1)] <+: rpath g root x := by
      rw [f2]; exact List.take_prefix _ _
    have h1 := a4 _ f1 (List.prefix_of_prefix_length_le a3 h2 (by rw [f2, List.length_take]; omega)) h2
    rw [h1.1]
    intro h
    have h3 := congrArg (fun z => (rpath g root z).length) h
    simp only [f2, List.length_take] at h3
    omega

theorem down_not_rev {s p : List Nat} (hs : s.IsChain (Down g root t)) (hl : 2 ≤ s.length) :
    ¬ (s.reverse ++ p).IsChain (InOrder g root t) ∧ ¬ s <+: s.reverse ++ p := by
  obtain ⟨a, b, r, rfl⟩ : ∃ a b r, s = a :: b :: r := by
    match s, hl with
    | a :: b :: r, _ => exact ⟨a, b, r, rfl⟩
  have hab : Down g root t a b := (List.isChain_cons_cons.1 hs).1
  constructor
  · intro h
    have h1 := List.IsChain.left_of_append h
    rw [List.isChain_reverse] at h1
    exact hab.2.2 ((List.isChain_cons_cons.1 h1).1.1 hab.1)
  · intro h
    have h1 : a :: b :: r = (a :: b :: r).reverse :=
      (List.prefix_of_prefix_length_le h (List.prefix_append _ _) (by simp)).eq_of_length (by simp)
    rw [h1, List.isChain_reverse] at hs
    exact hab.2.1 (List.isChain_cons_cons.1 hs).1.1

/-- What one round does to the order: it either keeps it, or it is lost for good. -/
def Turn (g : List (List Nat)) (root : Nat) (t : HArr) (p s p' : List Nat) : Prop :=
  (p = s ++ p' ∧ (p.IsChain (InOrder g root t) ↔ p'.IsChain (InOrder g root t))) ∨
  (¬ p.IsChain (InOrder g root t) ∧ ¬ s <+: p)

theorem round (T : IsTree g) (hr : root < g.length) (hgl : g.length < 2 ^ 64)
    (H : HOk g root t c) {u v : Nat} (hu : u < g.length) (hv : v < g.length)
    (hne : Hd t u ≠ Hd t v) {p : List Nat} (hp : IsPath g u v p) :
    ∃ u' v' s p', (u', v') = (if (rpath g root (Hd t u)).length - 1 <
        (rpath g root (Hd t v)).length - 1 then (v, u) else (u, v)) ∧
      u' < g.length ∧ v' < g.length ∧ Hd t u' < g.length ∧ P t (Hd t u') ≤ P t u' ∧
      ((root :: c.pre).take (P t u' + 1)).drop (P t (Hd t u')) = s ∧
      par g root (Hd t u') < g.length ∧ IsPath g (par g root (Hd t u')) v' p' ∧
      (s ++ p').Perm p ∧
      (rpath g root (par g root (Hd t u'))).length + (rpath g root v').length <
        (rpath g root u).length + (rpath g root v).length ∧ Turn g root t p s p' := by
  have key : ∀ u v, u < g.length → v < g.length → Hd t u ≠ Hd t v →
      (rpath g root (Hd t v)).length ≤ (rpath g root (Hd t u)).length → ∀ p, IsPath g u v p →
      ∃ s p', Hd t u < g.length ∧ P t (Hd t u) ≤ P t u ∧
      ((root :: c.pre).take (P t u + 1)).drop (P t (Hd t u)) = s ∧
      par g root (Hd t u) < g.length ∧ IsPath g (par g root (Hd t u)) v p' ∧
      (s ++ p').Perm p ∧
      (rpath g root (par g root (Hd t u))).length + (rpath g root v).length <
        (rpath g root u).length + (rpath g root v).length ∧
      p = s.reverse ++ p' ∧ s.IsChain (Down g root t) ∧ s.head? = some (Hd t u) ∧
      s.getLast? = some u ∧ Hd t (Hd t u) = Hd t u ∧ Ancestor g root (par g root (Hd t u)) (Hd t u) ∧
      ¬ Ancestor g root (Hd t u) (par g root (Hd t u)) := by
    intro u v hu hv hne hd p hp
    obtain ⟨c1, c2, c3⟩ := H.climb T hr hgl hu hv hne hd
    obtain ⟨a1, a2, a3, a4⟩ := H.head_spec T hr _ u hu rfl
    obtain ⟨s1, s2⟩ := H.seg T hr hu a1 a3 (List.prefix_refl _)
    obtain ⟨p', hp'⟩ := (T.path _ v c1 hv).exists
    have hpe := hp.eq T (c3 p' hp') hu
    have hl := H.last T hr a1 hu a3
    obtain ⟨q1, q2⟩ := par_spec T hr a1
    have hne1 : (rpath g root (Hd t u)).length ≠ 1 := by
      intro h
      have := eq_root_of_len T hr a1 h
      rw [this] at h hd
      have := rpath_pos T hr (H.head_spec T hr _ v hv rfl).1
      exact hne ((by rw [‹Hd t u = root›]; exact (eq_root_of_len T hr (H.head_spec T hr _ v hv rfl).1 (by omega)).symm))
    have hpos := rpath_pos T hr a1
    refine ⟨_, p', a1, s1, rfl, c1, hp', ?_, by omega, by rw [s2]; exact hpe, by
      rw [s2]; exact seg_down T hr H hu a1 a3 (List.prefix_refl _), by rw [s2]; exact hl.1.head,
      by rw [s2]; exact hl.1.last, a2, ?_, ?_⟩
    · rw [s2, hpe]
      exact List.Perm.append_right _ (List.reverse_perm _).symm
    · rw [anc_iff T hr q1 a1, q2]; exact List.take_prefix _ _
    · rw [anc_iff T hr a1 q1, q2]
      intro h
      have := h.length_le
      rw [List.length_take] at this
      omega
  have l1 := rpath_pos T hr (H.head_spec T hr _ u hu rfl).1
  have l2 := rpath_pos T hr (H.head_spec T hr _ v hv rfl).1
  by_cases hd : (rpath g root (Hd t u)).length - 1 < (rpath g root (Hd t v)).length - 1
  · obtain ⟨s, p', k1, k2, k3, k4, k5, k6, k7, m1, m2, m3, m4, m5, m6, m7⟩ :=
      key v u hv hu (Ne.symm hne) (by omega) _ (hp.rev T)
    refine ⟨v, u, s, p', by rw [if_pos hd], hv, hu, k1, k2, k3, k4, k5,
      k6.trans (List.reverse_perm _), by omega, .inr ?_⟩
    have hpe : p = p'.reverse ++ s := by
      have := congrArg List.reverse m1
      simpa using this
    obtain ⟨A, hA⟩ := List.head?_eq_some_iff.1 k5.head
    obtain ⟨B, hB⟩ := List.head?_eq_some_iff.1 m3
    constructor
    · rw [hpe, hA, hB, List.reverse_cons, List.append_assoc]
      intro h
      have h2 := List.IsChain.right_of_append h
      exact (List.isChain_cons_cons.1 h2).1.2 m6 m5
    · intro h
      have hn := hp.nodup
      obtain ⟨C, hC⟩ := List.head?_eq_some_iff.1 (k5.rev T).head
      rw [hpe, hC, hB, List.cons_append, List.cons_prefix_cons] at h
      rw [hpe, hC, hB, ← h.1, List.nodup_append] at hn
      exact hn.2.2 (Hd t v) (List.mem_cons_self ..) (Hd t v) (List.mem_cons_self ..) rfl
  · obtain ⟨s, p', k1, k2, k3, k4, k5, k6, k7, m1, m2, m3, m4, m5, m6, m7⟩ := key u v hu hv hne (by omega) _ hp
    refine ⟨u, v, s, p', by rw [if_neg hd], hu, hv, k1, k2, k3, k4, k5, k6, k7, ?_⟩
    rcases Nat.lt_or_ge s.length 2 with hs | hs
    · left
      obtain ⟨A, hA⟩ := List.head?_eq_some_iff.1 m3
      obtain ⟨B, hB⟩ := List.head?_eq_some_iff.1 k5.head
      have : A = [] := by
        rw [hA] at hs
        simp only [List.length_cons] at hs
        exact List.length_eq_zero_iff.1 (by omega)
      subst this
      refine ⟨by rw [m1, hA]; rfl, ?_⟩
      rw [m1, hA, hB]
      show List.IsChain _ (Hd t u :: _ :: B) ↔ _
      rw [List.isChain_cons_cons]
      exact ⟨fun h => h.2, fun h => ⟨⟨fun _ => m5, fun h => absurd h m7⟩, h⟩⟩
    · right
      rw [m1]
      exact down_not_rev m2 hs

theorem final (T : IsTree g) (hr : root < g.length)
    (H : HOk g root t c) {u v : Nat} (hu : u < g.length) (hv : v < g.length)
    (he : Hd t u = Hd t v) {p : List Nat} (hp : IsPath g u v p) :
    ∃ u' v' s, (u', v') = (if P t u > P t v then (v, u) else (u, v)) ∧
      u' < g.length ∧ v' < g.length ∧ P t u' ≤ P t v' ∧
      ((root :: c.pre).take (P t v' + 1)).drop (P t u') = s ∧ s.Perm p ∧
      (s = p ↔ p.IsChain (InOrder g root t)) := by
  have key : ∀ u v, u < g.length → v < g.length → Hd t u = Hd t v → P t u ≤ P t v →
      ∀ p, IsPath g u v p → ((root :: c.pre).take (P t v + 1)).drop (P t u) = p ∧
        p.IsChain (Down g root t) := by
    intro u v hu hv he hle p hp
    have h1 := H.same T hr hv hu he.symm hle
    obtain ⟨a1, a2, a3, a4⟩ := H.head_spec T hr _ u hu rfl
    obtain ⟨s1, s2⟩ := H.seg T hr hv hu h1 (he ▸ a3)
    rw [s2, (H.last T hr hu hv h1).1.eq T hp hu]
    refine ⟨rfl, ?_⟩
    rw [← (H.last T hr hu hv h1).1.eq T hp hu]
    exact seg_down T hr H hv hu h1 (he ▸ a3)
  by_cases hd : P t u > P t v
  · refine ⟨v, u, _, by rw [if_pos hd], hv, hu, by omega, rfl, ?_⟩
    obtain ⟨k1, k2⟩ := key v u hv hu he.symm (by omega) _ (hp.rev T)
    rw [k1]
    refine ⟨List.reverse_perm _, ?_⟩
    have hl : 2 ≤ p.reverse.length := by
      obtain ⟨A, hA⟩ := List.head?_eq_some_iff.1 hp.head
      have h2 := hp.last
      cases A with
      | nil =>
        rw [hA] at h2
        simp only [List.getLast?_singleton, Option.some.injEq] at h2
        subst h2; omega
      | cons b A => rw [hA]; simp
    have h3 := down_not_rev (p := []) k2 hl
    rw [List.reverse_reverse, List.append_nil] at h3
    constructor
    · intro h; exact absurd (by rw [h]) h3.2
    · intro h; exact absurd h h3.1
  · refine ⟨u, v, _, by rw [if_neg hd], hu, hv, by omega, rfl, ?_⟩
    obtain ⟨k1, k2⟩ := key u v hu hv he (by omega) _ hp
    rw [k1]
    refine ⟨List.Perm.refl _, iff_of_true rfl (k2.imp fun a b h => ⟨fun h' => absurd h' h.2.1, fun _ => h.2.2⟩)⟩

end

/-! ### The operations -/
section
variable {S F : Type} [Monoid S] {M : MapOps S F} {g : List (List Nat)} {root : Nat}

/-- `h` holds the node values `a` (with the forest `c` giving the position order). -/
structure Rep (M : MapOps S F) (g : List (List Nat)) (root : Nat) (c : Forest) (h : HLD S F)
    (a : List S) : Prop where
  len : a.length = g.length
  arr : HOk g root h.arr c
  data : LazyP.Rep M h.data (D (root :: c.pre) a)

variable {c : Forest} {h : HLD S F} {a : List S} (hM : LawfulMap M) (R : Rep M g root c h a)

theorem Rep.lt (R : Rep M g root c h a) : ∀ x ∈ root :: c.pre, x < a.length := by
  intro x hx; rw [R.len]; exact R.arr.mem.1 hx

theorem Rep.dlen (R : Rep M g root c h a) : (D (root :: c.pre) a).length = g.length := by
  rw [D, List.length_map, R.arr.length]

include hM R

theorem get_sat {u : Nat} (hu : u < g.length) : Sat (h.get M u) (fun o =>
    Rep M g root c o.1 a ∧ o.1.arr = h.arr ∧ a[u]? = some o.2) := by
  simp only [HLD.get]
  rw [idx_of_some (R.arr.posSome hu), ok_bind, sat_bind]
  refine (LazyP.get_sat hM R.data (by rw [R.dlen]; exact R.arr.pos_lt hu)).mono ?_
  rintro ⟨t, x⟩ ⟨h1, h2⟩
  simp only [sat_ok]
  refine ⟨⟨R.len, R.arr, h1⟩, trivial, ?_⟩
  have hl : u < a.length := by rw [R.len]; exact hu
  rw [List.getElem?_eq_getElem hl]
  simp only at h2
  rw [h2]
  have h3 : (D (root :: c.pre) a)[P h.arr u]? = some (a.getD u 1) := by
    rw [D, List.getElem?_map, R.arr.ord_pos hu]; rfl
  rw [List.getElem?_eq_getElem (by rw [R.dlen]; exact R.arr.pos_lt hu)] at h3
  rw [h3, getD_eq_of_lt hl]

theorem set_sat {u : Nat} (hu : u < g.length) (x : S) : Sat (h.set M u x) (fun o =>
    Rep M g root c o (a.set u x) ∧ o.arr = h.arr) := by
  simp only [HLD.set]
  rw [idx_of_some (R.arr.posSome hu), ok_bind, sat_bind]
  refine (LazyP.set_sat hM R.data (x := x) (by rw [R.dlen]; exact R.arr.pos_lt hu)).mono ?_
  intro t h1
  simp only [sat_ok]
  rw [D_set R.arr.nodup (R.arr.ord_pos hu) (by rw [R.len]; exact hu)] at h1
  exact ⟨⟨by simpa using R.len, R.arr, h1⟩, trivial⟩

theorem sub_seg (T : IsTree g) (hr : root < g.length) {u : Nat} (hu : u < g.length) (x : Nat) :
    x ∈ ((root :: c.pre).take (PR h.arr u)).drop (P h.arr u) ↔ Ancestor g root u x := by
  constructor
  · intro hx
    have hm : x ∈ root :: c.pre := List.mem_of_mem_take (List.mem_of_mem_drop hx)
    have hxl := R.arr.mem.1 hm
    rw [mem_seg R.arr.nodup (R.arr.ord_pos hxl)] at hx
    exact (R.arr.subtree T hr hu hxl).2 hx
  · intro hx
    have hxl := (anc_lt T hr hx).2
    rw [mem_seg R.arr.nodup (R.arr.ord_pos hxl)]
    exact (R.arr.subtree T hr hu hxl).1 hx

theorem applySubtree_sat (T : IsTree g) (hr : root < g.length) {u : Nat} (hu : u < g.length)
    (f : F) : Sat (h.applySubtree M u f) (fun o => o.arr = h.arr ∧
      ∃ s, (∀ x, x ∈ s ↔ Ancestor g root u x) ∧
        Rep M g root c o (mapNodes (M.mapping f) a s)) := by
  simp only [HLD.applySubtree]
  obtain ⟨h1, h2⟩ := R.arr.posR_le T hr hu
  rw [idx_of_some (R.arr.posSome hu), ok_bind, idx_of_some (R.arr.posRSome hu), ok_bind, sat_bind]
  refine (LazyP.applyRange_sat hM R.data (by omega) (by rw [R.dlen]; exact h2)).mono ?_
  intro t h3
  simp only [sat_ok]
  rw [D_map R.arr.nodup R.lt] at h3
  exact ⟨trivial, _, sub_seg hM R T hr hu, ⟨by rw [mapNodes_length]; exact R.len, R.arr, h3⟩⟩

theorem subtreeProd_sat (T : IsTree g) (hr : root < g.length) {u : Nat} (hu : u < g.length) :
    Sat (h.subtreeProd M u) (fun o => o.1.arr = h.arr ∧ Rep M g root c o.1 a ∧
      ∃ s, s <:+: (root :: c.pre) ∧ (∀ x, x ∈ s ↔ Ancestor g root u x) ∧ o.2 = nodeProd a s) := by
  simp only [HLD.subtreeProd]
  obtain ⟨h1, h2⟩ := R.arr.posR_le T hr hu
  rw [idx_of_some (R.arr.posSome hu), ok_bind, idx_of_some (R.arr.posRSome hu), ok_bind, sat_bind]
  refine (LazyP.prod_sat hM R.data (by omega) (by rw [R.dlen]; exact h2)).mono ?_
  rintro ⟨t, x⟩ ⟨h3, h4⟩
  simp only [sat_ok]
  simp only at h4
  rw [D_prod] at h4
  exact ⟨trivial, ⟨R.len, R.arr, h3⟩, _, (List.drop_suffix _ _).isInfix.trans
    (List.take_prefix _ _).isInfix, sub_seg hM R T hr hu, h4⟩

theorem applyPath_sat (T : IsTree g) (hr : root < g.length) (hgl : g.length < 2 ^ 64)
    {u v : Nat} (hu : u < g.length) (hv : v < g.length) (f : F) {p : List Nat}
    (hp : IsPath g u v p) :
    Sat (h.applyPath M u v f) (fun o => o.arr = h.arr ∧
      Rep M g root c o (mapNodes (M.mapping f) a p)) := by
  unfold HLD.applyPath
  rw [sat_bind]
  have happ : ∀ {a1 : List S} {data : LazySegtree S F} {l r : Nat}, a1.length = g.length →
      LazyP.Rep M data (D (root :: c.pre) a1) → l ≤ r → r < g.length →
      Sat (data.applyRange M l (r + 1) f) (fun d => LazyP.Rep M d (D (root :: c.pre)
        (mapNodes (M.mapping f) a1 (((root :: c.pre).take (r + 1)).drop l)))) := by
    intro a1 data l r hl hd hlr hrn
    have hdl : (D (root :: c.pre) a1).length = g.length := by
      rw [D, List.length_map, R.arr.length]
    refine (LazyP.applyRange_sat hM hd (by omega) (by rw [hdl]; omega)).mono ?_
    intro d h1
    rw [D_map R.arr.nodup (fun x hx => by rw [hl]; exact R.arr.mem.1 hx)] at h1
    exact h1
  refine (whileLoop_satG (σ := LazySegtree S F × Nat × Nat)
    (fun s k => s.2.1 < g.length ∧ s.2.2 < g.length ∧
      k = (rpath g root s.2.1).length + (rpath g root s.2.2).length ∧
      ∃ dn q, IsPath g s.2.1 s.2.2 q ∧ (dn ++ q).Perm p ∧
        LazyP.Rep M s.1 (D (root :: c.pre) (mapNodes (M.mapping f) a dn)))
    (fun s => s.2.1 < g.length ∧ s.2.2 < g.length ∧ Hd h.arr s.2.1 = Hd h.arr s.2.2 ∧
      ∃ dn q, IsPath g s.2.1 s.2.2 q ∧ (dn ++ q).Perm p ∧
        LazyP.Rep M s.1 (D (root :: c.pre) (mapNodes (M.mapping f) a dn))) ?_ _ _
    ((rpath g root u).length + (rpath g root v).length) ?_ ?_).mono ?_
  · rintro ⟨data, u, v⟩ k ⟨hu, hv, rfl, dn, q, hq, hperm, hrep⟩
    simp only at hu hv hq hperm hrep ⊢
    rw [idx_of_some (R.arr.headSome hu), ok_bind, idx_of_some (R.arr.headSome hv)]
    simp only [ok_bind, sat_ok]
    by_cases hne : Hd h.arr u = Hd h.arr v
    · rw [if_neg (by simp [hne])]
      exact ⟨hu, hv, hne, dn, q, hq, hperm, hrep⟩
    · rw [if_pos (by simp [hne])]
      have hhu := (R.arr.head_spec T hr _ u hu rfl).1
      have hhv := (R.arr.head_spec T hr _ v hv rfl).1
      rw [idx_of_some (R.arr.dep _ hhu), idx_of_some (R.arr.dep _ hhv)]
      simp only [ok_bind]
      obtain ⟨u', v', s, q', e, k1, k2, k3, k4, k5, k6, k7, k8, k9, -⟩ :=
        round T hr hgl R.arr hu hv hne hq
      rw [← e]
      simp only
      rw [idx_of_some (R.arr.headSome k1), ok_bind, idx_of_some (R.arr.posSome k3), ok_bind,
        idx_of_some (R.arr.posSome k1), ok_bind, idx_of_some (R.arr.parent _ k3), sat_bind]
      refine (happ (by rw [mapNodes_length]; exact R.len) hrep k4 (R.arr.pos_lt k1)).mono ?_
      intro d hd
      simp only [ok_bind, sat_ok]
      rw [k5] at hd
      have hn : (dn ++ q).Nodup := hperm.nodup_iff.2 hp.nodup
      have hper2 : (dn ++ s ++ q').Perm p := by
        rw [List.append_assoc]; exact (k8.append_left dn).trans hperm
      have hn2 : (dn ++ s ++ q').Nodup := hper2.nodup_iff.2 hp.nodup
      rw [List.nodup_append, List.nodup_append] at hn2
      rw [mapNodes_append (fun x hx hx2 => hn2.1.2.2 x hx x hx2 rfl)] at hd
      exact ⟨_, k9, k6, k2, rfl, dn ++ s, q', k7, hper2, hd⟩
  · exact ⟨hu, hv, rfl, [], p, hp, List.Perm.refl _, by rw [mapNodes_nil]; exact R.data⟩
  · have h1 := (rpath_path T hr hu).length_le T hr
    have h2 := (rpath_path T hr hv).length_le T hr
    rw [R.arr.wf.head]; omega
  · rintro ⟨data, u, v⟩ ⟨hu, hv, he, dn, q, hq, hperm, hrep⟩
    simp only at hu hv he hq hperm hrep ⊢
    obtain ⟨u', v', s, e, k1, k2, k3, k4, k5, -⟩ := final T hr R.arr hu hv he hq
    rw [idx_of_some (R.arr.posSome hu), ok_bind, idx_of_some (R.arr.posSome hv), ok_bind, ← e]
    simp only
    rw [idx_of_some (R.arr.posSome k1), ok_bind, idx_of_some (R.arr.posSome k2), ok_bind, sat_bind]
    refine (happ (by rw [mapNodes_length]; exact R.len) hrep k3 (R.arr.pos_lt k2)).mono ?_
    intro d hd
    rw [k4] at hd
    simp only [sat_ok]
    have hper2 : (dn ++ s).Perm p := (k5.append_left dn).trans hperm
    have hn2 : (dn ++ s).Nodup := hper2.nodup_iff.2 hp.nodup
    rw [List.nodup_append] at hn2
    rw [mapNodes_append (fun x hx hx2 => hn2.2.2 x hx x hx2 rfl),
      mapNodes_congr (fun x => hper2.mem_iff)] at hd
    exact ⟨trivial, by rw [mapNodes_length]; exact R.len, R.arr, hd⟩

theorem pathProd_sat (T : IsTree g) (hr : root < g.length) (hgl : g.length < 2 ^ 64)
    {u v : Nat} (hu : u < g.length) (hv : v < g.length) {p : List Nat}
    (hp : IsPath g u v p) :
    Sat (h.pathProd M u v) (fun o => o.1.arr = h.arr ∧ Rep M g root c o.1 a ∧
      ∃ q, q.Perm p ∧ o.2 = nodeProd a q ∧
        (Hd h.arr u = Hd h.arr v → P h.arr u ≤ P h.arr v → q = p) ∧
        (q = p ↔ p.IsChain (InOrder g root h.arr))) := by
  unfold HLD.pathProd
  rw [sat_bind]
  have happ : ∀ {data : LazySegtree S F} {l r : Nat},
      LazyP.Rep M data (D (root :: c.pre) a) → l ≤ r → r < g.length →
      Sat (data.prod M l (r + 1)) (fun o => LazyP.Rep M o.1 (D (root :: c.pre) a) ∧
        o.2 = nodeProd a (((root :: c.pre).take (r + 1)).drop l)) := by
    intro data l r hd hlr hrn
    refine (LazyP.prod_sat hM hd (by omega) (by rw [R.dlen]; omega)).mono ?_
    rintro ⟨d, x⟩ ⟨h1, h2⟩
    exact ⟨h1, by rw [← D_prod]; exact h2⟩
  refine (whileLoop_satG (σ := LazySegtree S F × S × Nat × Nat)
    (fun s k => s.2.2.1 < g.length ∧ s.2.2.2 < g.length ∧
      k = (rpath g root s.2.2.1).length + (rpath g root s.2.2.2).length ∧
      ∃ dn q, IsPath g s.2.2.1 s.2.2.2 q ∧ (dn ++ q).Perm p ∧ s.2.1 = nodeProd a dn ∧
        (Hd h.arr u = Hd h.arr v → dn = [] ∧ s.2.2 = (u, v)) ∧ Turn g root h.arr p dn q ∧
        LazyP.Rep M s.1 (D (root :: c.pre) a))
    (fun s => s.2.2.1 < g.length ∧ s.2.2.2 < g.length ∧ Hd h.arr s.2.2.1 = Hd h.arr s.2.2.2 ∧
      ∃ dn q, IsPath g s.2.2.1 s.2.2.2 q ∧ (dn ++ q).Perm p ∧ s.2.1 = nodeProd a dn ∧
        (Hd h.arr u = Hd h.arr v → dn = [] ∧ s.2.2 = (u, v)) ∧ Turn g root h.arr p dn q ∧
        LazyP.Rep M s.1 (D (root :: c.pre) a)) ?_ _ _
    ((rpath g root u).length + (rpath g root v).length) ?_ ?_).mono ?_
  · rintro ⟨data, res, u', v'⟩ k ⟨hu', hv', rfl, dn, q, hq, hperm, rfl, hsame, hturn, hrep⟩
    simp only at hu' hv' hq hperm hrep hsame hturn ⊢
    rw [idx_of_some (R.arr.headSome hu'), ok_bind, idx_of_some (R.arr.headSome hv')]
    simp only [ok_bind, sat_ok]
    by_cases hne : Hd h.arr u' = Hd h.arr v'
    · rw [if_neg (by simp [hne])]
      exact ⟨hu', hv', hne, dn, q, hq, hperm, rfl, hsame, hturn, hrep⟩
    · rw [if_pos (by simp [hne])]
      have hhu := (R.arr.head_spec T hr _ u' hu' rfl).1
      have hhv := (R.arr.head_spec T hr _ v' hv' rfl).1
      rw [idx_of_some (R.arr.dep _ hhu), idx_of_some (R.arr.dep _ hhv)]
      simp only [ok_bind]
      obtain ⟨u2, v2, s, q', e, k1, k2, k3, k4, k5, k6, k7, k8, k9, k10⟩ :=
        round T hr hgl R.arr hu' hv' hne hq
      rw [← e]
      simp only
      rw [idx_of_some (R.arr.headSome k1), ok_bind, idx_of_some (R.arr.posSome k3), ok_bind,
        idx_of_some (R.arr.posSome k1), ok_bind, idx_of_some (R.arr.parent _ k3), sat_bind]
      refine (happ hrep k4 (R.arr.pos_lt k1)).mono ?_
      rintro ⟨d, x⟩ ⟨hd, hx⟩
      simp only [ok_bind, sat_ok]
      rw [k5] at hx
      simp only at hx hd
      have hper2 : (dn ++ s ++ q').Perm p := by
        rw [List.append_assoc]; exact (k8.append_left dn).trans hperm
      refine ⟨_, k9, k6, k2, rfl, dn ++ s, q', k7, hper2, ?_, ?_, ?_, hd⟩
      · rw [hM.op_eq, hx, nodeProd_append]
      · intro hs
        obtain ⟨-, e2⟩ := hsame hs
        cases e2
        exact absurd hs hne
      · rcases hturn with ⟨t1, t2⟩ | ⟨t1, t2⟩
        · rcases k10 with ⟨t3, t4⟩ | ⟨t3, t4⟩
          · exact .inl ⟨by rw [t1, t3, List.append_assoc], t2.trans t4⟩
          · refine .inr ⟨fun h => t3 (t2.1 h), fun h => t4 ?_⟩
            rw [t1, List.prefix_append_right_inj] at h
            exact h
        · exact .inr ⟨t1, fun h => t2 ((List.prefix_append _ _).trans h)⟩
  · exact ⟨hu, hv, rfl, [], p, hp, List.Perm.refl _, by simp [hM.e_eq, nodeProd],
      fun _ => ⟨rfl, rfl⟩, .inl ⟨rfl, Iff.rfl⟩, R.data⟩
  · have h1 := (rpath_path T hr hu).length_le T hr
    have h2 := (rpath_path T hr hv).length_le T hr
    rw [R.arr.wf.head]; omega
  · rintro ⟨data, res, u', v'⟩ ⟨hu', hv', he, dn, q, hq, hperm, rfl, hsame, hturn, hrep⟩
    simp only at hu' hv' he hq hperm hrep hsame hturn ⊢
    obtain ⟨u2, v2, s, e, k1, k2, k3, k4, k5, k6⟩ := final T hr R.arr hu' hv' he hq
    rw [idx_of_some (R.arr.posSome hu'), ok_bind, idx_of_some (R.arr.posSome hv'), ok_bind, ← e]
    simp only
    rw [idx_of_some (R.arr.posSome k1), ok_bind, idx_of_some (R.arr.posSome k2), ok_bind, sat_bind]
    refine (happ hrep k3 (R.arr.pos_lt k2)).mono ?_
    rintro ⟨d, x⟩ ⟨hd, hx⟩
    simp only at hx hd
    rw [k4] at hx
    simp only [ok_bind, sat_ok]
    have hper2 : (dn ++ s).Perm p := (k5.append_left dn).trans hperm
    refine ⟨trivial, ⟨R.len, R.arr, hd⟩, dn ++ s, hper2, by rw [hM.op_eq, hx, nodeProd_append], ?_, ?_⟩
    swap
    · rcases hturn with ⟨t1, t2⟩ | ⟨t1, t2⟩
      · rw [t2, ← k6]
        rw (occs := [1]) [t1]
        exact List.append_cancel_left_eq ..  |>.to_iff
      · constructor
        · intro h; exact absurd (h ▸ List.prefix_append _ _) t2
        · intro h; exact absurd h t1
    intro hs hle
    obtain ⟨rfl, e2⟩ := hsame hs
    cases e2
    rw [if_neg (by omega)] at e
    cases e
    have h1 := R.arr.same T hr hv hu hs.symm hle
    obtain ⟨a1, a2, a3, a4⟩ := R.arr.head_spec T hr _ u hu rfl
    obtain ⟨s1, s2⟩ := R.arr.seg T hr hv hu h1 (hs ▸ a3)
    rw [List.nil_append, ← k4, s2]
    exact (R.arr.last T hr hu hv h1).1.eq T hp hu

end

/-! ### Construction -/
section
variable {S F : Type} [Monoid S] {M : MapOps S F} {g : List (List Nat)} {root : Nat}

theorem D_replicate {ord : List Nat} (n : Nat) :
    D ord (List.replicate n (1 : S)) = List.replicate ord.length 1 := by
  rw [List.eq_replicate_iff]
  refine ⟨by simp [D], ?_⟩
  intro b hb
  simp only [D, List.mem_map] at hb
  obtain ⟨x, _, rfl⟩ := hb
  rw [List.getD_eq_getElem?_getD, List.getElem?_replicate]
  split <;> rfl

theorem new_sat (hM : LawfulMap M) (T : IsTree g) (hr : root < g.length) (hgl : g.length < 2 ^ 32) :
    Sat (HLD.new M g root) (fun h => ∃ c, Rep M g root c h (List.replicate g.length 1)) := by
  unfold HLD.new
  simp only []
  rw [assert_true hr, ok_bind, sat_bind]
  unfold LazySegtree.new
  rw [MapOps.ops_e, hM.e_eq]
  refine (LazyP.from_sat hM (a := List.replicate g.length 1) (by simpa using hgl)).mono ?_
  intro d hd
  rw [upd_of_lt (by simpa using hr), ok_bind]
  have hb := new_arr T hr hgl _ rfl
  simp only [sat_bind] at hb ⊢
  refine hb.mono ?_
  rintro ⟨t, s⟩ h1
  refine h1.mono ?_
  rintro ⟨t2, s2⟩ ⟨c, hc⟩
  simp only [sat_ok]
  refine ⟨c, by simp, hc, ?_⟩
  rw [D_replicate, hc.length]; exact hd

theorem withInitValue_sat (hM : LawfulMap M) (T : IsTree g) (hr : root < g.length)
    (hgl : g.length < 2 ^ 32) {v : List S} (hv : v.length = g.length) :
    Sat (HLD.withInitValue M g root v) (fun h => ∃ c, Rep M g root c h v) := by
  unfold HLD.withInitValue
  rw [assert_true hv.symm, ok_bind, sat_bind]
  refine (new_sat hM T hr hgl).mono ?_
  rintro h ⟨c, R⟩
  rw [sat_bind]
  refine (forRange_sat (fun j (a : List S) => a.length = v.length ∧
    ∀ i, i < j → a[P h.arr i]? = v[i]?) (Nat.zero_le _) ⟨rfl, by omega⟩ ?_).mono ?_
  · intro j a _ hj ⟨h1, h2⟩
    have hjl : j < g.length := by omega
    have hp := R.arr.pos_lt hjl
    rw [idx_of_lt hj, ok_bind, idx_of_some (R.arr.posSome hjl), ok_bind, upd_of_lt (by omega), sat_ok]
    refine ⟨by simpa using h1, ?_⟩
    intro i hi
    by_cases e : i = j
    · subst e
      rw [set_self (by omega), List.getElem?_eq_getElem hj]
    · rw [set_ne, h2 i (by omega)]
      intro hc
      exact e (R.arr.pos_inj (by omega) hjl hc)
  · intro a ⟨h1, h2⟩
    have e : a = D (root :: c.pre) v := by
      apply List.ext_getElem?
      intro i
      rw [D, List.getElem?_map]
      cases hx : (root :: c.pre)[i]? with
      | none =>
        have := List.getElem?_eq_none_iff.1 hx
        rw [R.arr.length] at this
        rw [List.getElem?_eq_none (by omega)]; rfl
      | some x =>
        have hxl := R.arr.mem.1 (List.mem_of_getElem? hx)
        have := h2 x (by omega)
        rw [R.arr.ord_get hx] at this
        rw [this, Option.map_some, getD_eq_of_lt (by omega), List.getElem?_eq_getElem (by omega)]
    subst e
    rw [sat_bind]
    refine (LazyP.from_sat hM (by omega)).mono ?_
    intro d hd
    simp only [sat_ok]
    exact ⟨c, hv, R.arr, hd⟩

end
end Verif.HLDP
