import Verif.Spec.UnionFind
import Mathlib.Data.Fintype.Card
import Mathlib.Data.List.Induction
namespace Verif
open Res Model Spec
set_option linter.unusedSimpArgs false
set_option linter.unusedVariables false

/-- `r` is the root of `i`, at depth `d`. -/
inductive RootOf (fa : List Nat) : Nat → Nat → Nat → Prop
  | base {r} (h : fa[r]? = some r) : RootOf fa r r 0
  | step {i p r d} (h : fa[i]? = some p) (hne : p ≠ i) (h2 : RootOf fa p r d) : RootOf fa i r (d+1)

namespace RootOf
variable {fa : List Nat}

theorem root_self {i r d} (h : RootOf fa i r d) : fa[r]? = some r := by
  induction h with
  | base h => exact h
  | step _ _ _ ih => exact ih

theorem det {i r d r' d'} (h : RootOf fa i r d) (h' : RootOf fa i r' d') : r = r' ∧ d = d' := by
  induction h generalizing d' with
  | base h =>
    cases h' with
    | base => exact ⟨rfl, rfl⟩
    | step h1 h2 _ => rw [h] at h1; cases h1; exact absurd rfl h2
  | step h hne h2 ih =>
    cases h' with
    | base h1 => rw [h] at h1; cases h1; exact absurd rfl hne
    | step h1 h2 h3 =>
      rw [h] at h1; cases h1
      obtain ⟨a, b⟩ := ih h3
      exact ⟨a, by omega⟩

theorem lt {i r d} (h : RootOf fa i r d) : i < fa.length := by
  cases h with
  | base h => exact (List.getElem?_eq_some_iff.1 h).1
  | step h _ _ => exact (List.getElem?_eq_some_iff.1 h).1

theorem root_lt {i r d} (h : RootOf fa i r d) : r < fa.length :=
  (List.getElem?_eq_some_iff.1 h.root_self).1

theorem depths {i r d} (h : RootOf fa i r d) : ∀ e, e ≤ d → ∃ j, RootOf fa j r e := by
  induction h with
  | base h => intro e he; have : e = 0 := by omega
              subst this; exact ⟨_, base h⟩
  | @step i p r d h hne h2 ih =>
    intro e he
    by_cases e' : e = d + 1
    · subst e'; exact ⟨i, step h hne h2⟩
    · exact ih e (by omega)

theorem depth_lt {i r d} (h : RootOf fa i r d) : d < fa.length := by
  have key : ∀ e : Fin (d+1), ∃ j, RootOf fa j r e := fun e => h.depths e (by omega)
  choose g hg using key
  have := Fintype.card_le_of_injective (f := fun e : Fin (d+1) => (⟨g e, (hg e).lt⟩ : Fin fa.length))
    (by
      intro a b hab
      have hab' : g a = g b := by simpa using hab
      have h1 := hg a
      rw [hab'] at h1
      have := (h1.det (hg b)).2
      exact Fin.ext this)
  simp only [Fintype.card_fin] at this
  omega

/-- Path compression at a single node keeps every root. -/
theorem compress {i r d} (hi : RootOf fa i r d) {j s e} (h : RootOf fa j s e) :
    ∃ e', RootOf (fa.set i r) j s e' := by
  have hil := hi.lt
  have hself : (fa.set i r)[r]? = some r := by
    by_cases e : i = r
    · subst e; rw [List.getElem?_set_self hil]
    · rw [List.getElem?_set_ne e]; exact hi.root_self
  induction h with
  | @base s h =>
    refine ⟨0, base ?_⟩
    by_cases e : i = s
    · subst e
      have := (hi.det (base h)).1
      subst this; exact hself
    · rw [List.getElem?_set_ne e]; exact h
  | @step j p s d' h hne h2 ih =>
    obtain ⟨e', he'⟩ := ih
    by_cases e : i = j
    · subst e
      have := (hi.det (step h hne h2)).1
      subst this
      by_cases er : r = i
      · subst er; exact ⟨0, base hself⟩
      · exact ⟨1, step (List.getElem?_set_self hil) er (base hself)⟩
    · exact ⟨e' + 1, step (by rw [List.getElem?_set_ne e]; exact h) hne he'⟩

/-- Nodes whose root is not the root of `x` are unaffected by redirecting `x`. -/
theorem link_other {x fx dx} (hx : RootOf fa x fx dx) (y : Nat) {j s e} (h : RootOf fa j s e)
    (hne : s ≠ fx) : RootOf (fa.set x y) j s e := by
  induction h with
  | @base s h =>
    have : x ≠ s := by
      rintro rfl
      exact hne (hx.det (base h)).1.symm
    exact base (by rw [List.getElem?_set_ne this]; exact h)
  | @step j p s d' h hne' h2 ih =>
    have : x ≠ j := by
      rintro rfl
      exact hne (hx.det (step h hne' h2)).1.symm
    exact step (by rw [List.getElem?_set_ne this]; exact h) hne' (ih hne)

/-- After redirecting `x` to `y` (different roots), `x` has the root of `y`. -/
theorem link_x {x y fx fy dx dy} (hx : RootOf fa x fx dx) (hy : RootOf fa y fy dy)
    (hne : fx ≠ fy) : RootOf (fa.set x y) x fy (dy + 1) := by
  refine step (List.getElem?_set_self hx.lt) ?_ (link_other hx y hy hne.symm)
  rintro rfl
  exact hne (hx.det hy).1

/-- After redirecting `x` to `y`, each node keeps its root, or had the root of `x` and now has the
root of `y`. -/
theorem link_any {x y fx fy dx dy} (hx : RootOf fa x fx dx) (hy : RootOf fa y fy dy)
    (hne : fx ≠ fy) {j s e} (h : RootOf fa j s e) :
    (∃ e', RootOf (fa.set x y) j s e') ∨ (s = fx ∧ ∃ e', RootOf (fa.set x y) j fy e') := by
  induction h with
  | @base s h =>
    by_cases ex : x = s
    · subst ex
      exact Or.inr ⟨((base h).det hx).1, _, link_x hx hy hne⟩
    · exact Or.inl ⟨0, base (by rw [List.getElem?_set_ne ex]; exact h)⟩
  | @step j p s d' h hne' h2 ih =>
    by_cases ex : x = j
    · subst ex
      exact Or.inr ⟨((step h hne' h2).det hx).1, _, link_x hx hy hne⟩
    · have hp : (fa.set x y)[j]? = some p := by rw [List.getElem?_set_ne ex]; exact h
      rcases ih with ⟨e', he'⟩ | ⟨h1, e', he'⟩
      · exact Or.inl ⟨_, step hp hne' he'⟩
      · exact Or.inr ⟨h1, _, step hp hne' he'⟩

/-- If `x` is itself a root, its whole class moves. -/
theorem link_root {x y fy dy} (hx : RootOf fa x x 0) (hy : RootOf fa y fy dy)
    (hne : x ≠ fy) {j e} (h : RootOf fa j x e) : ∃ e', RootOf (fa.set x y) j fy e' := by
  rcases link_any hx hy hne h with ⟨e', h'⟩ | ⟨_, h'⟩
  · have h1 := h'.root_self
    rw [List.getElem?_set_self hx.lt] at h1
    cases h1
    exact absurd (hx.det hy).1 hne
  · exact h'

end RootOf

namespace UFP
open UF

/-- `r` is the representative of `i`. -/
def R (u : UF) (i r : Nat) : Prop := ∃ d, RootOf u.fa i r d

/-- Representation invariant. -/
structure Inv (u : UF) : Prop where
  fa_len : u.fa.length = u.n
  sz_len : u.sz.length = u.n
  root : ∀ i, i < u.n → ∃ r, R u i r

theorem R.det {u : UF} {i r r'} (h : R u i r) (h' : R u i r') : r = r' := by
  obtain ⟨d, h⟩ := h; obtain ⟨d', h'⟩ := h'; exact (h.det h').1

theorem R.self {u : UF} {i r} (h : R u i r) : R u r r := by
  obtain ⟨d, h⟩ := h; exact ⟨0, .base h.root_self⟩

/-- The two states differ only in the shape of the forest. -/
structure Pres (u u' : UF) : Prop where
  n : u'.n = u.n
  sz : u'.sz = u.sz
  inv : Inv u'
  root : ∀ j r, R u j r ↔ R u' j r

theorem Pres.refl {u : UF} (h : Inv u) : Pres u u := ⟨rfl, rfl, h, fun _ _ => Iff.rfl⟩
theorem Pres.trans {u v w : UF} (h : Pres u v) (h' : Pres v w) : Pres u w :=
  ⟨h'.n.trans h.n, h'.sz.trans h.sz, h'.inv, fun j r => (h.root j r).trans (h'.root j r)⟩

theorem R.ltn {u : UF} (h : Inv u) {i r} (hr : R u i r) : i < u.n ∧ r < u.n := by
  obtain ⟨d, hd⟩ := hr
  rw [← h.fa_len]; exact ⟨hd.lt, hd.root_lt⟩

theorem pres_of {u : UF} {fa' : List Nat} (h : Inv u) (hl : fa'.length = u.fa.length)
    (hr : ∀ j s e, RootOf u.fa j s e → ∃ e', RootOf fa' j s e') :
    Pres u { u with fa := fa' } := by
  have hinv : Inv { u with fa := fa' } := by
    refine ⟨hl.trans h.fa_len, h.sz_len, fun i hi => ?_⟩
    obtain ⟨r, d, hd⟩ := h.root i hi
    exact ⟨r, hr _ _ _ hd⟩
  refine ⟨rfl, rfl, hinv, fun j r => ⟨?_, ?_⟩⟩
  · rintro ⟨d, hd⟩; exact hr _ _ _ hd
  · intro h'
    have hj := (R.ltn hinv h').1
    obtain ⟨r', d, hd⟩ := h.root j hj
    have : R { u with fa := fa' } j r' := hr _ _ _ hd
    have := this.det h'
    subst this; exact ⟨d, hd⟩

theorem findF_sat {u : UF} (hinv : Inv u) {i r d : Nat} (h : RootOf u.fa i r d) :
    ∀ fuel, d < fuel → Sat (findF fuel u i) (fun x => x.1 = r ∧ Pres u x.2) := by
  suffices H : ∀ fa, fa = u.fa → RootOf fa i r d → ∀ fuel, d < fuel →
      Sat (findF fuel u i) (fun x => x.1 = r ∧ Pres u x.2) from H _ rfl h
  clear h
  intro fa hfa h
  induction h with
  | @base r h =>
    intro fuel hf
    obtain ⟨fuel, rfl⟩ : ∃ k, fuel = k + 1 := ⟨fuel - 1, by omega⟩
    subst hfa
    simp only [findF, sat_bind, sat_idx]
    exact ⟨r, h, by simp [Pres.refl hinv]⟩
  | @step i p r d h hne h2 ih =>
    intro fuel hf
    obtain ⟨fuel, rfl⟩ : ∃ k, fuel = k + 1 := ⟨fuel - 1, by omega⟩
    have ih := ih fuel (by omega)
    subst hfa
    simp only [findF, sat_bind, sat_idx]
    refine ⟨p, h, ?_⟩
    rw [if_neg hne]
    simp only [sat_bind]
    refine ih.mono ?_
    rintro ⟨r', u'⟩ ⟨h1, h3⟩
    simp only at h1 h3
    subst h1
    have hil : i < u.n := by
      have := (List.getElem?_eq_some_iff.1 h).1; rw [hinv.fa_len] at this; exact this
    have hl : i < u'.fa.length := by rw [h3.inv.fa_len, h3.n]; exact hil
    simp only [sat_upd, sat_bind, sat_idx]
    refine ⟨hl, r', List.getElem?_set_self hl, ?_⟩
    simp only [sat_ok, true_and]
    have hR : R u' i r' := (h3.root i r').1 ⟨_, .step h hne h2⟩
    obtain ⟨d', hd'⟩ := hR
    exact h3.trans (pres_of h3.inv (by simp) (fun j s e he => hd'.compress he))

theorem find_sat {u : UF} (hinv : Inv u) {i : Nat} (hi : i < u.n) :
    Sat (u.find i) (fun x => R u i x.1 ∧ Pres u x.2) := by
  obtain ⟨r, d, hd⟩ := hinv.root i hi
  have := hd.depth_lt
  rw [hinv.fa_len] at this
  refine (findF_sat hinv hd (u.n + 1) (by omega)).mono ?_
  rintro ⟨r', u'⟩ ⟨h1, h2⟩
  simp only at h1; subst h1
  exact ⟨⟨d, hd⟩, h2⟩

theorem find_eq {u : UF} (hinv : Inv u) {i r : Nat} {u' : UF} (h : u.find i = .ok (r, u')) :
    R u i r ∧ Pres u u' := by
  have hi : i < u.n := by
    apply Nat.lt_of_not_le
    intro hle
    rw [UF.find, findF, idx_panic (by rw [hinv.fa_len]; exact hle)] at h
    simp at h
  obtain ⟨a, h1, h2⟩ := find_sat hinv hi
  rw [h] at h1; cases h1; exact h2

/-- `x` and `y` have the same representative. -/
def Same (u : UF) (x y : Nat) : Prop := ∃ r, R u x r ∧ R u y r

theorem Pres.same {u u' : UF} (h : Pres u u') (x y : Nat) : Same u x y ↔ Same u' x y := by
  unfold Same; simp only [h.root]

theorem isSame_sat {u : UF} (hinv : Inv u) {x y : Nat} (hx : x < u.n) (hy : y < u.n) :
    Sat (u.isSame x y) (fun o => (o.1 = true ↔ Same u x y) ∧ Pres u o.2) := by
  simp only [isSame, sat_bind, sat_assert]
  refine ⟨hx, hy, (find_sat hinv hx).mono ?_⟩
  rintro ⟨a, u1⟩ ⟨h1, h2⟩
  refine (find_sat h2.inv (by rw [h2.n]; exact hy)).mono ?_
  rintro ⟨b, u2⟩ ⟨h3, h4⟩
  simp only at h1 h2 h3 h4
  rw [← h2.root] at h3
  simp only [sat_ok, decide_eq_true_eq]
  refine ⟨⟨?_, ?_⟩, h2.trans h4⟩
  · rintro rfl; exact ⟨a, h1, h3⟩
  · rintro ⟨r, hr, hr'⟩; rw [h1.det hr, h3.det hr']

theorem size_sat {u : UF} (hinv : Inv u) {x : Nat} (hx : x < u.n) :
    Sat (u.size x) (fun o => (∃ r, R u x r ∧ u.sz[r]? = some o.1) ∧ Pres u o.2) := by
  simp only [size, sat_bind, sat_assert]
  refine ⟨hx, (find_sat hinv hx).mono ?_⟩
  rintro ⟨a, u1⟩ ⟨h1, h2⟩
  simp only at h1 h2
  simp only [sat_idx, sat_ok]
  have := (R.ltn hinv h1).2
  have hl : a < u1.sz.length := by rw [h2.sz, hinv.sz_len]; exact this
  refine ⟨u1.sz[a], by simp, ⟨a, h1, ?_⟩, h2⟩
  rw [← h2.sz]; simp

/-- What `join` does. -/
theorem join_sat {u : UF} (hinv : Inv u) {x y fx fy sx sy : Nat} (hx : R u x fx) (hy : R u y fy)
    (hsx : u.sz[x]? = some sx) (hsy : u.sz[y]? = some sy) (hov : fx ≠ fy → sy + sx < 2 ^ 64) :
    Sat (u.join x y) (fun o => (o.1 = true ↔ fx ≠ fy) ∧
      (fx = fy → Pres u o.2) ∧
      (fx ≠ fy → o.2.n = u.n ∧ o.2.sz = u.sz.set y (sy + sx) ∧ Inv o.2 ∧
        R o.2 x fy ∧ R o.2 y fy ∧
        (∀ j s, R u j s → s ≠ fx → R o.2 j s) ∧
        (∀ j, R u j fx → R o.2 j fx ∨ R o.2 j fy) ∧
        (fx = x → ∀ j, R u j x → R o.2 j fy) ∧ (fx ≠ x → R o.2 fx fx))) := by
  have hxn := (R.ltn hinv hx).1
  have hyn := (R.ltn hinv hy).1
  simp only [join, sat_bind, sat_assert]
  refine ⟨hxn, hyn, (find_sat hinv hxn).mono ?_⟩
  rintro ⟨a, u1⟩ ⟨h1, h2⟩
  simp only at h1 h2
  have := h1.det hx; subst this
  refine (find_sat h2.inv (by rw [h2.n]; exact hyn)).mono ?_
  rintro ⟨b, u2⟩ ⟨h3, h4⟩
  simp only at h3 h4
  rw [← h2.root] at h3
  have := h3.det hy; subst this
  have hp := h2.trans h4
  by_cases he : a = b
  · subst he; simp [hp]
  · simp only [he, if_false, sat_bind, sat_idx, sat_upd, sat_addU, sat_ok]
    have hxl : x < u2.fa.length := by rw [hp.inv.fa_len, hp.n]; exact hxn
    have hyl : y < u2.sz.length := by rw [hp.inv.sz_len, hp.n]; exact hyn
    refine ⟨sx, by rw [hp.sz]; exact hsx, sy, by rw [hp.sz]; exact hsy, hxl, hov he, hyl, ?_⟩
    have hRx := (hp.root x a).1 hx
    have hRy := (hp.root y b).1 hy
    obtain ⟨dx, hdx⟩ := hRx
    obtain ⟨dy, hdy⟩ := hRy
    simp only [ne_eq, he, not_false_eq_true, iff_true, true_and, forall_const, false_implies]
    refine ⟨hp.n, by rw [hp.sz], ⟨?_, ?_, ?_⟩, ?_, ?_, ?_, ?_, ?_, ?_⟩
    · simp [hp.inv.fa_len]
    · simp [hp.inv.sz_len]
    · intro i hi
      obtain ⟨r, d, hd⟩ := hp.inv.root i hi
      rcases RootOf.link_any hdx hdy he hd with h | ⟨_, h⟩
      · exact ⟨_, h⟩
      · exact ⟨_, h⟩
    · exact ⟨_, RootOf.link_x hdx hdy he⟩
    · exact ⟨_, RootOf.link_other hdx y hdy (Ne.symm he)⟩
    · intro j s hj hne
      obtain ⟨d, hd⟩ := (hp.root j s).1 hj
      exact ⟨_, RootOf.link_other hdx y hd hne⟩
    · intro j hj
      obtain ⟨d, hd⟩ := (hp.root j a).1 hj
      rcases RootOf.link_any hdx hdy he hd with h | ⟨_, h⟩
      · exact Or.inl h
      · exact Or.inr h
    · rintro rfl j hj
      obtain ⟨d, hd⟩ := (hp.root j a).1 hj
      have hx0 : RootOf u2.fa a a 0 := .base hd.root_self
      exact RootOf.link_root hx0 hdy he hd
    · intro hne
      exact ⟨0, .base (by simp only; rw [List.getElem?_set_ne (Ne.symm hne)]; exact hdx.root_self)⟩

theorem inv_new (n : Nat) : Inv (UF.new n) := by
  refine ⟨by simp [UF.new], by simp [UF.new], fun i hi => ?_⟩
  exact ⟨i, 0, .base (by simp only [UF.new] at hi ⊢; simp [hi])⟩

theorem R_new {n i r : Nat} (h : R (UF.new n) i r) : i = r := by
  obtain ⟨d, h⟩ := h
  have hi := h.lt
  simp only [UF.new, List.length_range] at hi
  exact (RootOf.det h (.base (by simp [UF.new, hi]))).1.symm

theorem groups_sat {u : UF} (hinv : Inv u) :
    Sat u.groups (fun o => Pres u o.2 ∧
      (∀ g ∈ o.1, g ≠ []) ∧ o.1.flatten.Nodup ∧ (∀ i, i ∈ o.1.flatten ↔ i < u.n) ∧
      (∀ g ∈ o.1, g.Pairwise (· < ·)) ∧
      (∀ g ∈ o.1, ∃ r, ∀ x, x ∈ g ↔ R u x r)) := by
  unfold groups
  simp only [sat_bind]
  refine (forRange_sat (I := fun i (st : List (List Nat) × UF) => Pres u st.2 ∧ st.1.length = u.n ∧
      ∀ r, r < u.n → ∃ g, st.1[r]? = some g ∧ (∀ x, x ∈ g ↔ x < i ∧ R u x r) ∧
        g.Pairwise (· < ·))
    (Nat.zero_le _) ?_ ?_).mono ?_
  · refine ⟨Pres.refl hinv, by simp, fun r hr => ⟨[], by simp [hr], by simp, List.Pairwise.nil⟩⟩
  · rintro i ⟨res, v⟩ _ hi ⟨hp, hl, hg⟩
    simp only at hp hl hg
    simp only [sat_bind]
    refine (find_sat hp.inv (by rw [hp.n]; exact hi)).mono ?_
    rintro ⟨r, v'⟩ ⟨h1, h2⟩
    simp only at h1 h2
    rw [← hp.root] at h1
    have hrn := (R.ltn hinv h1).2
    obtain ⟨g, g1, g2, g3⟩ := hg r hrn
    simp only [sat_idx, sat_upd, sat_ok]
    refine ⟨g, g1, by omega, hp.trans h2, by simp [hl], fun r' hr' => ?_⟩
    by_cases e : r = r'
    · subst e
      refine ⟨_, List.getElem?_set_self (by omega), ?_, ?_⟩
      · intro x
        simp only [List.mem_append, List.mem_singleton, g2]
        constructor
        · rintro (⟨a, b⟩ | rfl)
          · exact ⟨by omega, b⟩
          · exact ⟨by omega, h1⟩
        · rintro ⟨a, b⟩
          by_cases ex : x = i
          · exact Or.inr ex
          · exact Or.inl ⟨by omega, b⟩
      · rw [List.pairwise_append]
        refine ⟨g3, by simp, ?_⟩
        intro a ha b hb
        simp only [List.mem_singleton] at hb
        subst hb
        exact ((g2 a).1 ha).1
    · obtain ⟨g', k1, k2, k3⟩ := hg r' hr'
      refine ⟨g', by rw [List.getElem?_set_ne e]; exact k1, ?_, k3⟩
      intro x
      rw [k2]
      constructor
      · rintro ⟨a, b⟩; exact ⟨by omega, b⟩
      · rintro ⟨a, b⟩
        refine ⟨?_, b⟩
        have : x ≠ i := by
          rintro rfl
          exact e (h1.det b)
        omega
  · rintro ⟨res, v⟩ ⟨hp, hl, hg⟩
    simp only at hp hl hg
    simp only [sat_ok]
    have hmem : ∀ g ∈ res, ∃ r, r < u.n ∧ res[r]? = some g := by
      intro g hg'
      obtain ⟨r, hr, h⟩ := List.getElem_of_mem hg'
      exact ⟨r, by omega, by simp [hr, h]⟩
    have hmem' : ∀ g ∈ res.filter (fun g => !g.isEmpty), g ∈ res := fun g h =>
      (List.mem_filter.1 h).1
    have hfl : (res.filter (fun g => !g.isEmpty)).flatten = res.flatten :=
      List.flatten_filter_not_isEmpty
    refine ⟨hp, ?_, ?_, ?_, ?_, ?_⟩
    · intro g h
      have := (List.mem_filter.1 h).2
      intro e; subst e; simp at this
    · rw [hfl, List.nodup_flatten]
      refine ⟨?_, ?_⟩
      · intro g h
        obtain ⟨r, hr, h2⟩ := hmem g h
        obtain ⟨g', k1, k2, k3⟩ := hg r hr
        rw [h2] at k1; cases k1
        exact k3.imp (fun h => Nat.ne_of_lt h)
      · rw [List.pairwise_iff_getElem]
        intro a b ha hb hab
        rw [List.disjoint_left]
        intro x hxa hxb
        obtain ⟨g', k1, k2, k3⟩ := hg a (by omega)
        obtain ⟨g'', m1, m2, m3⟩ := hg b (by omega)
        rw [List.getElem?_eq_getElem ha] at k1; cases k1
        rw [List.getElem?_eq_getElem hb] at m1; cases m1
        have := ((k2 x).1 hxa).2.det ((m2 x).1 hxb).2
        omega
    · intro i
      rw [hfl, List.mem_flatten]
      constructor
      · rintro ⟨g, h1, h2⟩
        obtain ⟨r, hr, h3⟩ := hmem g h1
        obtain ⟨g', k1, k2, k3⟩ := hg r hr
        rw [h3] at k1; cases k1
        exact ((k2 i).1 h2).1
      · intro hi
        obtain ⟨r, hr⟩ := hinv.root i hi
        obtain ⟨g', k1, k2, k3⟩ := hg r (R.ltn hinv hr).2
        exact ⟨g', List.mem_of_getElem? k1, (k2 i).2 ⟨hi, hr⟩⟩
    · intro g h
      obtain ⟨r, hr, h3⟩ := hmem g (hmem' g h)
      obtain ⟨g', k1, k2, k3⟩ := hg r hr
      rw [h3] at k1; cases k1
      exact k3
    · intro g h
      obtain ⟨r, hr, h3⟩ := hmem g (hmem' g h)
      obtain ⟨g', k1, k2, k3⟩ := hg r hr
      rw [h3] at k1; cases k1
      refine ⟨r, fun x => (k2 x).trans ⟨fun h => h.2, fun h => ⟨(R.ltn hinv h).1, h⟩⟩⟩

/-! ### Histories -/

theorem run_append (u : UF) (a b : List Op) :
    UF.run u (a ++ b) = (UF.run u a >>= fun v => UF.run v b) := by
  induction a generalizing u with
  | nil => rfl
  | cons o os ih => simp only [List.cons_append, UF.run, bind_assoc, ih]

theorem joinsOf_append (a b : List Op) : joinsOf (a ++ b) = joinsOf a ++ joinsOf b := by
  induction a with
  | nil => rfl
  | cons o os ih => cases o <;> simp [joinsOf, ih]

theorem Conn.mono {ps qs : List (Nat × Nat)} (h : ∀ p ∈ ps, p ∈ qs) {x y : Nat}
    (hc : Conn ps x y) : Conn qs x y := by
  refine Relation.EqvGen.mono (fun a b hab => h _ hab) _ _ hc

theorem join_overflow {u : UF} (hinv : Inv u) {x y fx fy sx sy : Nat} (hx : R u x fx)
    (hy : R u y fy) (hsx : u.sz[x]? = some sx) (hsy : u.sz[y]? = some sy) (hne : fx ≠ fy)
    (hov : 2 ^ 64 ≤ sy + sx) : u.join x y = .panic := by
  have hxn := (R.ltn hinv hx).1
  have hyn := (R.ltn hinv hy).1
  obtain ⟨⟨a, u1⟩, e1, h1, h2⟩ := find_sat hinv hxn
  simp only at h1 h2
  have := h1.det hx; subst this
  obtain ⟨⟨b, u2⟩, e2, h3, h4⟩ := find_sat h2.inv (i := y) (by rw [h2.n]; exact hyn)
  simp only at h3 h4
  rw [← h2.root] at h3
  have := h3.det hy; subst this
  have hp := h2.trans h4
  have hxl : x < u2.fa.length := by rw [hp.inv.fa_len, hp.n]; exact hxn
  simp only [join, assert_true hxn, assert_true hyn, e1, e2, ok_bind, hne, if_false,
    idx_of_some (show u2.sz[x]? = some sx by rw [hp.sz]; exact hsx),
    idx_of_some (show u2.sz[y]? = some sy by rw [hp.sz]; exact hsy), upd_of_lt hxl]
  rw [addU, if_neg (by omega)]
  rfl

theorem sz_get {u : UF} (hinv : Inv u) {x : Nat} (h : x < u.n) : ∃ s, u.sz[x]? = some s :=
  ⟨u.sz[x]'(by rw [hinv.sz_len]; exact h), by simp⟩

/-- The effect of a join that returned. -/
structure Linked (u u' : UF) (x y fx fy : Nat) : Prop where
  n : u'.n = u.n
  inv : Inv u'
  ne : fx ≠ fy
  rx : R u x fx
  ry : R u y fy
  rx' : R u' x fy
  ry' : R u' y fy
  other : ∀ j s, R u j s → s ≠ fx → R u' j s
  moved : ∀ j, R u j fx → R u' j fx ∨ R u' j fy
  root : fx = x → ∀ j, R u j x → R u' j fy
  keep : fx ≠ x → R u' fx fx
  sz : ∃ sx sy, u.sz[x]? = some sx ∧ u.sz[y]? = some sy ∧ u'.sz = u.sz.set y (sy + sx)

theorem join_eq {u : UF} (hinv : Inv u) {x y : Nat} {b : Bool} {u' : UF}
    (h : u.join x y = .ok (b, u')) :
    x < u.n ∧ y < u.n ∧
    ((b = false ∧ Same u x y ∧ Pres u u') ∨
     (b = true ∧ ¬ Same u x y ∧ ∃ fx fy, Linked u u' x y fx fy)) := by
  have hxn : x < u.n := by
    apply Classical.byContradiction; intro hn
    simp [join, assert_false hn] at h
  have hyn : y < u.n := by
    apply Classical.byContradiction; intro hn
    simp [join, assert_true hxn, assert_false hn] at h
  refine ⟨hxn, hyn, ?_⟩
  obtain ⟨fx, hfx⟩ := hinv.root x hxn
  obtain ⟨fy, hfy⟩ := hinv.root y hyn
  obtain ⟨sx, hsx⟩ := sz_get hinv hxn
  obtain ⟨sy, hsy⟩ := sz_get hinv hyn
  have hov : fx ≠ fy → sy + sx < 2 ^ 64 := by
    intro hne
    apply Nat.lt_of_not_le
    intro hle
    rw [join_overflow hinv hfx hfy hsx hsy hne hle] at h
    cases h
  obtain ⟨o, e, h1, h2, h3⟩ := join_sat hinv hfx hfy hsx hsy hov
  rw [h] at e; cases e
  simp only at h1 h2 h3
  by_cases he : fx = fy
  · left
    refine ⟨?_, ⟨fx, hfx, he ▸ hfy⟩, h2 he⟩
    cases b
    · rfl
    · exact absurd he (h1.1 rfl)
  · right
    refine ⟨h1.2 he, ?_, fx, fy, ?_⟩
    · rintro ⟨r, hr, hr'⟩
      exact he ((hfx.det hr).trans (hfy.det hr').symm)
    · obtain ⟨a1, a2, a3, a4, a5, a6, a7, a8, a9⟩ := h3 he
      exact ⟨a1, a3, he, hfx, hfy, a4, a5, a6, a7, a8, a9, sx, sy, hsx, hsy, a2⟩

theorem isSame_eq {u : UF} (hinv : Inv u) {x y : Nat} {b : Bool} {u' : UF}
    (h : u.isSame x y = .ok (b, u')) :
    x < u.n ∧ y < u.n ∧ (b = true ↔ Same u x y) ∧ Pres u u' := by
  have hxn : x < u.n := by
    apply Classical.byContradiction; intro hn
    simp [isSame, assert_false hn] at h
  have hyn : y < u.n := by
    apply Classical.byContradiction; intro hn
    simp [isSame, assert_true hxn, assert_false hn] at h
  obtain ⟨o, e, h1, h2⟩ := isSame_sat hinv hxn hyn
  rw [h] at e; cases e
  exact ⟨hxn, hyn, h1, h2⟩

theorem size_eq {u : UF} (hinv : Inv u) {x k : Nat} {u' : UF}
    (h : u.size x = .ok (k, u')) :
    x < u.n ∧ (∃ r, R u x r ∧ u.sz[r]? = some k) ∧ Pres u u' := by
  have hxn : x < u.n := by
    apply Classical.byContradiction; intro hn
    simp [size, assert_false hn] at h
  obtain ⟨o, e, h1, h2⟩ := size_sat hinv hxn
  rw [h] at e; cases e
  exact ⟨hxn, h1, h2⟩

/-- One step: either the forest changes shape only, or it is a linking join. -/
theorem step_eq {u u' : UF} (hinv : Inv u) {o : Op} (h : u.step o = .ok u') :
    (Pres u u' ∧ ∀ x y, o = .join x y → Same u x y) ∨
    ∃ x y fx fy, o = .join x y ∧ ¬ Same u x y ∧ Linked u u' x y fx fy := by
  cases o with
  | find x =>
    left
    refine ⟨?_, by simp⟩
    simp only [step] at h
    cases hf : u.find x with
    | ok r => rw [hf] at h; simp at h; subst h; exact (find_eq hinv (r := r.1) (u' := r.2) hf).2
    | panic => rw [hf] at h; simp at h
    | diverge => rw [hf] at h; simp at h
  | isSame x y =>
    left
    refine ⟨?_, by simp⟩
    simp only [step] at h
    cases hf : u.isSame x y with
    | ok r => rw [hf] at h; simp at h; subst h
              exact (isSame_eq hinv (b := r.1) (u' := r.2) hf).2.2.2
    | panic => rw [hf] at h; simp at h
    | diverge => rw [hf] at h; simp at h
  | size x =>
    left
    refine ⟨?_, by simp⟩
    simp only [step] at h
    cases hf : u.size x with
    | ok r => rw [hf] at h; simp at h; subst h
              exact (size_eq hinv (k := r.1) (u' := r.2) hf).2.2
    | panic => rw [hf] at h; simp at h
    | diverge => rw [hf] at h; simp at h
  | groups =>
    left
    refine ⟨?_, by simp⟩
    simp only [step] at h
    obtain ⟨r, e, h1, -⟩ := groups_sat hinv
    rw [e] at h; simp at h; subst h; exact h1
  | join x y =>
    simp only [step] at h
    cases hf : u.join x y with
    | ok r =>
      rw [hf] at h; simp at h; subst h
      obtain ⟨_, _, h1 | ⟨_, h2, fx, fy, h3⟩⟩ := join_eq hinv (b := r.1) (u' := r.2) hf
      · left; exact ⟨h1.2.2, by rintro x' y' ⟨⟩; exact h1.2.1⟩
      · right; exact ⟨x, y, fx, fy, rfl, h2, h3⟩
    | panic => rw [hf] at h; simp at h
    | diverge => rw [hf] at h; simp at h

theorem run_concat_ok {u w : UF} {ops : List Op} {o : Op}
    (h : UF.run u (ops ++ [o]) = .ok w) :
    ∃ v, UF.run u ops = .ok v ∧ v.step o = .ok w := by
  rw [run_append] at h
  cases hr : UF.run u ops with
  | ok v =>
    rw [hr] at h
    simp only [ok_bind, UF.run, bind_ok] at h
    exact ⟨v, rfl, h⟩
  | panic => rw [hr] at h; simp at h
  | diverge => rw [hr] at h; simp at h

/-- Every reachable state satisfies the invariant, and representatives are connected to their
elements by joins. -/
theorem reach_inv {n : Nat} (ops : List Op) {u : UF} (h : UF.run (UF.new n) ops = .ok u) :
    Inv u ∧ u.n = n ∧ ∀ i r, R u i r → Conn (joinsOf ops) i r := by
  induction ops using List.reverseRecOn generalizing u with
  | nil =>
    simp only [UF.run, ok.injEq] at h
    subst h
    refine ⟨inv_new n, rfl, fun i r hr => ?_⟩
    rw [R_new hr]; exact .refl _
  | append_singleton ops o ih =>
    obtain ⟨v, h1, h2⟩ := run_concat_ok h
    obtain ⟨hi, hn, hc⟩ := ih h1
    have hm : ∀ p ∈ joinsOf ops, p ∈ joinsOf (ops ++ [o]) := by
      intro p hp; rw [joinsOf_append]; exact List.mem_append_left _ hp
    rcases step_eq hi h2 with ⟨hp, -⟩ | ⟨x, y, fx, fy, rfl, hns, hl⟩
    · refine ⟨hp.inv, hp.n.trans hn, fun i r hr => ?_⟩
      exact Conn.mono hm (hc i r ((hp.root i r).2 hr))
    · refine ⟨hl.inv, hl.n.trans hn, fun i r hr => ?_⟩
      have hin := (R.ltn hl.inv hr).1
      rw [hl.n] at hin
      obtain ⟨s, hs⟩ := hi.root i hin
      have cis := Conn.mono hm (hc i s hs)
      by_cases e : s = fx
      · subst e
        rcases hl.moved i hs with h' | h'
        · rw [hr.det h']; exact cis
        · rw [hr.det h']
          have c1 := Conn.mono hm (hc x s hl.rx)
          have c2 := Conn.mono hm (hc y fy hl.ry)
          have c3 : Conn (joinsOf (ops ++ [Op.join x y])) x y := .rel _ _ (by
            rw [joinsOf_append]; simp [joinsOf])
          exact .trans _ _ _ cis (.trans _ _ _ (.symm _ _ c1) (.trans _ _ _ c3 c2))
      · rw [hr.det (hl.other i s hs e)]; exact cis

theorem R.root {u : UF} {x r : Nat} (h : R u x r) : R u r r := by
  obtain ⟨d, h⟩ := h
  exact ⟨0, .base h.root_self⟩

theorem Same.equiv_refl {u : UF} (h : Inv u) {x : Nat} (hx : x < u.n) : Same u x x := by
  obtain ⟨r, hr⟩ := h.root x hx; exact ⟨r, hr, hr⟩

theorem joins_lt {n : Nat} (ops : List Op) {u : UF} (h : UF.run (UF.new n) ops = .ok u) :
    ∀ p ∈ joinsOf ops, p.1 < n ∧ p.2 < n := by
  induction ops using List.reverseRecOn generalizing u with
  | nil => simp [joinsOf]
  | append_singleton ops o ih =>
    obtain ⟨v, h1, h2⟩ := run_concat_ok h
    obtain ⟨hi, hn, hc⟩ := reach_inv ops h1
    intro p hp
    rw [joinsOf_append, List.mem_append] at hp
    rcases hp with hp | hp
    · exact ih h1 p hp
    · cases o <;> simp only [joinsOf, List.not_mem_nil, List.mem_singleton] at hp
      subst hp
      rename_i x y
      simp only [step] at h2
      cases hf : v.join x y with
      | ok r =>
        have := join_eq hi (b := r.1) (u' := r.2) hf
        rw [hn] at this; exact ⟨this.1, this.2.1⟩
      | panic => rw [hf] at h2; simp at h2
      | diverge => rw [hf] at h2; simp at h2

theorem Linked.same {u u' : UF} {x y fx fy : Nat} (hl : Linked u u' x y fx fy) (hi : Inv u)
    (hx : fx = x) {a b : Nat} (h : Same u a b) : Same u' a b := by
  obtain ⟨r, ha, hb⟩ := h
  by_cases e : r = fx
  · subst e
    subst hx
    exact ⟨fy, hl.root rfl a ha, hl.root rfl b hb⟩
  · exact ⟨r, hl.other a r ha e, hl.other b r hb e⟩

/-- Completeness for histories whose joins have a representative as first argument. -/
theorem firstRep_complete {n : Nat} (ops : List Op) {u : UF}
    (h : UF.run (UF.new n) ops = .ok u) (hj : JoinsFirstRep n ops) :
    ∀ p ∈ joinsOf ops, Same u p.1 p.2 := by
  induction ops using List.reverseRecOn generalizing u with
  | nil => simp [joinsOf]
  | append_singleton ops o ih =>
    obtain ⟨v, h1, h2⟩ := run_concat_ok h
    have ih := ih h1 (fun pre x y post e => hj pre x y (post ++ [o]) (by simp [e]))
    obtain ⟨hi, hn, -⟩ := reach_inv ops h1
    rcases step_eq hi h2 with ⟨hp, hq⟩ | ⟨x, y, fx, fy, rfl, hns, hl⟩
    · intro p hpm
      rw [joinsOf_append, List.mem_append] at hpm
      rcases hpm with hpm | hpm
      · exact (hp.same _ _).1 (ih p hpm)
      · cases o <;> simp only [joinsOf, List.not_mem_nil, List.mem_singleton] at hpm
        subst hpm
        exact (hp.same _ _).1 (hq _ _ rfl)
    · have hx : fx = x := by
        rcases hj ops x y [] rfl v h1 with ⟨u', h'⟩ | ⟨u', h'⟩
        · exact hl.rx.det (find_eq hi h').1
        · exact absurd ((isSame_eq hi h').2.2.1.1 rfl) hns
      intro p hpm
      rw [joinsOf_append, List.mem_append] at hpm
      rcases hpm with hpm | hpm
      · exact hl.same hi hx (ih p hpm)
      · simp only [joinsOf, List.mem_singleton] at hpm
        subst hpm
        exact ⟨fy, hl.rx', hl.ry'⟩

theorem same_of_conn {u : UF} (hinv : Inv u) {ps : List (Nat × Nat)}
    (h : ∀ p ∈ ps, Same u p.1 p.2) {x y : Nat} (hc : Conn ps x y) :
    x = y ∨ Same u x y := by
  induction hc with
  | rel a b h' => exact Or.inr (h _ h')
  | refl => exact Or.inl rfl
  | symm a b _ ih =>
    rcases ih with rfl | ⟨r, h1, h2⟩
    · exact Or.inl rfl
    · exact Or.inr ⟨r, h2, h1⟩
  | trans a b c _ _ ih1 ih2 =>
    rcases ih1 with rfl | ⟨r, h1, h2⟩
    · exact ih2
    · rcases ih2 with rfl | ⟨r', h1', h2'⟩
      · exact Or.inr ⟨r, h1, h2⟩
      · have := h2.det h1'; subst this; exact Or.inr ⟨r, h1, h2'⟩

/-! ### Sizes in histories that join representatives -/

/-- `sz[r]` is the size of the class of every representative `r`. -/
def SzOk (u : UF) : Prop := ∀ r, R u r r → ∃ cls : List Nat, cls.Nodup ∧
  (∀ j, j ∈ cls ↔ R u j r) ∧ u.sz[r]? = some cls.length

theorem cls_le {u : UF} (hi : Inv u) {r : Nat} {cls : List Nat} (hn : cls.Nodup)
    (h : ∀ j, j ∈ cls ↔ R u j r) : cls.length ≤ u.n := by
  have hs : cls ⊆ List.range u.n := by
    intro j hj; rw [List.mem_range]; exact (R.ltn hi ((h j).1 hj)).1
  have := (hn.subperm hs).length_le
  simpa using this

theorem Pres.szOk {u u' : UF} (h : Pres u u') (hs : SzOk u) : SzOk u' := by
  intro r hr
  obtain ⟨cls, a, b, c⟩ := hs r ((h.root r r).2 hr)
  exact ⟨cls, a, fun j => (b j).trans (h.root j r), by rw [h.sz]; exact c⟩

theorem Linked.szOk {u u' : UF} {x y : Nat} (hl : Linked u u' x y x y) (hi : Inv u)
    (hs : SzOk u) : SzOk u' := by
  obtain ⟨sx, sy, hsx, hsy, hsz⟩ := hl.sz
  obtain ⟨cx, nx, mx, ex⟩ := hs x hl.rx
  obtain ⟨cy, ny, my, ey⟩ := hs y hl.ry
  rw [hsx] at ex; rw [hsy] at ey
  cases ex; cases ey
  have hyl : y < u.sz.length := (List.getElem?_eq_some_iff.1 hsy).1
  have key : ∀ j r, R u' j r ↔ (R u j r ∧ r ≠ x) ∨ (r = y ∧ R u j x) := by
    intro j r
    constructor
    · intro h
      have hj := (R.ltn hl.inv h).1
      rw [hl.n] at hj
      obtain ⟨s, hs'⟩ := hi.root j hj
      by_cases e : s = x
      · subst e
        right; exact ⟨h.det (hl.root rfl j hs'), hs'⟩
      · left
        have := h.det (hl.other j s hs' e)
        subst this; exact ⟨hs', e⟩
    · rintro (⟨h, e⟩ | ⟨rfl, h⟩)
      · exact hl.other j r h e
      · exact hl.root rfl j h
  intro r hr
  by_cases e : r = y
  · subst e
    refine ⟨cy ++ cx, ?_, ?_, ?_⟩
    · rw [List.nodup_append]
      refine ⟨ny, nx, ?_⟩
      intro a ha b hb e
      subst e
      exact hl.ne (((mx a).1 hb).det ((my a).1 ha))
    · intro j
      rw [List.mem_append, key, mx, my]
      constructor
      · rintro (h | h)
        · exact Or.inl ⟨h, hl.ne.symm⟩
        · exact Or.inr ⟨rfl, h⟩
      · rintro (⟨h, _⟩ | ⟨_, h⟩)
        · exact Or.inl h
        · exact Or.inr h
    · rw [hsz, List.getElem?_set_self hyl]; simp
  · rcases (key r r).1 hr with ⟨h, e'⟩ | ⟨h, _⟩
    · obtain ⟨c, n, m, ec⟩ := hs r h
      refine ⟨c, n, fun j => ?_, by rw [hsz, List.getElem?_set_ne (Ne.symm e)]; exact ec⟩
      rw [m, key]
      constructor
      · intro h'; exact Or.inl ⟨h', e'⟩
      · rintro (⟨h', _⟩ | ⟨h', _⟩)
        · exact h'
        · exact absurd h' e
    · exact absurd h e

theorem szOk_new (n : Nat) : SzOk (UF.new n) := by
  intro r hr
  have hrn : r < n := by have := (R.ltn (inv_new n) hr).1; simpa [UF.new] using this
  refine ⟨[r], by simp, fun j => ?_, by simp [UF.new, hrn]⟩
  rw [List.mem_singleton]
  constructor
  · rintro rfl; exact hr
  · intro h; exact R_new h

/-- In-range histories joining representatives only never panic, and sizes are right. -/
theorem reps_run {n : Nat} (hn : n < 2 ^ 63) (ops : List Op) (hr : InRange n ops)
    (hj : JoinsReps n ops) : ∃ u, UF.run (UF.new n) ops = .ok u ∧ SzOk u := by
  induction ops using List.reverseRecOn with
  | nil => exact ⟨_, rfl, szOk_new n⟩
  | append_singleton ops o ih =>
    obtain ⟨v, h1, hs⟩ := ih (fun o ho => hr o (List.mem_append_left _ ho))
      (fun pre x y post e => hj pre x y (post ++ [o]) (by simp [e]))
    obtain ⟨hi, hvn, -⟩ := reach_inv ops h1
    have ho := hr o (by simp)
    rw [run_append, h1]
    simp only [ok_bind, UF.run, bind_ok]
    cases o with
    | find x =>
      obtain ⟨a, e, -, h⟩ := find_sat hi (i := x) (by rw [hvn]; exact ho)
      exact ⟨a.2, by simp [step, e], h.szOk hs⟩
    | isSame x y =>
      obtain ⟨a, e, -, h⟩ := isSame_sat hi (x := x) (y := y) (by rw [hvn]; exact ho.1)
        (by rw [hvn]; exact ho.2)
      exact ⟨a.2, by simp [step, e], h.szOk hs⟩
    | size x =>
      obtain ⟨a, e, -, h⟩ := size_sat hi (x := x) (by rw [hvn]; exact ho)
      exact ⟨a.2, by simp [step, e], h.szOk hs⟩
    | groups =>
      obtain ⟨a, e, h, -⟩ := groups_sat hi
      exact ⟨a.2, by simp [step, e], h.szOk hs⟩
    | join x y =>
      obtain ⟨fx, hfx⟩ := hi.root x (by rw [hvn]; exact ho.1)
      obtain ⟨fy, hfy⟩ := hi.root y (by rw [hvn]; exact ho.2)
      obtain ⟨sx, hsx⟩ := sz_get hi (x := x) (by rw [hvn]; exact ho.1)
      obtain ⟨sy, hsy⟩ := sz_get hi (x := y) (by rw [hvn]; exact ho.2)
      have hreps : fx ≠ fy → fx = x ∧ fy = y := by
        intro hne
        rcases hj ops x y [] rfl v h1 with ⟨⟨u', h'⟩, u'', h''⟩ | ⟨u', h'⟩
        · exact ⟨hfx.det (find_eq hi h').1, hfy.det (find_eq hi h'').1⟩
        · obtain ⟨r, a, b⟩ := (isSame_eq hi h').2.2.1.1 rfl
          exact absurd ((hfx.det a).trans (hfy.det b).symm) hne
      have hov : fx ≠ fy → sy + sx < 2 ^ 64 := by
        intro hne
        obtain ⟨rfl, rfl⟩ := hreps hne
        obtain ⟨c1, n1, m1, e1⟩ := hs _ hfx
        obtain ⟨c2, n2, m2, e2⟩ := hs _ hfy
        have l1 := cls_le hi n1 m1
        have l2 := cls_le hi n2 m2
        rw [hsx] at e1; rw [hsy] at e2; cases e1; cases e2
        omega
      obtain ⟨a, e, -⟩ := join_sat hi hfx hfy hsx hsy hov
      refine ⟨a.2, by simp [step, e], ?_⟩
      obtain ⟨_, _, h | ⟨_, hns, gx, gy, hl⟩⟩ := join_eq hi (b := a.1) (u' := a.2) e
      · exact h.2.2.szOk hs
      · have e1 := hl.rx.det hfx
        have e2 := hl.ry.det hfy
        subst e1 e2
        obtain ⟨e1, e2⟩ := hreps hl.ne
        rw [e1, e2] at hl
        exact hl.szOk hi hs

/-! ### The conditions on the joins are necessary -/

/-- The state before and after one operation of a history that returned. -/
theorem run_split {n : Nat} {pre post : List Op} {o : Op} {w : UF}
    (h : UF.run (UF.new n) (pre ++ o :: post) = .ok w) :
    ∃ u v, UF.run (UF.new n) pre = .ok u ∧ u.step o = .ok v ∧
      UF.run (UF.new n) (pre ++ [o]) = .ok v := by
  rw [show pre ++ o :: post = (pre ++ [o]) ++ post by simp, run_append] at h
  cases hr : UF.run (UF.new n) (pre ++ [o]) with
  | ok v =>
    obtain ⟨u, h1, h2⟩ := run_concat_ok hr
    exact ⟨u, v, h1, h2, rfl⟩
  | panic => rw [hr] at h; simp at h
  | diverge => rw [hr] at h; simp at h

/-- The classes after a join: only elements of the class of `x` move, to the class of `y`. -/
theorem Linked.back {u u' : UF} {x y fx fy : Nat} (hl : Linked u u' x y fx fy) (hi : Inv u) {j r : Nat}
    (h : R u' j r) (hne : r ≠ fy) : R u j r := by
  have hj := (R.ltn hl.inv h).1
  rw [hl.n] at hj
  obtain ⟨s, hs⟩ := hi.root j hj
  by_cases e : s = fx
  · subst e
    rcases hl.moved j hs with h' | h'
    · rw [h.det h']; exact hs
    · exact absurd (h.det h') hne
  · rw [h.det (hl.other j s hs e)]; exact hs

/-- Sizes that are right before and after a join of different classes: both arguments are representatives. -/
theorem Linked.reps_of_szOk {u u' : UF} {x y fx fy : Nat} (hl : Linked u u' x y fx fy) (hi : Inv u)
    (hs : SzOk u) (hs' : SzOk u') : fx = x ∧ fy = y := by
  obtain ⟨sx, sy, hsx, hsy, hsz⟩ := hl.sz
  have hx : fx = x := by
    apply Classical.byContradiction
    intro hne
    have hy : y ≠ fx := by
      rintro rfl
      exact hl.ne (hl.rx.root.det hl.ry)
    obtain ⟨c, n, m, e⟩ := hs fx hl.rx.root
    obtain ⟨c', n', m', e'⟩ := hs' fx (hl.keep hne)
    rw [hsz, List.getElem?_set_ne hy, e, Option.some.injEq] at e'
    have hsub : x :: c' ⊆ c := by
      intro j hj
      rcases List.mem_cons.1 hj with rfl | hj
      · exact (m _).2 hl.rx
      · exact (m j).2 (hl.back hi ((m' j).1 hj) hl.ne)
    have hnd : (x :: c').Nodup := List.nodup_cons.2 ⟨fun h => hl.ne (((m' x).1 h).det hl.rx'), n'⟩
    have := (hnd.subperm hsub).length_le
    simp only [List.length_cons] at this
    omega
  refine ⟨hx, ?_⟩
  apply Classical.byContradiction
  intro hne
  obtain ⟨c, n, m, e⟩ := hs fy hl.ry.root
  obtain ⟨c', n', m', e'⟩ := hs' fy (hl.other fy fy hl.ry.root hl.ne.symm)
  rw [hsz, List.getElem?_set_ne (Ne.symm hne), e, Option.some.injEq] at e'
  have hsub : x :: c ⊆ c' := by
    intro j hj
    rcases List.mem_cons.1 hj with rfl | hj
    · exact (m' _).2 hl.rx'
    · exact (m' j).2 (hl.other j fy ((m j).1 hj) hl.ne.symm)
  have hnd : (x :: c).Nodup := List.nodup_cons.2 ⟨fun h => hl.ne (hl.rx.det ((m x).1 h)), n⟩
  have := (hnd.subperm hsub).length_le
  simp only [List.length_cons] at this
  omega

/-- Sizes are right in a history that returned and joins representatives only. -/
theorem reps_szOk {n : Nat} (ops : List Op) {u : UF} (h : UF.run (UF.new n) ops = .ok u)
    (hj : JoinsReps n ops) : SzOk u := by
  induction ops using List.reverseRecOn generalizing u with
  | nil =>
    simp only [UF.run, ok.injEq] at h
    subst h
    exact szOk_new n
  | append_singleton ops o ih =>
    obtain ⟨v, h1, h2⟩ := run_concat_ok h
    have hs := ih h1 (fun pre x y post e => hj pre x y (post ++ [o]) (by simp [e]))
    obtain ⟨hi, hvn, -⟩ := reach_inv ops h1
    rcases step_eq hi h2 with ⟨hp, -⟩ | ⟨x, y, fx, fy, rfl, hns, hl⟩
    · exact hp.szOk hs
    · rcases hj ops x y [] rfl v h1 with ⟨⟨u', h'⟩, u'', h''⟩ | ⟨u', h'⟩
      · have e1 := hl.rx.det (find_eq hi h').1
        have e2 := hl.ry.det (find_eq hi h'').1
        subst e1 e2
        exact hl.szOk hi hs
      · exact absurd ((isSame_eq hi h').2.2.1.1 rfl) hns

/-- A call with an argument out of range panics. -/
theorem step_out_of_range {u : UF} (hi : Inv u) {o : Op} (h : ¬ OpInRange u.n o) : u.step o = .panic := by
  have hf : ∀ x, ¬ x < u.n → u.find x = .panic := by
    intro x hx
    unfold UF.find findF
    rw [idx_panic (by rw [hi.fa_len]; omega)]
    rfl
  cases o with
  | find x => simp [step, hf x h]
  | size x => simp [step, UF.size, assert_false (show ¬ x < u.n from h)]
  | groups => exact absurd trivial h
  | isSame x y =>
    by_cases hx : x < u.n
    · simp [step, UF.isSame, assert_true hx, assert_false (show ¬ y < u.n from fun hy => h ⟨hx, hy⟩)]
    · simp [step, UF.isSame, assert_false hx]
  | join x y =>
    by_cases hx : x < u.n
    · simp [step, UF.join, assert_true hx, assert_false (show ¬ y < u.n from fun hy => h ⟨hx, hy⟩)]
    · simp [step, UF.join, assert_false hx]

end UFP
end Verif
