import Verif.Model.Bipartite
import Verif.Prelude.SatOr
import Verif.Spec.Bipartite
import Verif.Prelude.GetD
import Mathlib.Data.List.Nodup
import Mathlib.Data.List.Perm.Subperm
import Mathlib.Data.List.Induction
/-! Kuhn's algorithm: matching invariant and König cover. -/
namespace Verif.BipP
open Res Model Spec

theorem lt_of_getD {l : List (Option Nat)} {x v : Nat} (h : l.getD x none = some v) :
    x < l.length := by
  apply Nat.lt_of_not_le
  intro hl
  rw [List.getD_eq_getElem?_getD, List.getElem?_eq_none hl] at h
  simp at h

/-! ### Counting -/

theorem cnt_mono {a b : List Bool} (hl : a.length = b.length)
    (h : ∀ i, a.getD i false = true → b.getD i false = true) :
    a.count true ≤ b.count true ∧
      ((∃ i, a.getD i false = false ∧ b.getD i false = true) → a.count true < b.count true) := by
  induction a generalizing b with
  | nil =>
    cases b with
    | nil => simp
    | cons => simp at hl
  | cons x a ih =>
    cases b with
    | nil => simp at hl
    | cons y b =>
      obtain ⟨h1, h2⟩ := ih (b := b) (by simpa using hl) (fun i => h (i + 1))
      have h0 : x = true → y = true := h 0
      refine ⟨?_, ?_⟩
      · cases x <;> cases y <;> simp_all <;> omega
      · rintro ⟨i, hi1, hi2⟩
        cases i with
        | zero =>
          have e1 : x = false := hi1
          have e2 : y = true := hi2
          subst e1 e2
          simp; omega
        | succ i =>
          have := h2 ⟨i, hi1, hi2⟩
          cases x <;> cases y <;> simp_all <;> omega

theorem count_tf (a : List Bool) : a.count true + a.count false = a.length := by
  induction a with
  | nil => rfl
  | cons x a ih => cases x <;> simp <;> omega

/-- Number of matched left vertices. -/
def matched (l : List (Option Nat)) : Nat := (l.map Option.isSome).count true

theorem getD_isSome {l : List (Option Nat)} {i : Nat} :
    (l.map Option.isSome).getD i false = (l.getD i none).isSome := by
  rw [List.getD_eq_getElem?_getD, List.getD_eq_getElem?_getD, List.getElem?_map]
  cases l[i]? <;> rfl

theorem matched_le (l : List (Option Nat)) : matched l ≤ l.length := by
  unfold matched
  exact Nat.le_trans List.count_le_length (by simp)

/-! ### Matchings as pairs of functions -/
section
variable {g : List (List Nat)}

/-- The two maps are inverse to each other and follow edges. -/
structure Mat (g : List (List Nat)) (fl fr : Nat → Option Nat) : Prop where
  inv : ∀ x v, fl x = some v ↔ fr v = some x
  edge : ∀ x v, fl x = some v → v ∈ g.getD x []

theorem Mat.aug {fl fr : Nat → Option Nat} (h : Mat g fl fr) {u v : Nat} (hv : fr v = none)
    (he : v ∈ g.getD u []) :
    Mat g (fun x => if x = u then some v else fl x)
      (fun y => if fl u = some y then none else if y = v then some u else fr y) := by
  constructor
  · intro x y
    by_cases hx : x = u
    · subst hx
      simp only [if_true]
      by_cases hy : fl x = some y
      · have : y ≠ v := by rintro rfl; rw [(h.inv _ _).1 hy] at hv; cases hv
        simp [hy, Ne.symm this]
      · simp only [hy, if_false]
        by_cases hyv : y = v
        · simp [hyv]
        · simp only [hyv, if_false]
          constructor
          · intro e; cases e; exact absurd rfl hyv
          · intro e; exact absurd ((h.inv _ _).2 e) hy
    · simp only [hx, if_false]
      by_cases hy : fl u = some y
      · simp only [hy, if_true]
        constructor
        · intro e
          have h1 := (h.inv _ _).1 e
          rw [(h.inv _ _).1 hy] at h1
          cases h1; exact absurd rfl hx
        · intro e; cases e
      · simp only [hy, if_false]
        by_cases hyv : y = v
        · subst hyv
          simp only [if_true]
          constructor
          · intro e; rw [(h.inv _ _).1 e] at hv; cases hv
          · intro e; cases e; exact absurd rfl hx
        · simp only [hyv, if_false]
          exact h.inv x y
  · intro x y hxy
    split at hxy
    · cases hxy; rename_i e; subst e; exact he
    · exact h.edge x y hxy

/-- State predicate: shapes, and the stored matching is one. -/
structure SOk (g : List (List Nat)) (m : Nat) (s : BState) : Prop where
  vis : s.vis.length = g.length
  l : s.l.length = g.length
  r : s.r.length = m
  mat : Mat g (s.l.getD · none) (s.r.getD · none)

/-- Every newly visited vertex only sees matched vertices whose partners are visited. -/
def Closed (g : List (List Nat)) (s s' : BState) : Prop :=
  ∀ x, s'.vis.getD x false = true → s.vis.getD x false = false → ∀ v ∈ g.getD x [],
    ∃ y, s.r.getD v none = some y ∧ s'.vis.getD y false = true

/-- Visited vertices stay visited. -/
def VLe (s s' : BState) : Prop :=
  s'.vis.length = s.vis.length ∧ ∀ x, s.vis.getD x false = true → s'.vis.getD x false = true

/-- Result of a successful `dfs u`. -/
structure Succ (g : List (List Nat)) (m u : Nat) (s s' : BState) : Prop where
  vle : VLe s s'
  l : s'.l.length = g.length
  r : s'.r.length = m
  keep : ∀ x, s.vis.getD x false = true → s'.l.getD x none = s.l.getD x none
  fresh : s.vis.getD u false = false
  mat : Mat g (s'.l.getD · none)
    (fun v => if s.l.getD u none = some v then none else s'.r.getD v none)
  some : ∀ x, (s'.l.getD x none).isSome = true ↔ (s.l.getD x none).isSome = true ∨ x = u

/-- Result of a failed `dfs u`. -/
structure Fail (g : List (List Nat)) (u : Nat) (s s' : BState) : Prop where
  l : s'.l = s.l
  r : s'.r = s.r
  vle : VLe s s'
  self : s'.vis.getD u false = true
  closed : Closed g s s'

theorem getD_map_false {a : List Bool} {i : Nat} (h : a.getD i false = true) : i < a.length := by
  apply Nat.lt_of_not_le
  intro hl
  rw [List.getD_eq_getElem?_getD, List.getElem?_eq_none hl] at h
  simp at h

/-- Assembly of a successful step that matches `u` with `v`. -/
theorem succ_step {m u v : Nat} {s s1 : BState} (hu : u < g.length) (hv : v < m)
    (hfresh : s.vis.getD u false = false)
    (hvle : VLe s s1) (h1l : s1.l.length = g.length) (h1r : s1.r.length = m)
    (hk : ∀ x, s.vis.getD x false = true ∨ x = u → s1.l.getD x none = s.l.getD x none)
    {fr : Nat → Option Nat} (hmat : Mat g (s1.l.getD · none) fr) (hfrv : fr v = none)
    (hfr : ∀ y, y ≠ v → fr y = s1.r.getD y none)
    (he : v ∈ g.getD u [])
    (hsome : ∀ x, (s1.l.getD x none).isSome = true ↔ (s.l.getD x none).isSome = true) :
    Succ g m u s { s1 with l := s1.l.set u (some v), r := s1.r.set v (some u) } := by
  have hul : u < s1.l.length := by omega
  have hvr : v < s1.r.length := by omega
  refine ⟨hvle, by simpa using h1l, by simpa using h1r, ?_, hfresh, ?_, ?_⟩
  · intro x hx
    have hxu : x ≠ u := by rintro rfl; rw [hfresh] at hx; cases hx
    show (s1.l.set u (some v)).getD x none = _
    rw [getD_set hul, if_neg hxu, hk x (.inl hx)]
  · have := hmat.aug hfrv he
    have e1 : (fun x => (s1.l.set u (some v)).getD x none) =
        (fun x => if x = u then some v else s1.l.getD x none) := by
      funext x; exact getD_set hul
    have e2 : (fun y => if s.l.getD u none = some y then none else
          (s1.r.set v (some u)).getD y none) =
        (fun y => if s1.l.getD u none = some y then none else if y = v then some u else fr y) := by
      funext y
      rw [hk u (.inr rfl), getD_set hvr]
      by_cases hy : y = v
      · simp [hy]
      · simp [hy, hfr y hy]
    show Mat g (fun x => (s1.l.set u (some v)).getD x none)
      (fun y => if s.l.getD u none = some y then none else (s1.r.set v (some u)).getD y none)
    rw [e1, e2]; exact this
  · intro x
    show ((s1.l.set u (some v)).getD x none).isSome = true ↔ _
    rw [getD_set hul]
    by_cases hx : x = u
    · simp [hx]
    · simp only [hx, if_false, or_false]
      exact hsome x

/-- Some edge ends outside the right side. -/
def RightOut (g : List (List Nat)) (m : Nat) : Prop := ∃ x v, v ∈ g.getD x [] ∧ m ≤ v

theorem dfs_satOr {m : Nat} :
    ∀ (fuel u : Nat) (s : BState), SOk g m s → u < g.length → s.vis.count false < fuel →
    SatOr (RightOut g m) (AugmentedPath.dfs fuel u g s) (fun o =>
      if o.2 then Succ g m u s o.1 else Fail g u s o.1) := by
  intro fuel
  induction fuel with
  | zero => intro u s _ _ h; omega
  | succ fuel ih =>
    intro u s hs hu hf
    unfold AugmentedPath.dfs
    have huv : u < s.vis.length := by rw [hs.vis]; exact hu
    rw [idx_of_some (some_getD false huv), ok_bind]
    cases hvu : s.vis.getD u false with
    | true =>
      simp only [if_true, satOr_ok, Bool.false_eq_true, if_false]
      refine ⟨rfl, rfl, ⟨rfl, fun _ h => h⟩, hvu, ?_⟩
      intro x h1 h2
      rw [h1] at h2; cases h2
    | false =>
      simp only [Bool.false_eq_true, if_false]
      rw [upd_of_lt huv, ok_bind]
      rw [idx_of_some (some_getD [] hu), ok_bind]
      refine satOr_bind ?_
      have hset : ∀ x, (s.vis.set u true).getD x false = true ↔ s.vis.getD x false = true ∨ x = u := by
        intro x; rw [getD_set huv]; by_cases hx : x = u <;> simp [hx]
      have hvle0 : VLe s { s with vis := s.vis.set u true } :=
        ⟨by simp, fun x hx => (hset x).2 (.inl hx)⟩
      -- first loop
      refine (forBrk_satOr (fun xs _ => ∃ dn, g.getD u [] = dn ++ xs ∧
        ∀ v ∈ dn, v < m ∧ ∃ y, s.r.getD v none = some y) (Succ g m u s) (g.getD u []) () ⟨[], rfl, by simp⟩
        ?_).mono ?_
      · rintro v xs _ hv ⟨dn, hdn, hdn2⟩
        by_cases hvm : v < m
        swap
        · rw [idx_panic (by rw [hs.r]; omega), panic_bind]
          exact satOr_panic ⟨u, v, hv, by omega⟩
        rw [idx_of_some (some_getD none (by rw [hs.r]; exact hvm)), ok_bind]
        cases hrv : s.r.getD v none with
        | none =>
          simp only [Option.isNone_none, if_true]
          rw [upd_of_lt (by rw [hs.l]; exact hu), ok_bind, upd_of_lt (by rw [hs.r]; exact hvm), ok_bind,
            satOr_ok]
          exact succ_step (s := s) (s1 := { s with vis := s.vis.set u true }) hu hvm hvu hvle0 hs.l hs.r
            (fun _ _ => rfl) hs.mat hrv (fun _ _ => rfl) hv (fun _ => Iff.rfl)
        | some y =>
          simp only [Option.isNone_some, Bool.false_eq_true, if_false, satOr_ok]
          refine ⟨dn ++ [v], by rw [hdn]; simp, ?_⟩
          intro w hw
          rcases List.mem_append.1 hw with hw | hw
          · exact hdn2 w hw
          · simp at hw; subst hw; exact ⟨hvm, y, hrv⟩
      · rintro (_ | s') hc
        · obtain ⟨dn, hdn, hall⟩ := hc
          rw [List.append_nil] at hdn
          rw [← hdn] at hall
          simp only []
          refine satOr_bind ?_
          -- second loop
          refine (forBrk_satOr (fun xs (s1 : BState) => s1.l = s.l ∧ s1.r = s.r ∧ VLe s s1 ∧
            s1.vis.getD u false = true ∧
            (∀ x, x ≠ u → s1.vis.getD x false = true → s.vis.getD x false = false →
              ∀ v ∈ g.getD x [], ∃ y, s.r.getD v none = some y ∧ s1.vis.getD y false = true) ∧
            ∃ dn, g.getD u [] = dn ++ xs ∧
              ∀ v ∈ dn, ∃ y, s.r.getD v none = some y ∧ s1.vis.getD y false = true)
            (Succ g m u s) (g.getD u []) { s with vis := s.vis.set u true }
            ⟨rfl, rfl, hvle0, (hset u).2 (.inr rfl), ?_, [], rfl, by simp⟩ ?_).mono ?_
          · intro x hx h1 h2
            rcases (hset x).1 h1 with h | h
            · rw [h] at h2; cases h2
            · exact absurd h hx
          · rintro v xs s1 hv ⟨e1, e2, hvle, hsu, hcl, dn, hdn, hdn2⟩
            obtain ⟨hvm, w, hw⟩ := hall v hv
            have hlw := (hs.mat.inv w v).2 hw
            have hwg : w < g.length := by rw [← hs.l]; exact lt_of_getD hlw
            have hs1 : SOk g m s1 := ⟨by rw [hvle.1]; exact hs.vis, by rw [e1]; exact hs.l,
              by rw [e2]; exact hs.r, by rw [e1, e2]; exact hs.mat⟩
            rw [e2, idx_of_some (some_getD none (by rw [hs.r]; exact hvm)), ok_bind, hw, unwrap_some,
              ok_bind]
            refine satOr_bind ?_
            refine (ih w s1 hs1 hwg ?_).mono ?_
            · have h1 := (cnt_mono (a := s.vis) (b := s1.vis) hvle.1.symm hvle.2).2 ⟨u, hvu, hsu⟩
              have h2 := count_tf s.vis
              have h3 := count_tf s1.vis
              have h4 := hvle.1
              omega
            · rintro ⟨s2, b⟩ hb
              cases b with
              | true =>
                simp only [if_true] at hb ⊢
                rw [upd_of_lt (by rw [hb.l]; exact hu), ok_bind, upd_of_lt (by rw [hb.r]; exact hvm),
                  ok_bind, satOr_ok]
                have hlw1 : s1.l.getD w none = some v := by rw [e1]; exact hlw
                have hm := hb.mat
                rw [hlw1] at hm
                refine succ_step (fr := fun y => if some v = some y then none else s2.r.getD y none)
                  hu hvm hvu ?_ hb.l hb.r ?_ hm (by simp) ?_ hv ?_
                · exact ⟨by rw [hb.vle.1, hvle.1], fun x hx => hb.vle.2 x (hvle.2 x hx)⟩
                · rintro x (hx | rfl)
                  · rw [hb.keep x (hvle.2 x hx), e1]
                  · rw [hb.keep x hsu, e1]
                · intro y hy
                  simp [Ne.symm hy]
                · intro x
                  rw [hb.some x, e1]
                  constructor
                  · rintro (h | rfl)
                    · exact h
                    · rw [hlw]; rfl
                  · exact .inl
              | false =>
                simp only [Bool.false_eq_true, if_false, satOr_ok] at hb ⊢
                refine ⟨hb.l.trans e1, hb.r.trans e2,
                  ⟨by rw [hb.vle.1, hvle.1], fun x hx => hb.vle.2 x (hvle.2 x hx)⟩,
                  hb.vle.2 u hsu, ?_, dn ++ [v], by rw [hdn]; simp, ?_⟩
                · intro x hxu hx hx0 v' hv'
                  by_cases hx1 : s1.vis.getD x false = true
                  · obtain ⟨y, hy1, hy2⟩ := hcl x hxu hx1 hx0 v' hv'
                    exact ⟨y, hy1, hb.vle.2 y hy2⟩
                  · obtain ⟨y, hy1, hy2⟩ := hb.closed x hx (by simpa using hx1) v' hv'
                    exact ⟨y, by rw [← e2]; exact hy1, hy2⟩
                · intro v' hv'
                  rcases List.mem_append.1 hv' with hv' | hv'
                  · obtain ⟨y, hy1, hy2⟩ := hdn2 v' hv'
                    exact ⟨y, hy1, hb.vle.2 y hy2⟩
                  · simp at hv'; subst hv'
                    exact ⟨w, hw, hb.self⟩
          · rintro (s1 | s1) hc
            · obtain ⟨e1, e2, hvle, hsu, hcl, dn, hdn, hdn2⟩ := hc
              rw [List.append_nil] at hdn
              simp only [satOr_ok, Bool.false_eq_true, if_false]
              refine ⟨e1, e2, hvle, hsu, ?_⟩
              intro x hx hx0 v hv
              by_cases hxu : x = u
              · subst hxu
                exact hdn2 v (hdn ▸ hv)
              · exact hcl x hxu hx hx0 v hv
            · simpa using hc
        · simpa using hc

/-! ### Optimality -/

theorem matched_eq (l : List (Option Nat)) :
    matched l = ((List.range l.length).filter fun x => (l.getD x none).isSome).length := by
  induction l using List.reverseRecOn with
  | nil => rfl
  | append_singleton l a ih =>
    simp only [matched, List.map_append, List.count_append, List.length_append, List.length_singleton,
      List.range_succ, List.filter_append, List.length_append] at ih ⊢
    rw [ih]
    have h1 : (List.range l.length).filter (fun x => ((l ++ [a]).getD x none).isSome) =
        (List.range l.length).filter (fun x => (l.getD x none).isSome) := by
      apply List.filter_congr
      intro x hx
      rw [List.getD_eq_getElem?_getD, List.getD_eq_getElem?_getD,
        List.getElem?_append_left (List.mem_range.1 hx)]
    rw [h1]
    have h2 : (l ++ [a]).getD l.length none = a := by
      rw [List.getD_eq_getElem?_getD]; simp
    cases a <;> simp [h2, List.filter_cons]

/-- A failed phase certifies optimality. -/
theorem optimal {m : Nat} {s : BState} (hs : SOk g m s) {E : List (Nat × Nat)}
    (hE : ∀ x v, (x, v) ∈ E ↔ v ∈ g.getD x [])
    (hcl : ∀ x, s.vis.getD x false = true → ∀ v ∈ g.getD x [],
      ∃ y, s.r.getD v none = some y ∧ s.vis.getD y false = true)
    (hun : ∀ x, x < g.length → s.l.getD x none = none → s.vis.getD x false = true) :
    IsMaxMatching E (matched s.l) := by
  constructor
  · refine ⟨((List.range s.l.length).filter fun x => (s.l.getD x none).isSome).map
      (fun x => (x, (s.l.getD x none).getD 0)), ⟨?_, ?_, ?_⟩, by rw [List.length_map, matched_eq]⟩
    · rintro ⟨x, v⟩ he
      simp only [List.mem_map, List.mem_filter, Prod.mk.injEq] at he
      obtain ⟨x', ⟨_, hx⟩, rfl, rfl⟩ := he
      obtain ⟨v, hv⟩ := Option.isSome_iff_exists.1 hx
      rw [hE, hv]
      exact hs.mat.edge _ _ hv
    · rw [List.map_map]
      have : (Prod.fst ∘ fun x => (x, (s.l.getD x none).getD 0)) = id := rfl
      rw [this, List.map_id]
      exact List.Nodup.filter _ List.nodup_range
    · rw [List.map_map]
      refine List.Nodup.map_on ?_ (List.Nodup.filter _ List.nodup_range)
      intro x hx y hy hxy
      simp only [List.mem_filter] at hx hy
      obtain ⟨v, hv⟩ := Option.isSome_iff_exists.1 hx.2
      obtain ⟨w, hw⟩ := Option.isSome_iff_exists.1 hy.2
      simp only [Function.comp, hv, hw, Option.getD_some] at hxy
      subst hxy
      have h1 := (hs.mat.inv _ _).1 hv
      have h2 := (hs.mat.inv _ _).1 hw
      rw [h1] at h2; exact Option.some.inj h2
  · intro M hM
    -- charge every edge to a matched left vertex
    let φ : Nat × Nat → Nat := fun e =>
      if s.vis.getD e.1 false then (s.r.getD e.2 none).getD 0 else e.1
    have hφ : ∀ e ∈ M, (s.vis.getD e.1 false = true ∧ s.r.getD e.2 none = some (φ e) ∧
        s.vis.getD (φ e) false = true ∧ (s.l.getD (φ e) none).isSome) ∨
        (s.vis.getD e.1 false = false ∧ φ e = e.1 ∧ (s.l.getD e.1 none).isSome) := by
      intro e he
      have hadj := (hE e.1 e.2).1 (hM.sub e he)
      cases hv : s.vis.getD e.1 false with
      | true =>
        left
        obtain ⟨y, hy1, hy2⟩ := hcl e.1 hv e.2 hadj
        have e1 : φ e = y := by show (if _ then _ else _) = y; rw [hv, hy1]; rfl
        have := (hs.mat.inv y e.2).2 hy1
        exact ⟨rfl, by rw [e1]; exact hy1, by rw [e1]; exact hy2, by rw [e1, this]; rfl⟩
      | false =>
        right
        refine ⟨rfl, by show (if _ then _ else _) = _; rw [hv]; rfl, ?_⟩
        have hx : e.1 < g.length := by
          apply Nat.lt_of_not_le
          intro hl
          rw [List.getD_eq_getElem?_getD, List.getElem?_eq_none hl] at hadj
          simp at hadj
        cases hl : s.l.getD e.1 none with
        | none => rw [hun e.1 hx hl] at hv; cases hv
        | some => rfl
    have hM1 := hM.left
    have hM2 := hM.right
    have hnd : (M.map φ).Nodup := by
      have hMn : M.Nodup := List.Nodup.of_map _ hM1
      refine List.Nodup.map_on ?_ hMn
      intro a ha b hb hab
      rcases hφ a ha with ⟨a1, a2, a3, a4⟩ | ⟨a1, a2, a3⟩ <;>
        rcases hφ b hb with ⟨b1, b2, b3, b4⟩ | ⟨b1, b2, b3⟩
      · rw [← hab] at b2
        have h1 := (hs.mat.inv _ _).2 a2
        have h2 := (hs.mat.inv _ _).2 b2
        rw [h1] at h2
        exact List.inj_on_of_nodup_map hM2 ha hb (Option.some.inj h2)
      · rw [hab, b2] at a3; rw [a3] at b1; cases b1
      · rw [← hab, a2] at b3; rw [b3] at a1; cases a1
      · rw [a2, b2] at hab
        exact List.inj_on_of_nodup_map hM1 ha hb hab
    rw [matched_eq, ← List.length_map (f := φ)]
    refine (hnd.subperm ?_).length_le
    intro x hx
    obtain ⟨e, he, rfl⟩ := List.mem_map.1 hx
    rw [List.mem_filter, List.mem_range]
    have hsm : (s.l.getD (φ e) none).isSome = true := by
      rcases hφ e he with ⟨-, -, -, h⟩ | ⟨-, h1, h⟩
      · exact h
      · rw [h1]; exact h
    obtain ⟨v, hv⟩ := Option.isSome_iff_exists.1 hsm
    exact ⟨lt_of_getD hv, hsm⟩

/-- The same for the edges inside the graph. -/
theorem optimal_in {m : Nat} {s : BState} (hs : SOk g m s) {E : List (Nat × Nat)}
    (hE : ∀ x v, (x, v) ∈ E ↔ v ∈ g.getD x [])
    (hcl : ∀ x, s.vis.getD x false = true → ∀ v ∈ g.getD x [],
      ∃ y, s.r.getD v none = some y ∧ s.vis.getD y false = true)
    (hun : ∀ x, x < g.length → s.l.getD x none = none → s.vis.getD x false = true) :
    IsMaxMatching (E.filter fun e => e.2 < m) (matched s.l) := by
  have hm : ∀ x v, v ∈ (g.map fun a => a.filter (· < m)).getD x [] ↔ v ∈ g.getD x [] ∧ v < m := by
    intro x v
    simp only [List.getD_eq_getElem?_getD, List.getElem?_map]
    cases g[x]? <;> simp
  refine optimal (g := g.map fun a => a.filter (· < m)) (m := m) (s := s)
    ⟨by simpa using hs.vis, by simpa using hs.l, hs.r, ⟨hs.mat.inv, ?_⟩⟩ ?_ ?_ ?_
  · intro x v hv
    refine (hm x v).2 ⟨hs.mat.edge x v hv, ?_⟩
    rw [← hs.r]; exact lt_of_getD ((hs.mat.inv x v).1 hv)
  · intro x v
    rw [hm, List.mem_filter, hE]; simp
  · intro x hx v hv
    exact hcl x hx v ((hm x v).1 hv).1
  · intro x hx
    exact hun x (by simpa using hx)

/-! ### `solve` -/

/-- What the last phase of `solve` leaves in `vis`, `l` and `r`. -/
structure Cert (m : Nat) (t t' : AugmentedPath) (k : Nat) : Prop where
  g : t'.g = t.g
  sok : SOk t.g m { vis := t'.vis, l := t'.l, r := t'.r }
  closed : ∀ x, t'.vis.getD x false = true → ∀ v ∈ t.g.getD x [],
    ∃ y, t'.r.getD v none = some y ∧ t'.vis.getD y false = true
  free : ∀ x, x < t.g.length → t'.l.getD x none = none → t'.vis.getD x false = true
  size : k = matched t'.l

/-- What holds after a round of `solve`, begun in `s0`, that has tried the vertices below `j`. -/
def PhaseOk (g : List (List Nat)) (m : Nat) (s0 : BState) (j : Nat) (o : BState × Bool) : Prop :=
  SOk g m o.1 ∧
    (if o.2 then matched s0.l < matched o.1.l else
      o.1.l = s0.l ∧ o.1.r = s0.r ∧
      (∀ x, o.1.vis.getD x false = true → ∀ v ∈ g.getD x [],
        ∃ y, o.1.r.getD v none = some y ∧ o.1.vis.getD y false = true) ∧
      ∀ x, x < j → o.1.l.getD x none = none → o.1.vis.getD x false = true)

theorem phase_satOr {m n : Nat} {s0 : BState} (hn : n = g.length) (h0 : SOk g m s0) :
    SatOr (RightOut g m) (AugmentedPath.phase n g s0) (PhaseOk g m s0 n) := by
  unfold AugmentedPath.phase
  simp only []
  refine (forRange_satOr (σ := BState × Bool) (PhaseOk g m s0) (Nat.zero_le _) ?_ ?_)
  · have hrep : ∀ x, (List.replicate s0.vis.length false).getD x false = false := by
      intro x
      rw [List.getD_eq_getElem?_getD, List.getElem?_replicate]
      split <;> rfl
    simp only [PhaseOk, Bool.false_eq_true, if_false]
    refine ⟨⟨by simpa using h0.vis, h0.l, h0.r, h0.mat⟩, trivial, trivial, ?_, by omega⟩
    intro x hx; rw [hrep] at hx; cases hx
  · rintro j ⟨s, found⟩ _ hj ⟨h1, h2⟩
    unfold PhaseOk
    simp only at h1 h2 ⊢
    rw [idx_of_some (some_getD none (by rw [h1.l]; omega)), ok_bind]
    cases hlj : s.l.getD j none with
    | some w =>
      simp only [Option.isNone_some, Bool.false_eq_true, if_false, satOr_ok]
      refine ⟨h1, ?_⟩
      cases found with
      | true => simpa using h2
      | false =>
        simp only [Bool.false_eq_true, if_false] at h2 ⊢
        refine ⟨h2.1, h2.2.1, h2.2.2.1, ?_⟩
        intro x hx hxn
        by_cases e : x = j
        · subst e; rw [hlj] at hxn; cases hxn
        · exact h2.2.2.2 x (by omega) hxn
    | none =>
      simp only [Option.isNone_none, if_true]
      refine satOr_bind ?_
      refine (dfs_satOr (n + 1) j s h1 (by omega) ?_).mono ?_
      · have := count_tf s.vis
        have := h1.vis
        omega
      · rintro ⟨s', b⟩ hb
        cases b with
        | true =>
          simp only [if_true, Bool.or_true, satOr_ok] at hb ⊢
          have hm := hb.mat
          rw [hlj] at hm
          simp only [reduceCtorEq, if_false] at hm
          refine ⟨⟨by rw [hb.vle.1]; exact h1.vis, hb.l, hb.r, hm⟩, ?_⟩
          have hc := cnt_mono (a := s.l.map Option.isSome) (b := s'.l.map Option.isSome)
            (by simp [hb.l, h1.l]) (by
              intro i hi
              rw [getD_isSome] at hi ⊢
              exact (hb.some i).2 (.inl hi))
          have hlt : matched s.l < matched s'.l := hc.2 ⟨j, by rw [getD_isSome, hlj]; rfl, by
            rw [getD_isSome]; exact (hb.some j).2 (.inr rfl)⟩
          have hle : matched s0.l ≤ matched s.l := by
            cases found with
            | true => simp only [if_true] at h2; omega
            | false => simp only [Bool.false_eq_true, if_false] at h2; exact h2.1 ▸ Nat.le_refl _
          omega
        | false =>
          simp only [Bool.false_eq_true, if_false, Bool.or_false, satOr_ok] at hb ⊢
          refine ⟨⟨by rw [hb.vle.1]; exact h1.vis, by rw [hb.l]; exact h1.l,
            by rw [hb.r]; exact h1.r, by rw [hb.l, hb.r]; exact h1.mat⟩, ?_⟩
          cases found with
          | true => simp only [if_true] at h2 ⊢; rw [hb.l]; exact h2
          | false =>
            simp only [Bool.false_eq_true, if_false] at h2 ⊢
            refine ⟨hb.l.trans h2.1, hb.r.trans h2.2.1, ?_, ?_⟩
            · intro x hx v hv
              rw [hb.r]
              by_cases hx0 : s.vis.getD x false = true
              · obtain ⟨y, hy1, hy2⟩ := h2.2.2.1 x hx0 v hv
                exact ⟨y, hy1, hb.vle.2 y hy2⟩
              · exact hb.closed x hx (by simpa using hx0) v hv
            · intro x hx hxn
              rw [hb.l] at hxn
              by_cases e : x = j
              · subst e; exact hb.self
              · exact hb.vle.2 x (h2.2.2.2 x (by omega) hxn)

theorem solve_cert {m : Nat} {t : AugmentedPath}
    (hs : SOk t.g m { vis := t.vis, l := t.l, r := t.r }) :
    SatOr (RightOut t.g m) t.solve (fun o => Cert m t o.1 o.2) := by
  unfold AugmentedPath.solve
  have hn : t.l.length = t.g.length := hs.l
  refine satOr_bind ?_
  refine (loop_satOrG (σ := BState) (fun s k => SOk t.g m s ∧ k = t.l.length - matched s.l)
    (fun s => SOk t.g m s ∧
      (∀ x, s.vis.getD x false = true → ∀ v ∈ t.g.getD x [],
        ∃ y, s.r.getD v none = some y ∧ s.vis.getD y false = true) ∧
      (∀ x, x < t.g.length → s.l.getD x none = none → s.vis.getD x false = true))
    ?_ _ _ (t.l.length - matched t.l) ⟨hs, rfl⟩ (by omega)).mono ?_
  · rintro s0 k ⟨h0, rfl⟩
    simp only []
    refine satOr_bind ?_
    refine (phase_satOr hn h0).mono ?_
    · rintro ⟨s, found⟩ ⟨h1, h2⟩
      cases found with
      | true =>
        simp only [if_true, Bool.not_true, Bool.false_eq_true, if_false, satOr_ok] at h2 ⊢
        have := matched_le s.l
        have : s.l.length = _ := h1.l
        exact ⟨_, by omega, h1, rfl⟩
      | false =>
        simp only [Bool.false_eq_true, if_false, Bool.not_false, if_true, satOr_ok] at h2 ⊢
        exact ⟨h1, h2.2.2.1, fun x hx => h2.2.2.2 x (by omega)⟩
  · rintro s ⟨h1, h2, h3⟩
    refine satOr_bind ?_
    refine (forRange_satOr (fun j (k : Nat) => k = matched (s.l.take j)) (Nat.zero_le _) rfl ?_).mono ?_
    · rintro j k _ hj rfl
      have hjl : j < s.l.length := by rw [h1.l]; omega
      rw [idx_of_lt hjl, ok_bind]
      have e : s.l.take (j + 1) = s.l.take j ++ [s.l[j]] := by simp
      rw [e, matched, matched, List.map_append, List.count_append]
      cases s.l[j] <;> simp
    · rintro k rfl
      simp only [satOr_ok]
      exact ⟨rfl, h1, h2, h3, by rw [List.take_of_length_le (by rw [h1.l]; omega)]⟩

theorem solve_satOr {m : Nat} {t : AugmentedPath} {E : List (Nat × Nat)}
    (hs : SOk t.g m { vis := t.vis, l := t.l, r := t.r })
    (hE : ∀ x v, (x, v) ∈ E ↔ v ∈ t.g.getD x []) :
    SatOr (RightOut t.g m) t.solve (fun o => o.1.g = t.g ∧
      SOk t.g m { vis := o.1.vis, l := o.1.l, r := o.1.r } ∧ IsMaxMatching E o.2 ∧
        IsMaxMatching (E.filter fun e => e.2 < m) o.2) :=
  (solve_cert hs).mono fun _ h => ⟨h.g, h.sok, by
    rw [h.size]; exact ⟨optimal h.sok hE h.closed h.free, optimal_in h.sok hE h.closed h.free⟩⟩

theorem solve_sat {m : Nat} {t : AugmentedPath} {E : List (Nat × Nat)}
    (hs : SOk t.g m { vis := t.vis, l := t.l, r := t.r })
    (hg : ∀ x, ∀ v ∈ t.g.getD x [], v < m)
    (hE : ∀ x v, (x, v) ∈ E ↔ v ∈ t.g.getD x []) :
    Sat t.solve (fun o => o.1.g = t.g ∧
      SOk t.g m { vis := o.1.vis, l := o.1.l, r := o.1.r } ∧ IsMaxMatching E o.2) :=
  ((solve_satOr hs hE).sat fun ⟨x, v, h1, h2⟩ => absurd (hg x v h1) (by omega)).mono
    fun _ h => ⟨h.1, h.2.1, h.2.2.1⟩

end
end Verif.BipP
