import Mathlib.Data.List.Basic
import Mathlib.Data.List.Nodup
import Mathlib.Data.Finset.Card
import Mathlib.Data.Finset.Range
import Verif.Spec.Tree
/-! Rooted trees from adjacency lists: root paths, and the forest a depth-first search follows. -/
namespace Verif.TreeP
open Spec

/-- Ordered forest in first-child / next-sibling form. -/
inductive Forest where
  | nil
  | cons (v : Nat) (c s : Forest)

namespace Forest
/-- Preorder listing. -/
def pre : Forest → List Nat
  | nil => []
  | cons v c s => v :: (pre c ++ pre s)
/-- Number of nodes. -/
def size : Forest → Nat
  | nil => 0
  | cons _ c s => 1 + size c + size s
/-- Number of levels. -/
def height : Forest → Nat
  | nil => 0
  | cons _ c s => max (1 + height c) (height s)

theorem pre_length (f : Forest) : f.pre.length = f.size := by
  induction f with
  | nil => rfl
  | cons v c s h1 h2 => simp [pre, size, h1, h2]; omega
end Forest

/-- `f` is the forest visited below `u` (coming from `p`) along the adjacency entries `l`. -/
inductive FRep (g : List (List Nat)) : Nat → Nat → List Nat → Forest → Prop where
  | nil {u p} : FRep g u p [] .nil
  | skip {u p l f} : FRep g u p l f → FRep g u p (p :: l) f
  | child {u p v l c s} : v ≠ p → FRep g v u (g.getD v []) c → FRep g u p l s →
      FRep g u p (v :: l) (.cons v c s)

/-- Every node's root path extends its parent's. -/
def PathsOk (R : Nat → List Nat) : Nat → Forest → Prop
  | _, .nil => True
  | u, .cons v c s => R v = R u ++ [v] ∧ PathsOk R v c ∧ PathsOk R u s

open Classical in
/-- The path from the root (when there is one). -/
noncomputable def rpath (g : List (List Nat)) (root v : Nat) : List Nat :=
  if h : ∃ p, IsPath g root v p then h.choose else []

section
variable {g : List (List Nat)} {root : Nat}

theorem _root_.Verif.Spec.IsPath.ne_nil {u v : Nat} {p : List Nat} (h : IsPath g u v p) : p ≠ [] := by
  rintro rfl; simpa using h.head

theorem _root_.Verif.Spec.IsPath.singleton (u : Nat) : IsPath g u u [u] :=
  ⟨rfl, rfl, by simp, by simp⟩

theorem _root_.Verif.Spec.IsPath.lt (T : IsTree g) {u v : Nat} {p : List Nat} (h : IsPath g u v p)
    (hu : u < g.length) : ∀ x ∈ p, x < g.length := by
  have : ∀ (p : List Nat) (u : Nat), p.head? = some u → u < g.length →
      p.IsChain (fun a b => b ∈ g.getD a []) → ∀ x ∈ p, x < g.length := by
    intro p
    induction p with
    | nil => simp
    | cons a p ih =>
      intro u hh hu hc x hx
      simp only [List.head?_cons, Option.some.injEq] at hh
      subst hh
      rcases List.mem_cons.1 hx with rfl | hx
      · exact hu
      · cases p with
        | nil => simp at hx
        | cons b p =>
          rw [List.isChain_cons_cons] at hc
          exact ih b rfl (T.inRange _ _ hc.1) hc.2 x hx
  exact this p u h.head hu h.chain

theorem _root_.Verif.Spec.IsPath.length_le (T : IsTree g) {u v : Nat} {p : List Nat} (h : IsPath g u v p)
    (hu : u < g.length) : p.length ≤ g.length := by
  have h1 : p.toFinset ⊆ Finset.range g.length := by
    intro x hx
    exact Finset.mem_range.2 (h.lt T hu x (List.mem_toFinset.1 hx))
  have := Finset.card_le_card h1
  rwa [List.toFinset_card_of_nodup h.nodup, Finset.card_range] at this

theorem _root_.Verif.Spec.IsPath.take {u v x : Nat} {A B : List Nat} (h : IsPath g u v (A ++ x :: B)) :
    IsPath g u x (A ++ [x]) := by
  have hc := h.chain
  have hn := h.nodup
  rw [show A ++ x :: B = (A ++ [x]) ++ B by simp] at hc hn
  refine ⟨?_, by simp, hc.left_of_append, (List.nodup_append.1 hn).1⟩
  have := h.head
  cases A <;> simpa using this

theorem _root_.Verif.Spec.IsPath.drop {u v x : Nat} {A B : List Nat} (h : IsPath g u v (A ++ x :: B)) :
    IsPath g x v (x :: B) := by
  refine ⟨rfl, ?_, h.chain.right_of_append, (List.nodup_append.1 h.nodup).2.1⟩
  have := h.last
  rwa [List.getLast?_append_cons] at this

theorem _root_.Verif.Spec.IsPath.snoc {u v w : Nat} {p : List Nat} (h : IsPath g u v p) (hw : w ∈ g.getD v [])
    (hn : w ∉ p) : IsPath g u w (p ++ [w]) := by
  refine ⟨?_, by simp, ?_, ?_⟩
  · have := h.head; cases p <;> simp_all
  · refine h.chain.append (by simp) ?_
    intro x hx y hy
    rw [h.last] at hx
    simp only [List.head?_cons, Option.mem_def, Option.some.injEq] at hx hy
    subst hx; subst hy; exact hw
  · rw [List.nodup_append]
    refine ⟨h.nodup, by simp, ?_⟩
    rintro a ha b hb rfl
    simp only [List.mem_singleton] at hb
    exact hn (hb ▸ ha)

theorem _root_.Verif.Spec.IsPath.eq (T : IsTree g) {u v : Nat} {p q : List Nat} (hp : IsPath g u v p)
    (hq : IsPath g u v q) (hu : u < g.length) : p = q := by
  have hv : v < g.length := hp.lt T hu v (List.mem_of_getLast? hp.last)
  exact (T.path u v hu hv).unique hp hq

variable (T : IsTree g) (hr : root < g.length)
include T hr

theorem rpath_path {v : Nat} (hv : v < g.length) : IsPath g root v (rpath g root v) := by
  have h := (T.path root v hr hv).exists
  unfold rpath
  rw [dif_pos h]
  exact h.choose_spec

theorem rpath_eq {v : Nat} {p : List Nat} (h : IsPath g root v p) : rpath g root v = p := by
  have hv : v < g.length := h.lt T hr v (List.mem_of_getLast? h.last)
  exact (rpath_path T hr hv).eq T h hr

theorem rpath_root : rpath g root root = [root] := rpath_eq T hr (.singleton root)

theorem rpath_split {u v : Nat} {A B : List Nat} (hv : v < g.length)
    (h : rpath g root v = A ++ u :: B) : rpath g root u = A ++ [u] := by
  have := rpath_path T hr hv
  rw [h] at this
  exact rpath_eq T hr this.take

theorem rpath_snoc {v : Nat} (hv : v < g.length) : ∃ A, rpath g root v = A ++ [v] := by
  have := (rpath_path T hr hv).last
  rw [List.getLast?_eq_some_iff] at this
  exact this

/-- Adjacent vertices: one root path extends the other. -/
theorem rpath_adj {u v : Nat} (hu : u < g.length) (ha : v ∈ g.getD u []) :
    rpath g root v = rpath g root u ++ [v] ∨ rpath g root u = rpath g root v ++ [u] := by
  have hP := rpath_path T hr hu
  by_cases hv : v ∈ rpath g root u
  · right
    obtain ⟨A, B, hAB⟩ := List.append_of_mem hv
    have hRv := rpath_split T hr hu hAB
    have hvu : v ≠ u := by rintro rfl; exact T.irrefl _ ha
    rw [hAB] at hP
    have h1 := hP.drop
    have h2 : IsPath g v u [v, u] :=
      ⟨rfl, rfl, by simp only [List.isChain_cons_cons, List.isChain_singleton, and_true]
                    exact T.symm _ _ ha, by simp [hvu]⟩
    have := h1.eq T h2 (T.inRange _ _ ha)
    rw [hAB, hRv, this]; simp
  · left
    exact rpath_eq T hr (hP.snoc ha hv)

/-- Existence of the DFS forest below `u`. -/
theorem forest_exists : ∀ k u p l, u < g.length →
    (∀ v ∈ l, v ∈ g.getD u [] ∧ (v ≠ p → rpath g root v = rpath g root u ++ [v])) →
    g.length ≤ (rpath g root u).length + k →
    ∃ f, FRep g u p l f ∧ PathsOk (rpath g root) u f ∧ f.height ≤ k := by
  intro k
  induction k with
  | zero =>
    intro u p l hu hl hk
    have : ∀ v ∈ l, v = p := by
      intro v hv
      by_contra hvp
      obtain ⟨h1, h2⟩ := hl v hv
      have h3 := (rpath_path T hr (T.inRange _ _ h1)).length_le T hr
      rw [h2 hvp, List.length_append, List.length_singleton] at h3
      omega
    refine ⟨.nil, ?_, trivial, by simp [Forest.height]⟩
    clear hl
    induction l with
    | nil => exact .nil
    | cons a l ih =>
      have := this a (by simp)
      subst this
      exact .skip (ih fun v hv => this v (by simp [hv]))
  | succ k ih =>
    intro u p l hu
    induction l with
    | nil => intro _ _; exact ⟨.nil, .nil, trivial, by simp [Forest.height]⟩
    | cons v l ihl =>
      intro hl hk
      obtain ⟨f, h1, h2, h3⟩ := ihl (fun w hw => hl w (by simp [hw])) hk
      by_cases hvp : v = p
      · subst hvp; exact ⟨f, .skip h1, h2, h3⟩
      · obtain ⟨ha, hp⟩ := hl v (by simp)
        have hp := hp hvp
        have hv := T.inRange _ _ ha
        obtain ⟨c, h4, h5, h6⟩ := ih v u (g.getD v []) hv (by
          intro w hw
          refine ⟨hw, fun hwu => ?_⟩
          rcases rpath_adj T hr hv hw with h | h
          · exact h
          · rw [h] at hp
            have := List.append_inj_left' hp rfl
            obtain ⟨A, hA⟩ := rpath_snoc T hr hu
            obtain ⟨A', hA'⟩ := rpath_snoc T hr (T.inRange _ _ hw)
            rw [hA, hA'] at this
            have := List.append_inj_right' this rfl
            simp at this
            exact absurd this hwu)
          (by rw [hp, List.length_append, List.length_singleton]; omega)
        refine ⟨.cons v c f, .child hvp h4 h1, ⟨hp, h5, h2⟩, ?_⟩
        simp only [Forest.height]; omega

theorem pre_prefix {u : Nat} {f : Forest} {R : Nat → List Nat} (h : PathsOk R u f) :
    ∀ x ∈ f.pre, ∃ v, R u ++ [v] <+: R x := by
  clear T hr
  induction f generalizing u with
  | nil => simp [Forest.pre]
  | cons v c s ih1 ih2 =>
    obtain ⟨h1, h2, h3⟩ := h
    intro x hx
    simp only [Forest.pre, List.mem_cons, List.mem_append] at hx
    rcases hx with rfl | hx | hx
    · exact ⟨x, by rw [h1]⟩
    · obtain ⟨w, hw⟩ := ih1 h2 x hx
      refine ⟨v, ?_⟩
      rw [h1] at hw
      exact (List.prefix_append _ _).trans hw
    · exact ih2 h3 x hx

omit T hr in
theorem pre_prefix' {u p : Nat} {l : List Nat} {f : Forest} {R : Nat → List Nat}
    (hf : FRep g u p l f) (h : PathsOk R u f) :
    ∀ x ∈ f.pre, ∃ v ∈ l, v ≠ p ∧ R u ++ [v] <+: R x := by
  induction hf with
  | nil => simp [Forest.pre]
  | skip _ ih =>
    intro x hx
    obtain ⟨v, h1, h2⟩ := ih h x hx
    exact ⟨v, by simp [h1], h2⟩
  | @child u p v l c s hne _ _ ih1 ih2 =>
    obtain ⟨h1, h2, h3⟩ := h
    intro x hx
    simp only [Forest.pre, List.mem_cons, List.mem_append] at hx
    rcases hx with rfl | hx | hx
    · exact ⟨x, by simp, hne, by rw [h1]⟩
    · obtain ⟨w, _, _, hw⟩ := ih1 h2 x hx
      refine ⟨v, by simp, hne, ?_⟩
      rw [h1] at hw
      exact (List.prefix_append _ _).trans hw
    · obtain ⟨w, hw1, hw2⟩ := ih2 h3 x hx
      exact ⟨w, by simp [hw1], hw2⟩

omit T hr in
theorem prefix_snoc_inj {A B : List Nat} {x y : Nat} (h1 : A ++ [x] <+: B) (h2 : A ++ [y] <+: B) :
    x = y := by
  have := List.prefix_of_prefix_length_le h1 h2 (by simp)
  have := this.eq_of_length (by simp)
  simpa using this

omit T hr in
theorem pre_nodup {u p : Nat} {l : List Nat} {f : Forest} {R : Nat → List Nat}
    (hg : ∀ u, (g.getD u []).Nodup) (hf : FRep g u p l f) (h : PathsOk R u f) (hl : l.Nodup) :
    (u :: f.pre).Nodup := by
  have hu : ∀ {u p l f}, FRep g u p l f → PathsOk R u f → u ∉ f.pre := by
    intro u p l f hf h hu
    obtain ⟨v, _, _, hv⟩ := pre_prefix' hf h u hu
    have := hv.length_le
    simp at this; omega
  rw [List.nodup_cons]
  refine ⟨hu hf h, ?_⟩
  induction hf with
  | nil => simp [Forest.pre]
  | skip _ ih => exact ih h (List.nodup_cons.1 hl).2
  | @child u p v l c s hne hc hs ih1 ih2 =>
    obtain ⟨h1, h2, h3⟩ := h
    obtain ⟨hl1, hl2⟩ := List.nodup_cons.1 hl
    simp only [Forest.pre, List.nodup_cons, List.mem_append, not_or, List.nodup_append]
    have hs' : ∀ x ∈ s.pre, ¬ R u ++ [v] <+: R x := by
      intro x hx hp
      obtain ⟨w, hw, _, hwp⟩ := pre_prefix' hs h3 x hx
      have := prefix_snoc_inj hp hwp
      exact hl1 (this ▸ hw)
    refine ⟨⟨hu hc h2, ?_⟩, ih1 h2 (hg v), ih2 h3 hl2, ?_⟩
    · intro hv
      exact hs' v hv (by rw [h1])
    · rintro a ha b hb rfl
      obtain ⟨w, hw⟩ := pre_prefix' hc h2 a ha
      refine hs' a hb ?_
      rw [← h1]
      exact (List.prefix_append _ _).trans hw.2.2

omit T hr in
theorem sub_forest {u p : Nat} {l : List Nat} {f : Forest} {R : Nat → List Nat}
    (hf : FRep g u p l f) (h : PathsOk R u f) {w : Nat} (hw : w ∈ f.pre) :
    ∃ q c, R w = R q ++ [w] ∧ FRep g w q (g.getD w []) c ∧ PathsOk R w c ∧
      ∀ x ∈ c.pre, x ∈ f.pre := by
  induction hf with
  | nil => simp [Forest.pre] at hw
  | skip _ ih => exact ih h hw
  | @child u p v l c s hne hc hs ih1 ih2 =>
    obtain ⟨h1, h2, h3⟩ := h
    simp only [Forest.pre, List.mem_cons, List.mem_append] at hw
    rcases hw with rfl | hw | hw
    · exact ⟨u, c, h1, hc, h2, fun x hx => by simp [Forest.pre, hx]⟩
    · obtain ⟨q, c', h4, h5, h6, h7⟩ := ih1 h2 hw
      exact ⟨q, c', h4, h5, h6, fun x hx => by simp [Forest.pre, h7 x hx]⟩
    · obtain ⟨q, c', h4, h5, h6, h7⟩ := ih2 h3 hw
      exact ⟨q, c', h4, h5, h6, fun x hx => by simp [Forest.pre, h7 x hx]⟩

omit T hr in
theorem mem_of_adj {u p : Nat} {l : List Nat} {f : Forest} (hf : FRep g u p l f) {v : Nat}
    (hv : v ∈ l) (hvp : v ≠ p) : v ∈ f.pre := by
  induction hf with
  | nil => simp at hv
  | skip _ ih =>
    rcases List.mem_cons.1 hv with h | h
    · exact absurd h hvp
    · exact ih h hvp
  | child _ _ _ _ ih2 =>
    rcases List.mem_cons.1 hv with h | h
    · simp [Forest.pre, h]
    · simp [Forest.pre, ih2 h hvp]

/-- The tree seen by a depth-first search from the root. -/
structure Rooted (g : List (List Nat)) (root : Nat) (R : Nat → List Nat) (f : Forest) : Prop where
  rep : FRep g root root (g.getD root []) f
  paths : PathsOk R root f
  rootPath : R root = [root]
  nodup : (root :: f.pre).Nodup
  mem : ∀ v, v ∈ root :: f.pre ↔ v < g.length
  height : f.height < g.length

theorem rooted_exists : ∃ f, Rooted g root (rpath g root) f := by
  obtain ⟨f, h1, h2, h3⟩ := forest_exists T hr (g.length - 1) root root (g.getD root []) hr (by
    intro v hv
    refine ⟨hv, fun _ => ?_⟩
    rcases rpath_adj T hr hr hv with h | h
    · exact h
    · rw [rpath_root T hr] at h
      obtain ⟨A, hA⟩ := rpath_snoc T hr (T.inRange _ _ hv)
      rw [hA] at h
      have := congrArg List.length h
      simp at this) (by rw [rpath_root T hr]; simp; omega)
  refine ⟨f, h1, h2, rpath_root T hr, pre_nodup T.nodup h1 h2 (T.nodup _), ?_, by omega⟩
  intro v
  constructor
  · intro hv
    rcases List.mem_cons.1 hv with rfl | hv
    · exact hr
    · obtain ⟨q, c, h4, _⟩ := sub_forest h1 h2 hv
      by_contra hn
      have : rpath g root v = [] := by
        unfold rpath
        rw [dif_neg]
        rintro ⟨p, hp⟩
        exact hn (hp.lt T hr v (List.mem_of_getLast? hp.last))
      rw [this] at h4
      simp at h4
  · intro hv
    -- induction on the root path
    obtain ⟨m, hm⟩ : ∃ m, (rpath g root v).length = m := ⟨_, rfl⟩
    induction m generalizing v with
    | zero =>
      have := (rpath_path T hr hv).ne_nil
      exact absurd (List.length_eq_zero_iff.1 hm) this
    | succ m ih =>
      obtain ⟨A, hA⟩ := rpath_snoc T hr hv
      rcases List.eq_nil_or_concat A with rfl | ⟨A', w, rfl⟩
      · have h4 := (rpath_path T hr hv).head
        rw [hA] at h4
        simp at h4
        simp [h4]
      · simp only [List.concat_eq_append] at hA
        have hw : rpath g root w = A' ++ [w] :=
          rpath_split T hr (A := A') (B := [v]) hv (by rw [hA]; simp)
        have hwl : w < g.length :=
          (rpath_path T hr hv).lt T hr w (by rw [hA]; simp)
        have hadj : v ∈ g.getD w [] := by
          have := (rpath_path T hr hv).chain
          rw [hA] at this
          simp only [List.append_assoc, List.singleton_append] at this
          have := this.right_of_append
          simpa using this
        have hmem := ih w hwl (by rw [hA] at hm; rw [hw]; simpa using hm)
        rcases List.mem_cons.1 hmem with rfl | hmem
        · have : v ∈ f.pre := by
            refine mem_of_adj h1 hadj ?_
            rintro rfl
            exact T.irrefl _ hadj
          simp [this]
        · obtain ⟨q, c, h4, h5, h6, h7⟩ := sub_forest h1 h2 hmem
          have : v ∈ c.pre := by
            refine mem_of_adj h5 hadj ?_
            rintro rfl
            have h8 := congrArg List.length hA
            have h9 := congrArg List.length h4
            have h10 := congrArg List.length hw
            simp only [List.length_append, List.length_singleton] at h8 h9 h10
            omega
          simp [h7 v this]

end
end Verif.TreeP
