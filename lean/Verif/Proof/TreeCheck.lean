import Verif.Proof.Tree
/-! A checker for concrete trees, used only by the examples. -/
namespace Verif.TreeP
open Spec

/-- All walks with at most `k` edges from `u`. -/
def walksFrom (g : List (List Nat)) : Nat → Nat → List (List Nat)
  | 0, u => [[u]]
  | k + 1, u => [u] :: (g.getD u []).flatMap fun v => (walksFrom g k v).map (u :: ·)

theorem mem_walksFrom {g : List (List Nat)} {k u : Nat} {p : List Nat} (hu : p.head? = some u)
    (hc : p.IsChain (fun a b => b ∈ g.getD a [])) (hl : p.length ≤ k + 1) :
    p ∈ walksFrom g k u := by
  induction k generalizing u p with
  | zero =>
    cases p with
    | nil => simp at hu
    | cons a p =>
      have : p = [] := by simpa using hl
      subst this
      simpa [walksFrom] using hu
  | succ k ih =>
    cases p with
    | nil => simp at hu
    | cons a p =>
      have : a = u := by simpa using hu
      subst this
      cases p with
      | nil => simp [walksFrom]
      | cons b p =>
        rw [List.isChain_cons_cons] at hc
        have := ih (u := b) (p := b :: p) rfl hc.2 (by simpa using hl)
        simp only [walksFrom, List.mem_cons, List.mem_flatMap, List.mem_map]
        right
        exact ⟨b, hc.1, _, this, rfl⟩

theorem walksFrom_chain {g : List (List Nat)} {k u : Nat} {p : List Nat}
    (h : p ∈ walksFrom g k u) :
    p.head? = some u ∧ p.IsChain (fun a b => b ∈ g.getD a []) := by
  induction k generalizing u p with
  | zero => simp [walksFrom] at h; subst h; simp
  | succ k ih =>
    simp only [walksFrom, List.mem_cons, List.mem_flatMap, List.mem_map] at h
    rcases h with rfl | ⟨b, hb, q, hq, rfl⟩
    · simp
    · obtain ⟨h1, h2⟩ := ih hq
      refine ⟨rfl, ?_⟩
      rw [List.isChain_cons]
      refine ⟨fun y hy => ?_, h2⟩
      rw [h1] at hy; cases hy; exact hb

/-- The simple paths from `u` to `v`. -/
def simplePaths (g : List (List Nat)) (u v : Nat) : List (List Nat) :=
  (walksFrom g g.length u).filter fun p => decide (p.getLast? = some v) && decide p.Nodup

/-- Is `g` a tree? -/
def treeCheck (g : List (List Nat)) : Bool :=
  (List.range g.length).all fun u =>
    decide (g.getD u []).Nodup && decide (u ∉ g.getD u []) &&
    ((g.getD u []).all fun v => decide (v < g.length) && decide (u ∈ g.getD v [])) &&
    (List.range g.length).all fun v => decide ((simplePaths g u v).length = 1)

theorem isTree_of_check {g : List (List Nat)} (h : treeCheck g = true) : IsTree g := by
  simp only [treeCheck, List.all_eq_true, List.mem_range, Bool.and_eq_true, decide_eq_true_eq] at h
  have hlt : ∀ u v, v ∈ g.getD u [] → u < g.length := by
    intro u v hv
    by_contra hu
    rw [List.getD_eq_getElem?_getD, List.getElem?_eq_none (by omega)] at hv
    simp at hv
  have hin : ∀ u v, v ∈ g.getD u [] → v < g.length :=
    fun u v hv => ((h u (hlt u v hv)).1.2 v hv).1
  refine ⟨hin, fun u v hv => ((h u (hlt u v hv)).1.2 v hv).2, ?_, ?_, ?_⟩
  · intro u hu
    exact (h u (hlt u u hu)).1.1.2 hu
  · intro u
    by_cases hu : u < g.length
    · exact (h u hu).1.1.1
    · rw [List.getD_eq_getElem?_getD, List.getElem?_eq_none (by omega)]; simp
  · intro u v hu hv
    obtain ⟨q, hq⟩ := List.length_eq_one_iff.1 ((h u hu).2 v hv)
    have hqm : q ∈ simplePaths g u v := by rw [hq]; simp
    simp only [simplePaths, List.mem_filter, Bool.and_eq_true, decide_eq_true_eq] at hqm
    obtain ⟨h1, h2, h3⟩ := hqm
    obtain ⟨h4, h5⟩ := walksFrom_chain h1
    refine ⟨q, ⟨h4, h2, h5, h3⟩, ?_⟩
    intro p hp
    have hpl : p.length ≤ g.length := by
      have hmem : ∀ x ∈ p, x < g.length := by
        have : ∀ (p : List Nat) (u : Nat), p.head? = some u → u < g.length →
            p.IsChain (fun a b => b ∈ g.getD a []) → ∀ x ∈ p, x < g.length := by
          intro p
          induction p with
          | nil => simp
          | cons a p ih =>
            intro u hh hu hc x hx
            simp only [List.head?_cons, Option.some.injEq] at hh
            subst hh
            rcases List.mem_cons.1 hx with rfl | hx
            · exact hu
            · cases p with
              | nil => simp at hx
              | cons b p =>
                rw [List.isChain_cons_cons] at hc
                exact ih b rfl (hin _ _ hc.1) hc.2 x hx
        exact this p u hp.head hu hp.chain
      have h1 : p.toFinset ⊆ Finset.range g.length := by
        intro x hx
        exact Finset.mem_range.2 (hmem x (List.mem_toFinset.1 hx))
      have := Finset.card_le_card h1
      rwa [List.toFinset_card_of_nodup hp.nodup, Finset.card_range] at this
    have : p ∈ simplePaths g u v := by
      simp only [simplePaths, List.mem_filter, Bool.and_eq_true, decide_eq_true_eq]
      exact ⟨mem_walksFrom hp.head hp.chain (by omega), hp.last, hp.nodup⟩
    rw [hq] at this
    simpa using this

end Verif.TreeP
