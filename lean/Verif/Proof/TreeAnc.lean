import Mathlib.Logic.Function.Iterate
import Verif.Proof.Tree
/-! Ancestry, parents and tree paths in terms of root paths. -/
namespace Verif.TreeP
open Spec

variable {g : List (List Nat)} {root : Nat}

/-- Parent of a vertex (the root is its own parent). -/
noncomputable def par (g : List (List Nat)) (root v : Nat) : Nat :=
  ((rpath g root v).dropLast.getLast?).getD root

section
variable (T : IsTree g) (hr : root < g.length)
include T hr

theorem anc_lt {u v : Nat} (h : Ancestor g root u v) : u < g.length ∧ v < g.length := by
  obtain ⟨p, hp, hu⟩ := h
  exact ⟨hp.lt T hr u hu, hp.lt T hr v (List.mem_of_getLast? hp.last)⟩

theorem anc_mem {u v : Nat} (hv : v < g.length) :
    Ancestor g root u v ↔ u ∈ rpath g root v := by
  constructor
  · rintro ⟨p, hp, hu⟩
    rwa [rpath_eq T hr hp]
  · intro h
    exact ⟨_, rpath_path T hr hv, h⟩

theorem anc_iff {u v : Nat} (hu : u < g.length) (hv : v < g.length) :
    Ancestor g root u v ↔ rpath g root u <+: rpath g root v := by
  rw [anc_mem T hr hv]
  constructor
  · intro h
    obtain ⟨A, B, hAB⟩ := List.append_of_mem h
    rw [rpath_split T hr hv hAB, hAB]
    exact ⟨B, by simp⟩
  · intro h
    obtain ⟨A, hA⟩ := rpath_snoc T hr hu
    exact h.subset (by rw [hA]; simp)

theorem anc_refl {u : Nat} (hu : u < g.length) : Ancestor g root u u :=
  (anc_iff T hr hu hu).2 (List.prefix_refl _)

theorem rpath_inj {u v : Nat} (hu : u < g.length) (hv : v < g.length)
    (h : rpath g root u = rpath g root v) : u = v := by
  obtain ⟨A, hA⟩ := rpath_snoc T hr hu
  obtain ⟨B, hB⟩ := rpath_snoc T hr hv
  rw [hA, hB] at h
  have := List.append_inj_right' h rfl
  simpa using this

theorem rpath_pos {v : Nat} (hv : v < g.length) : 0 < (rpath g root v).length :=
  List.length_pos_iff.2 (rpath_path T hr hv).ne_nil

/-- Every nonempty prefix of a root path is the root path of its last vertex. -/
theorem rpath_take {v k : Nat} (hv : v < g.length) (hk : 0 < k)
    (hkl : k ≤ (rpath g root v).length) :
    ∃ u, u < g.length ∧ rpath g root u = (rpath g root v).take k := by
  obtain ⟨k, rfl⟩ : ∃ j, k = j + 1 := ⟨k - 1, by omega⟩
  have hlt : k < (rpath g root v).length := by omega
  refine ⟨(rpath g root v)[k], (rpath_path T hr hv).lt T hr _ (List.getElem_mem _), ?_⟩
  have := rpath_split T hr (u := (rpath g root v)[k]) (A := (rpath g root v).take k)
    (B := (rpath g root v).drop (k + 1)) hv (by
      rw [List.getElem_cons_drop, List.take_append_drop])
  rw [this, List.take_append_getElem]

theorem par_root : par g root root = root := by
  simp [par, rpath_root T hr]

theorem par_of_snoc {u v : Nat} (hu : u < g.length)
    (h : rpath g root v = rpath g root u ++ [v]) : par g root v = u := by
  obtain ⟨A, hA⟩ := rpath_snoc T hr hu
  simp [par, h, hA]

theorem head_root {v : Nat} (hv : v < g.length) : ∃ l, rpath g root v = root :: l := by
  have := (rpath_path T hr hv).head
  rw [List.head?_eq_some_iff] at this
  exact this

theorem eq_root_of_len {v : Nat} (hv : v < g.length) (h : (rpath g root v).length = 1) :
    v = root := by
  obtain ⟨l, hl⟩ := head_root T hr hv
  refine rpath_inj T hr hv hr ?_
  rw [hl] at h
  have : l = [] := by simpa using h
  rw [hl, this, rpath_root T hr]

theorem par_spec {v : Nat} (hv : v < g.length) : par g root v < g.length ∧
    rpath g root (par g root v) =
      (rpath g root v).take (max 1 ((rpath g root v).length - 1)) := by
  have hpos := rpath_pos T hr hv
  by_cases h1 : (rpath g root v).length = 1
  · have := eq_root_of_len T hr hv h1
    subst this
    rw [par_root T hr, rpath_root T hr]
    exact ⟨hr, by simp⟩
  · obtain ⟨u, hu, hup⟩ := rpath_take T hr (k := (rpath g root v).length - 1) hv (by omega)
      (by omega)
    have hs : rpath g root v = rpath g root u ++ [v] := by
      obtain ⟨A, hA⟩ := rpath_snoc T hr hv
      rw [hup, hA]; simp
    rw [par_of_snoc T hr hu hs, hup]
    exact ⟨hu, by rw [Nat.max_eq_right (by omega)]⟩

theorem par_iter {v : Nat} (hv : v < g.length) (k : Nat) : (par g root)^[k] v < g.length ∧
    rpath g root ((par g root)^[k] v) =
      (rpath g root v).take (max 1 ((rpath g root v).length - k)) := by
  have hpos := rpath_pos T hr hv
  induction k with
  | zero =>
    refine ⟨hv, ?_⟩
    rw [Function.iterate_zero_apply, List.take_of_length_le (by omega)]
  | succ k ih =>
    obtain ⟨h1, h2⟩ := ih
    obtain ⟨h3, h4⟩ := par_spec T hr h1
    rw [Function.iterate_succ_apply']
    refine ⟨h3, ?_⟩
    rw [h4, h2, List.length_take, List.take_take]
    congr 1
    omega

theorem par_iter_mem {v : Nat} (hv : v < g.length) (k : Nat) :
    (par g root)^[k] v ∈ rpath g root v := by
  obtain ⟨h1, h2⟩ := par_iter T hr hv k
  obtain ⟨A, hA⟩ := rpath_snoc T hr h1
  have : (par g root)^[k] v ∈ rpath g root ((par g root)^[k] v) := by rw [hA]; simp
  rw [h2] at this
  exact List.mem_of_mem_take this

theorem anc_iff_iter {u v : Nat} (hv : v < g.length) :
    Ancestor g root u v ↔ ∃ k, (par g root)^[k] v = u := by
  rw [anc_mem T hr hv]
  constructor
  · intro h
    have hu : u < g.length := (rpath_path T hr hv).lt T hr u h
    have hp := (anc_iff T hr hu hv).1 ((anc_mem T hr hv).2 h)
    refine ⟨(rpath g root v).length - (rpath g root u).length, ?_⟩
    obtain ⟨h1, h2⟩ := par_iter T hr hv ((rpath g root v).length - (rpath g root u).length)
    refine rpath_inj T hr h1 hu ?_
    have := hp.length_le
    have := rpath_pos T hr hu
    rw [h2, show max 1 ((rpath g root v).length -
      ((rpath g root v).length - (rpath g root u).length)) = (rpath g root u).length by omega]
    exact (List.prefix_iff_eq_take.1 hp).symm
  · rintro ⟨k, rfl⟩
    exact par_iter_mem T hr hv k

/-- The tree path between two vertices through the end of the longest common part of their root
paths. -/
theorem path_via {u v l : Nat} (hu : u < g.length) (hv : v < g.length)
    (hl : IsLca g root u v l) :
    IsPath g u v (((rpath g root u).drop ((rpath g root l).length - 1)).reverse ++
      (rpath g root v).drop (rpath g root l).length) := by
  obtain ⟨h1, h2, h3⟩ := hl
  have hll := (anc_lt T hr h1).1
  obtain ⟨A, hA⟩ := (anc_iff T hr hll hu).1 h1
  obtain ⟨B, hB⟩ := (anc_iff T hr hll hv).1 h2
  obtain ⟨L, hL⟩ := rpath_snoc T hr hll
  have hPu := rpath_path T hr hu
  have hPv := rpath_path T hr hv
  have e1 : (rpath g root u).drop ((rpath g root l).length - 1) = l :: A := by
    rw [← hA, hL]; simp
  have e2 : (rpath g root v).drop (rpath g root l).length = B := by
    rw [← hB]; simp
  rw [e1, e2]
  have hu' : rpath g root u = L ++ l :: A := by rw [← hA, hL]; simp
  have hv' : rpath g root v = L ++ l :: B := by rw [← hB, hL]; simp
  rw [hu'] at hPu
  rw [hv'] at hPv
  have hAu := hPu.drop
  have hBv := hPv.drop
  refine ⟨?_, ?_, ?_, ?_⟩
  · have := hAu.last
    rw [List.head?_append, List.head?_reverse, this]; rfl
  · rw [List.reverse_cons, List.append_assoc, List.singleton_append, List.getLast?_append_cons]
    exact hBv.last
  · have hc1 : (l :: A).reverse.IsChain (fun a b => b ∈ g.getD a []) := by
      rw [List.isChain_reverse]
      exact hAu.chain.imp fun a b h => T.symm _ _ h
    refine hc1.append ?_ ?_
    · exact (List.isChain_cons.1 hBv.chain).2
    · intro x hx y hy
      rw [List.getLast?_reverse] at hx
      simp only [List.head?_cons, Option.mem_def, Option.some.injEq] at hx
      subst hx
      exact (List.isChain_cons.1 hBv.chain).1 y hy
  · rw [List.nodup_append, List.nodup_reverse]
    refine ⟨hAu.nodup, (List.nodup_cons.1 hBv.nodup).2, ?_⟩
    rintro a ha b hb rfl
    rw [List.mem_reverse] at ha
    have ha1 : Ancestor g root a u := by
      rw [anc_mem T hr hu, hu']; simp only [List.mem_append]; exact .inr ha
    have ha2 : Ancestor g root a v := by
      rw [anc_mem T hr hv, hv']; simp only [List.mem_append, List.mem_cons]; exact .inr (.inr hb)
    have := h3 a ha1 ha2
    rw [anc_mem T hr hll, hL] at this
    have hn := hPv.nodup
    rw [show L ++ l :: B = (L ++ [l]) ++ B by simp, List.nodup_append] at hn
    exact hn.2.2 a this a hb rfl

omit T hr in
theorem walk_to_path {u v : Nat} {w : List Nat} (h : IsWalk g u v w) :
    ∃ p, IsPath g u v p ∧ p.length ≤ w.length := by
  induction w generalizing u with
  | nil => simpa using h.head
  | cons a w ih =>
    have hu : a = u := by simpa using h.head
    subst hu
    cases w with
    | nil =>
      have : a = v := by simpa using h.last
      subst this
      exact ⟨[a], .singleton a, by simp⟩
    | cons b w =>
      have hc := List.isChain_cons_cons.1 h.chain
      obtain ⟨p, hp, hpl⟩ := ih ⟨rfl, by simpa using h.last, hc.2⟩
      by_cases ha : a ∈ p
      · obtain ⟨A, B, rfl⟩ := List.append_of_mem ha
        refine ⟨a :: B, hp.drop, ?_⟩
        simp at hpl ⊢; omega
      · refine ⟨a :: p, ⟨rfl, ?_, ?_, List.nodup_cons.2 ⟨ha, hp.nodup⟩⟩, by simpa using hpl⟩
        · rw [List.getLast?_cons, hp.last]; rfl
        · rw [List.isChain_cons]
          refine ⟨?_, hp.chain⟩
          intro y hy
          rw [hp.head] at hy
          cases hy
          exact hc.1

theorem dist_of_path {u v : Nat} {p : List Nat} (hp : IsPath g u v p) (hu : u < g.length) :
    IsTreeDist g u v (p.length - 1) := by
  have hpos : 0 < p.length := List.length_pos_iff.2 hp.ne_nil
  refine ⟨⟨p, ⟨hp.head, hp.last, hp.chain⟩, by omega⟩, ?_⟩
  intro w hw
  obtain ⟨q, hq, hql⟩ := walk_to_path hw
  rw [hp.eq T hq hu]
  have : 0 < q.length := List.length_pos_iff.2 hq.ne_nil
  omega

end
end Verif.TreeP
