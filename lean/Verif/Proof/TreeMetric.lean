import Verif.Proof.BinaryLifting
/-! Distances in a tree in terms of depths and lowest common ancestors. -/
namespace Verif.TreeP
open Res Model Spec BLP

variable {g : List (List Nat)} {root : Nat}

theorem dist_unique {u v d d' : Nat} (h : IsTreeDist g u v d) (h' : IsTreeDist g u v d') : d = d' := by
  obtain ⟨⟨w, hw, e⟩, h1⟩ := h
  obtain ⟨⟨w', hw', e'⟩, h2⟩ := h'
  have := h1 w' hw'
  have := h2 w hw
  omega

section
variable (T : IsTree g) (hr : root < g.length)
include T hr

theorem lca_exists (hn : g.length < 2 ^ 63) {u v : Nat} (hu : u < g.length) (hv : v < g.length) :
    ∃ l, IsLca g root u v l := by
  obtain ⟨t, _, h⟩ := from_sat T hr (by omega)
  obtain ⟨l, _, hl⟩ := lca_sat T hr h hu hv
  exact ⟨l, hl⟩

theorem lca_len {u v l : Nat} (h : IsLca g root u v l) :
    0 < (rpath g root l).length ∧ (rpath g root l).length ≤ (rpath g root u).length ∧
      (rpath g root l).length ≤ (rpath g root v).length := by
  have hl := (anc_lt T hr h.1).1
  exact ⟨rpath_pos T hr hl, ((anc_iff T hr hl (anc_lt T hr h.1).2).1 h.1).length_le,
    ((anc_iff T hr hl (anc_lt T hr h.2.1).2).1 h.2.1).length_le⟩

omit T hr in
theorem lca_symm {u v l : Nat} (h : IsLca g root u v l) : IsLca g root v u l :=
  ⟨h.2.1, h.1, fun x a b => h.2.2 x b a⟩

/-- Ancestors of one vertex at the same depth are equal. -/
theorem anc_eq {x y u : Nat} (hx : Ancestor g root x u) (hy : Ancestor g root y u)
    (h : (rpath g root x).length = (rpath g root y).length) : x = y := by
  have a := anc_lt T hr hx
  have b := anc_lt T hr hy
  refine rpath_inj T hr a.1 b.1 ?_
  rcases List.prefix_or_prefix_of_prefix ((anc_iff T hr a.1 a.2).1 hx) ((anc_iff T hr b.1 b.2).1 hy) with q | q
  · exact q.eq_of_length h
  · exact (q.eq_of_length h.symm).symm

theorem anc_total {x y u : Nat} (hx : Ancestor g root x u) (hy : Ancestor g root y u) :
    Ancestor g root x y ∨ Ancestor g root y x := by
  have a := anc_lt T hr hx
  have b := anc_lt T hr hy
  rcases List.prefix_or_prefix_of_prefix ((anc_iff T hr a.1 a.2).1 hx) ((anc_iff T hr b.1 b.2).1 hy) with q | q
  · exact .inl ((anc_iff T hr a.1 b.1).2 q)
  · exact .inr ((anc_iff T hr b.1 a.1).2 q)

theorem anc_len {x y : Nat} (h : Ancestor g root x y) : (rpath g root x).length ≤ (rpath g root y).length :=
  ((anc_iff T hr (anc_lt T hr h).1 (anc_lt T hr h).2).1 h).length_le

/-- The depths of the three lowest common ancestors of three vertices satisfy the ultrametric inequality. -/
theorem lca_ultra {u v w a b c : Nat} (ha : IsLca g root u v a) (hb : IsLca g root u w b) (hc : IsLca g root v w c) :
    min (rpath g root a).length (rpath g root c).length ≤ (rpath g root b).length := by
  rcases anc_total T hr ha.2.1 hc.1 with q | q
  · have := anc_len T hr (hb.2.2 a ha.1 (anc_trans T hr q hc.2.1))
    omega
  · have := anc_len T hr (hb.2.2 c (anc_trans T hr q ha.1) hc.2.1)
    omega

theorem dist_formula {u v l d : Nat} (hl : IsLca g root u v l) (h : IsTreeDist g u v d) :
    d + 2 * (rpath g root l).length = (rpath g root u).length + (rpath g root v).length := by
  have hu := (anc_lt T hr hl.1).2
  have hv := (anc_lt T hr hl.2.1).2
  have h1 := dist_of_path T hr (path_via T hr hu hv hl) hu
  simp only [List.length_append, List.length_reverse, List.length_drop] at h1
  have h2 := dist_unique h h1
  have := lca_len T hr hl
  omega

end

section
variable (T : IsTree g)
include T

/-- `v` lies between `u` and `w` exactly when the distances add up. -/
theorem between_iff (hn : g.length < 2 ^ 63) {u v w a b c : Nat} (hu : u < g.length) (hv : v < g.length)
    (hw : w < g.length) (ha : IsTreeDist g u v a) (hb : IsTreeDist g v w b) (hc : IsTreeDist g u w c) :
    a + b = c ↔ Ancestor g u v w := by
  have e1 := dist_unique ha (dist_of_path T hu (rpath_path T hu hv) hu)
  have e2 := dist_unique hc (dist_of_path T hu (rpath_path T hu hw) hu)
  obtain ⟨l, hl⟩ := lca_exists T hu hn hv hw
  have h1 := dist_formula T hu hl hb
  have h2 := lca_len T hu hl
  have p1 := rpath_pos T hu hv
  have p2 := rpath_pos T hu hw
  constructor
  · intro h
    have : l = v := anc_eq T hu hl.1 (anc_refl T hu hv) (by omega)
    exact this ▸ hl.2.1
  · intro h
    have : v = l := anc_eq T hu (hl.2.2 v (anc_refl T hu hv) h) (anc_refl T hu (anc_lt T hu hl.1).1)
      (Nat.le_antisymm (anc_len T hu (hl.2.2 v (anc_refl T hu hv) h)) h2.2.1)
    rw [← this] at h1
    rw [← this] at h2
    omega

/-- The distance of any two vertices. -/
theorem dist_exists {u v : Nat} (hu : u < g.length) (hv : v < g.length) :
    ∃ d, IsTreeDist g u v d := ⟨_, dist_of_path T hu (rpath_path T hu hv) hu⟩

end

section
variable (T : IsTree g)
include T

/-- Adjacent vertices are those at distance one. -/
theorem dist_one {u v d : Nat} (h : IsTreeDist g u v d) : d = 1 ↔ v ∈ g.getD u [] := by
  constructor
  · rintro rfl
    obtain ⟨⟨w, hw, e⟩, _⟩ := h
    match w, e with
    | [x, y], _ =>
      have h1 := hw.head
      have h2 := hw.last
      have h3 := hw.chain
      simp at h1 h2 h3
      subst h1; subst h2
      simpa using h3
  · intro hm
    have h1 := h.2 [u, v] ⟨rfl, rfl, by simpa using hm⟩
    simp only [List.length_cons, List.length_nil] at h1
    have h0 : d ≠ 0 := by
      rintro rfl
      obtain ⟨⟨w, hw, e⟩, _⟩ := h
      match w, e with
      | [x], _ =>
        have h1 := hw.head
        have h2 := hw.last
        simp at h1 h2
        subst h1; subst h2
        exact T.irrefl _ hm
    omega

/-- A vertex between each two of `u`, `v`, `r` is the lowest common ancestor of `u` and `v` for the root `r`. -/
theorem median_lca (hn : g.length < 2 ^ 63) {D : Nat → Nat → Nat}
    (hD : ∀ u < g.length, ∀ v < g.length, IsTreeDist g u v (D u v)) {u v r m : Nat} (hu : u < g.length) (hv : v < g.length)
    (hr : r < g.length) (hm : m < g.length) (h1 : D r m + D m u = D r u) (h2 : D r m + D m v = D r v)
    (h3 : D m u + D m v = D u v) : IsLca g r u v m := by
  have a1 := (between_iff T hn hr hm hu (hD _ hr _ hm) (hD _ hm _ hu) (hD _ hr _ hu)).1 h1
  have a2 := (between_iff T hn hr hm hv (hD _ hr _ hm) (hD _ hm _ hv) (hD _ hr _ hv)).1 h2
  obtain ⟨l, hl⟩ := lca_exists T hr hn hu hv
  have f := dist_formula T hr hl (hD _ hu _ hv)
  have e1 := dist_unique (hD _ hr _ hu) (dist_of_path T hr (rpath_path T hr hu) hr)
  have e2 := dist_unique (hD _ hr _ hv) (dist_of_path T hr (rpath_path T hr hv) hr)
  have e3 := dist_unique (hD _ hr _ hm) (dist_of_path T hr (rpath_path T hr hm) hr)
  have p1 := rpath_pos T hr hu
  have p2 := rpath_pos T hr hv
  have p3 := rpath_pos T hr hm
  have : m = l := anc_eq T hr a1 hl.1 (by omega)
  exact this ▸ hl

/-- The deepest of the three lowest common ancestors lies between each two of the three vertices. -/
theorem median_between (hr : root < g.length) {D : Nat → Nat → Nat}
    (hD : ∀ u < g.length, ∀ v < g.length, IsTreeDist g u v (D u v)) {p q s m b : Nat} (hs : s < g.length)
    (hm : IsLca g root p q m) (hb : IsLca g root p s b) (hc : IsLca g root q s b)
    (hle : (rpath g root b).length ≤ (rpath g root m).length) :
    D m p + D m q = D p q ∧ D m p + D m s = D p s ∧ D m q + D m s = D q s := by
  have hp := (anc_lt T hr hm.1).2
  have hq := (anc_lt T hr hm.2.1).2
  have hml := (anc_lt T hr hm.1).1
  have hbm : Ancestor g root b m := hm.2.2 b hb.1 hc.1
  have l1 : IsLca g root m s b :=
    ⟨hbm, hb.2.1, fun x hx hy => hb.2.2 x (anc_trans T hr hx hm.1) hy⟩
  have l2 : IsLca g root m p m := ⟨anc_refl T hr hml, hm.1, fun x hx _ => hx⟩
  have l3 : IsLca g root m q m := ⟨anc_refl T hr hml, hm.2.1, fun x hx _ => hx⟩
  have f1 := dist_formula T hr hm (hD _ hp _ hq)
  have f2 := dist_formula T hr hb (hD _ hp _ hs)
  have f3 := dist_formula T hr hc (hD _ hq _ hs)
  have f4 := dist_formula T hr l1 (hD _ hml _ hs)
  have f5 := dist_formula T hr l2 (hD _ hml _ hp)
  have f6 := dist_formula T hr l3 (hD _ hml _ hq)
  omega

end

/-- A distance function of a tree: the triangle inequality and the four point condition. -/
structure TreeMetric (n : Nat) (D : Nat → Nat → Nat) : Prop where
  zero : ∀ u < n, ∀ v < n, D u v = 0 ↔ u = v
  symm : ∀ u < n, ∀ v < n, D u v = D v u
  tri : ∀ u < n, ∀ v < n, ∀ w < n, D u w ≤ D u v + D v w
  four : ∀ u < n, ∀ v < n, ∀ w < n, ∀ x < n, D u v + D w x ≤ max (D u w + D v x) (D u x + D v w)

theorem treeMetric (T : IsTree g) (hn : g.length < 2 ^ 63) {D : Nat → Nat → Nat}
    (hD : ∀ u < g.length, ∀ v < g.length, IsTreeDist g u v (D u v)) : TreeMetric g.length D := by
  rcases Nat.eq_zero_or_pos g.length with h0 | hr
  · constructor <;> intro u hu <;> omega
  have hL : ∀ u v, ∃ l, u < g.length → v < g.length → IsLca g 0 u v l := by
    intro u v
    by_cases hu : u < g.length
    · by_cases hv : v < g.length
      · obtain ⟨l, hl⟩ := lca_exists T hr hn hu hv
        exact ⟨l, fun _ _ => hl⟩
      · exact ⟨0, fun _ h => absurd h hv⟩
    · exact ⟨0, fun h => absurd h hu⟩
  choose L hL using hL
  have f : ∀ u < g.length, ∀ v < g.length,
      D u v + 2 * (rpath g 0 (L u v)).length = (rpath g 0 u).length + (rpath g 0 v).length :=
    fun u hu v hv => dist_formula T hr (hL u v hu hv) (hD u hu v hv)
  have le : ∀ u < g.length, ∀ v < g.length, (rpath g 0 (L u v)).length ≤ (rpath g 0 u).length ∧
      (rpath g 0 (L u v)).length ≤ (rpath g 0 v).length :=
    fun u hu v hv => (lca_len T hr (hL u v hu hv)).2
  have sy : ∀ u < g.length, ∀ v < g.length, (rpath g 0 (L u v)).length = (rpath g 0 (L v u)).length := by
    intro u hu v hv
    have a := hL u v hu hv
    have b := lca_symm (hL v u hv hu)
    exact Nat.le_antisymm (anc_len T hr (b.2.2 _ a.1 a.2.1)) (anc_len T hr (a.2.2 _ b.1 b.2.1))
  have ul : ∀ u < g.length, ∀ v < g.length, ∀ w < g.length,
      min (rpath g 0 (L u v)).length (rpath g 0 (L v w)).length ≤ (rpath g 0 (L u w)).length :=
    fun u hu v hv w hw => lca_ultra T hr (hL u v hu hv) (hL u w hu hw) (hL v w hv hw)
  refine ⟨?_, ?_, ?_, ?_⟩
  · intro u hu v hv
    have := f u hu v hv
    have l := le u hu v hv
    constructor
    · intro h
      have a := anc_eq T hr (hL u v hu hv).1 (anc_refl T hr hu) (by omega)
      have b := anc_eq T hr (hL u v hu hv).2.1 (anc_refl T hr hv) (by omega)
      exact a.symm.trans b
    · rintro rfl
      have : (rpath g 0 u).length ≤ (rpath g 0 (L u u)).length :=
        anc_len T hr ((hL u u hu hu).2.2 u (anc_refl T hr hu) (anc_refl T hr hu))
      omega
  · intro u hu v hv
    have := f u hu v hv
    have := f v hv u hu
    have := sy u hu v hv
    omega
  · intro u hu v hv w hw
    have := f u hu v hv
    have := f v hv w hw
    have := f u hu w hw
    have := le u hu v hv
    have := le v hv w hw
    have := ul u hu v hv w hw
    omega
  · intro u hu v hv w hw x hx
    have := f u hu v hv
    have := f w hw x hx
    have := f u hu w hw
    have := f v hv x hx
    have := f u hu x hx
    have := f v hv w hw
    have := sy u hu v hv
    have := sy w hw x hx
    have := sy u hu w hw
    have := sy v hv x hx
    have := sy u hu x hx
    have := sy v hv w hw
    have := ul u hu w hw v hv
    have := ul u hu x hx v hv
    have := ul w hw u hu x hx
    have := ul w hw v hv x hx
    omega

/-- The lowest common ancestor for another root. -/
theorem reroot (T : IsTree g) (hn : g.length < 2 ^ 63) (hr : root < g.length) {u v r a b c : Nat}
    (ha : IsLca g root u v a) (hb : IsLca g root u r b) (hc : IsLca g root v r c) :
    (b = c ∧ IsLca g r u v a) ∨ (a = c ∧ IsLca g r u v b) ∨ (a = b ∧ IsLca g r u v c) := by
  have hu := (anc_lt T hr ha.1).2
  have hv := (anc_lt T hr ha.2.1).2
  have hR := (anc_lt T hr hb.2.1).2
  have hDe : ∀ u v, ∃ d, u < g.length → v < g.length → IsTreeDist g u v d := by
    intro u v
    by_cases hu : u < g.length
    · by_cases hv : v < g.length
      · obtain ⟨d, hd⟩ := dist_exists T hu hv
        exact ⟨d, fun _ _ => hd⟩
      · exact ⟨0, fun _ h => absurd h hv⟩
    · exact ⟨0, fun h => absurd h hu⟩
  choose D hD using hDe
  have hD : ∀ u < g.length, ∀ v < g.length, IsTreeDist g u v (D u v) := fun u hu v hv => hD u v hu hv
  have M := treeMetric T hn hD
  have u1 := lca_ultra T hr ha hb hc
  have u2 := lca_ultra T hr hb ha (lca_symm hc)
  have u3 := lca_ultra T hr (lca_symm ha) hc hb
  by_cases h1 : (rpath g root b).length ≤ (rpath g root a).length
  · by_cases h2 : (rpath g root c).length ≤ (rpath g root a).length
    · have e : b = c := anc_eq T hr hb.2.1 hc.2.1 (by omega)
      subst e
      have hal := (anc_lt T hr ha.1).1
      obtain ⟨x, y, z⟩ := median_between T hr hD hR ha hb hc h1
      refine .inl ⟨rfl, median_lca T hn hD hu hv hR hal ?_ ?_ x⟩
      · rw [M.symm r hR u hu, M.symm r hR a hal]; omega
      · rw [M.symm r hR v hv, M.symm r hR a hal]; omega
    · have e : a = b := anc_eq T hr ha.1 hb.1 (by omega)
      subst e
      have hcl := (anc_lt T hr hc.1).1
      obtain ⟨x, y, z⟩ := median_between T hr hD hu hc (lca_symm ha) (lca_symm hb) (by omega)
      refine .inr (.inr ⟨rfl, median_lca T hn hD hu hv hR hcl ?_ ?_ ?_⟩)
      · rw [M.symm r hR c hcl]; omega
      · rw [M.symm r hR v hv, M.symm r hR c hcl]; omega
      · rw [M.symm u hu v hv]; omega
  · have e : a = c := by
      refine anc_eq T hr ha.2.1 hc.1 ?_
      omega
    subst e
    have hbl := (anc_lt T hr hb.1).1
    obtain ⟨x, y, z⟩ := median_between T hr hD hv hb ha (lca_symm hc) (by omega)
    refine .inr (.inl ⟨rfl, median_lca T hn hD hu hv hR hbl ?_ ?_ ?_⟩)
    · rw [M.symm r hR u hu, M.symm r hR b hbl]; omega
    · rw [M.symm r hR b hbl]; omega
    · omega

/-- Two sweeps find the two ends of a longest path. -/
theorem TreeMetric.diameter {n : Nat} {D : Nat → Nat → Nat} (h : TreeMetric n D) {x a b : Nat} (hx : x < n) (ha : a < n)
    (h1 : ∀ y < n, D x y ≤ D x a) (h2 : ∀ y < n, D a y ≤ D a b) : ∀ u < n, ∀ v < n, D u v ≤ D a b := by
  intro u hu v hv
  have f := h.four u hu v hv x hx a ha
  have := h1 u hu
  have := h1 v hv
  have := h2 u hu
  have := h2 v hv
  rw [h.symm u hu x hx, h.symm v hv a ha, h.symm u hu a ha, h.symm v hv x hx] at f
  omega

/-- The vertex farthest from any vertex is an end of a longest path. -/
theorem TreeMetric.ecc {n : Nat} {D : Nat → Nat → Nat} (h : TreeMetric n D) {a b : Nat} (ha : a < n) (hb : b < n)
    (h1 : ∀ u < n, ∀ v < n, D u v ≤ D a b) : ∀ y < n, ∀ z < n, D y z ≤ max (D y a) (D y b) := by
  intro y hy z hz
  have f := h.four y hy z hz a ha b hb
  have := h1 z hz a ha
  have := h1 z hz b hb
  omega

end Verif.TreeP
