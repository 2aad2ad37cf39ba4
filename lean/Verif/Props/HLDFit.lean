import Verif.Props.LazyFitSum
import Verif.Props.HLD
/-! C97: a heavy-light decomposition for range addition and sums of unsigned integers panics exactly when the sum of
all node values no longer fits. -/
namespace Verif.Props
open Res Model Spec LazySim HLDP TreeP

/-- Node values with their number. -/
abbrev Sums := Multiplicative (Nat × Nat)

/-- The operations on sums, panicking where a result is not a `u{w}`. -/
noncomputable def fitSum (w : Nat) : MapMonoidOps Sums Nat := fitOps sumN (FitU w) (· < 2 ^ w)

/-- The sum of all node values fits in `u{w}` before and after each call. -/
def HTotalFits (w : Nat) (g : List (List Nat)) (root : Nat) : List Sums → List (HldOp Sums Nat) → Prop
  | a, [] => total a < 2 ^ w
  | a, op :: ops => total a < 2 ^ w ∧ ∀ b, op.Next sumN g root a b → HTotalFits w g root b ops

/-- A call that writes node values counting for one. -/
def HUnitOp : HldOp Sums Nat → Prop
  | .set _ x => x.toAdd.2 = 1
  | _ => True

theorem total_cons (x : Sums) (a : List Sums) : total (x :: a) = x.toAdd.1 + total a := by
  unfold total; rw [List.prod_cons, toAdd_mul, Prod.fst_add]

theorem total_le {a b : List Sums} (h : List.Forall₂ (fun x y : Sums => x.toAdd.1 ≤ y.toAdd.1) a b) : total a ≤ total b := by
  induction h with
  | nil => exact Nat.le_refl _
  | cons h _ ih => rw [total_cons, total_cons]; omega

theorem total_perm {a b : List Sums} (h : a.Perm b) : total a = total b := by
  unfold total; rw [h.prod_eq]

variable {w : Nat} {g : List (List Nat)} {root : Nat} {c : Forest}

theorem D_range (a : List Sums) : D (List.range a.length) a = a := by
  apply List.ext_getElem
  · simp [D]
  · intro i h1 h2
    simp [D, List.getD_eq_getElem?_getD, h2]

theorem D_perm {a : List Sums} {ord : List Nat} (h : ord.Perm (List.range a.length)) : (D ord a).Perm a := by
  have := h.map fun x => a.getD x 1
  rw [show List.map (fun x => a.getD x 1) (List.range a.length) = a from D_range a] at this
  exact this

theorem mapNodes_total {a : List Sums} {f : Nat} {s p : List Nat} (h : ∀ x ∈ s, x ∈ p) :
    total (mapNodes (sumN.mapping f) a s) ≤ total (mapNodes (sumN.mapping f) a p) := by
  refine total_le ?_
  rw [List.forall₂_iff_get]
  refine ⟨by simp [mapNodes], ?_⟩
  intro i h1 h2
  simp only [mapNodes, List.get_eq_getElem, List.getElem_mapIdx]
  by_cases h3 : i ∈ s
  · rw [if_pos h3, if_pos (h i h3)]
  · rw [if_neg h3]
    split
    · simp [sumN]
    · exact Nat.le_refl _

/-- The decomposition holds the node values `a`, each of which is at least the additions made to it. -/
structure GRep (g : List (List Nat)) (root : Nat) (c : Forest) (h : HLD Sums Nat) (a : List Sums) : Prop where
  len : a.length = g.length
  arr : HOk g root h.arr c
  data : ∃ lg, LazyF.Rep sumN h.data (D (root :: c.pre) a) lg ∧ Simple (D (root :: c.pre) a) lg

theorem D_total {t : HArr} (H : HOk g root t c) {a : List Sums} (hl : a.length = g.length) :
    total (D (root :: c.pre) a) = total a := total_perm (D_perm (by rw [hl]; exact H.perm))

theorem D_fine {t : HArr} (H : HOk g root t c) {a : List Sums} (hl : a.length = g.length) (hg : g.length < 2 ^ w)
    {lg : List (List Nat)} (hs : Simple (D (root :: c.pre) a) lg) (ht : total a < 2 ^ w) :
    Fine sumN (FitU w) (· < 2 ^ w) (D (root :: c.pre) a) lg :=
  simple_fine hs (by rw [D_total H hl]; exact ht) (by rw [D, List.length_map, H.length]; exact hg)

/-- One range of positions is increased. -/
theorem range_fit {t : HArr} (H : HOk g root t c) (hg : g.length < 2 ^ w) {a : List Sums} (hl : a.length = g.length)
    {d : LazySegtree Sums Nat} {lg : List (List Nat)} (hd : LazyF.Rep sumN d (D (root :: c.pre) a) lg)
    (hs : Simple (D (root :: c.pre) a) lg) {l r f : Nat} (hlr : l ≤ r) (hrn : r ≤ g.length)
    (ht : total (mapNodes (sumN.mapping f) a (((root :: c.pre).take r).drop l)) < 2 ^ w) :
    Sat (d.applyRange (fitSum w) l r f) fun d' => ∃ lg',
      LazyF.Rep sumN d' (D (root :: c.pre) (mapNodes (sumN.mapping f) a (((root :: c.pre).take r).drop l))) lg' ∧
      Simple (D (root :: c.pre) (mapNodes (sumN.mapping f) a (((root :: c.pre).take r).drop l))) lg' := by
  have hdl : (D (root :: c.pre) a).length = g.length := by rw [D, List.length_map, H.length]
  have e := D_map (f := sumN.mapping f) (a := a) H.nodup (fun x hx => by rw [hl]; exact H.mem.1 hx) (l := l) (r := r)
  have hs' := simple_range hs l r f
  have hta : total a < 2 ^ w := by
    refine Nat.lt_of_le_of_lt ?_ ht
    have := mapNodes_total (a := a) (f := f) (s := []) (p := ((root :: c.pre).take r).drop l) (by simp)
    rwa [mapNodes_nil] at this
  rw [← e]
  refine (LazyF.applyRange_sat fitOps_chk sumN_lawful sumN_comp (D_fine H hl hg hs hta) hd hlr (by omega) ?_).mono
    fun d' h => ⟨_, h, hs'⟩
  rw [e] at hs' ⊢
  exact D_fine H (by rw [mapNodes_length]; exact hl) hg hs' ht

section
variable {h : HLD Sums Nat} {a : List Sums} (hg : g.length < 2 ^ w) (R : GRep g root c h a) (ht : total a < 2 ^ w)
include hg R ht

omit hg R ht in
theorem GRep.dlen' (R : GRep g root c h a) : (D (root :: c.pre) a).length = g.length := by
  rw [D, List.length_map, R.arr.length]

theorem hget_fit {u : Nat} (hu : u < g.length) : Sat (h.get (fitSum w) u) (fun o => GRep g root c o.1 a) := by
  obtain ⟨lg, hd, hs⟩ := R.data
  simp only [HLD.get]
  rw [idx_of_some (R.arr.posSome hu), ok_bind, sat_bind]
  refine (LazyF.get_sat fitOps_chk sumN_lawful sumN_comp (D_fine R.arr R.len hg hs ht) hd
    (by rw [R.dlen']; exact R.arr.pos_lt hu)).mono ?_
  rintro ⟨t, x⟩ ⟨h1, h2⟩
  simp only [sat_ok]
  exact ⟨R.len, R.arr, lg, h1, hs⟩

theorem hset_fit {u : Nat} (hu : u < g.length) {x : Sums} (hx : x.toAdd.2 = 1) (ht' : total (a.set u x) < 2 ^ w) :
    Sat (h.set (fitSum w) u x) (fun o => GRep g root c o (a.set u x)) := by
  obtain ⟨lg, hd, hs⟩ := R.data
  simp only [HLD.set]
  rw [idx_of_some (R.arr.posSome hu), ok_bind, sat_bind]
  have e := D_set (x := x) R.arr.nodup (R.arr.ord_pos hu) (by rw [R.len]; exact hu)
  have hs' : Simple ((D (root :: c.pre) a).set (P h.arr u) x) (lg.set (P h.arr u) []) :=
    simple_next hs (op := .set (P h.arr u) x) hx
  have hl' : (a.set u x).length = g.length := by simpa using R.len
  rw [e] at hs'
  have hf := D_fine R.arr hl' hg hs' ht'
  rw [← e] at hf
  refine (LazyF.set_sat fitOps_chk sumN_lawful sumN_comp (D_fine R.arr R.len hg hs ht) hd (x := x)
    (by rw [R.dlen']; exact R.arr.pos_lt hu) hf).mono ?_
  intro t h1
  simp only [sat_ok]
  rw [e] at h1
  exact ⟨hl', R.arr, _, h1, hs'⟩

theorem hsubProd_fit (T : IsTree g) (hr : root < g.length) {u : Nat} (hu : u < g.length) :
    Sat (h.subtreeProd (fitSum w) u) (fun o => GRep g root c o.1 a) := by
  obtain ⟨lg, hd, hs⟩ := R.data
  simp only [HLD.subtreeProd]
  obtain ⟨h1, h2⟩ := R.arr.posR_le T hr hu
  rw [idx_of_some (R.arr.posSome hu), ok_bind, idx_of_some (R.arr.posRSome hu), ok_bind, sat_bind]
  refine (LazyF.prod_sat fitOps_chk sumN_lawful sumN_comp (D_fine R.arr R.len hg hs ht) hd (by omega)
    (by rw [R.dlen']; exact h2)).mono ?_
  rintro ⟨t, x⟩ ⟨h3, h4⟩
  simp only [sat_ok]
  exact ⟨R.len, R.arr, lg, h3, hs⟩

omit ht in
theorem happlySub_fit (T : IsTree g) (hr : root < g.length) {u : Nat} (hu : u < g.length) {f : Nat}
    (ht' : ∀ s, (∀ x, x ∈ s ↔ Ancestor g root u x) → total (mapNodes (sumN.mapping f) a s) < 2 ^ w) :
    Sat (h.applySubtree (fitSum w) u f) (fun o => ∃ s, (∀ x, x ∈ s ↔ Ancestor g root u x) ∧
      GRep g root c o (mapNodes (sumN.mapping f) a s)) := by
  obtain ⟨lg, hd, hs⟩ := R.data
  have hsub : ∀ x, x ∈ ((root :: c.pre).take (PR h.arr u)).drop (P h.arr u) ↔ Ancestor g root u x := by
    intro x
    constructor
    · intro hx
      have hxl := R.arr.mem.1 (List.mem_of_mem_take (List.mem_of_mem_drop hx))
      rw [mem_seg R.arr.nodup (R.arr.ord_pos hxl)] at hx
      exact (R.arr.subtree T hr hu hxl).2 hx
    · intro hx
      have hxl := (anc_lt T hr hx).2
      rw [mem_seg R.arr.nodup (R.arr.ord_pos hxl)]
      exact (R.arr.subtree T hr hu hxl).1 hx
  simp only [HLD.applySubtree]
  obtain ⟨h1, h2⟩ := R.arr.posR_le T hr hu
  rw [idx_of_some (R.arr.posSome hu), ok_bind, idx_of_some (R.arr.posRSome hu), ok_bind, sat_bind]
  refine (range_fit R.arr hg R.len hd hs (by omega) h2 (ht' _ hsub)).mono ?_
  intro t h3
  simp only [sat_ok]
  exact ⟨_, hsub, by rw [mapNodes_length]; exact R.len, R.arr, h3⟩

omit ht in
theorem happlyPath_fit (T : IsTree g) (hr : root < g.length) (hgl : g.length < 2 ^ 64)
    {u v : Nat} (hu : u < g.length) (hv : v < g.length) {f : Nat} {p : List Nat} (hp : IsPath g u v p)
    (ht' : total (mapNodes (sumN.mapping f) a p) < 2 ^ w) :
    Sat (h.applyPath (fitSum w) u v f) (fun o => GRep g root c o (mapNodes (sumN.mapping f) a p)) := by
  unfold HLD.applyPath
  rw [sat_bind]
  have hlen : ∀ s : List Nat, (mapNodes (sumN.mapping f) a s).length = g.length := fun s => by
    rw [mapNodes_length]; exact R.len
  refine (whileLoop_satG (σ := LazySegtree Sums Nat × Nat × Nat)
    (fun s k => s.2.1 < g.length ∧ s.2.2 < g.length ∧
      k = (rpath g root s.2.1).length + (rpath g root s.2.2).length ∧
      ∃ dn q, IsPath g s.2.1 s.2.2 q ∧ (dn ++ q).Perm p ∧
        ∃ lg, LazyF.Rep sumN s.1 (D (root :: c.pre) (mapNodes (sumN.mapping f) a dn)) lg ∧
          Simple (D (root :: c.pre) (mapNodes (sumN.mapping f) a dn)) lg)
    (fun s => s.2.1 < g.length ∧ s.2.2 < g.length ∧ Hd h.arr s.2.1 = Hd h.arr s.2.2 ∧
      ∃ dn q, IsPath g s.2.1 s.2.2 q ∧ (dn ++ q).Perm p ∧
        ∃ lg, LazyF.Rep sumN s.1 (D (root :: c.pre) (mapNodes (sumN.mapping f) a dn)) lg ∧
          Simple (D (root :: c.pre) (mapNodes (sumN.mapping f) a dn)) lg) ?_ _ _
    ((rpath g root u).length + (rpath g root v).length) ?_ ?_).mono ?_
  · rintro ⟨data, u, v⟩ k ⟨hu, hv, rfl, dn, q, hq, hperm, lg, hrep, hsim⟩
    simp only at hu hv hq hperm hrep hsim ⊢
    rw [idx_of_some (R.arr.headSome hu), ok_bind, idx_of_some (R.arr.headSome hv)]
    simp only [ok_bind, sat_ok]
    by_cases hne : Hd h.arr u = Hd h.arr v
    · rw [if_neg (by simp [hne])]
      exact ⟨hu, hv, hne, dn, q, hq, hperm, lg, hrep, hsim⟩
    · rw [if_pos (by simp [hne])]
      have hhu := (R.arr.head_spec T hr _ u hu rfl).1
      have hhv := (R.arr.head_spec T hr _ v hv rfl).1
      rw [idx_of_some (R.arr.dep _ hhu), idx_of_some (R.arr.dep _ hhv)]
      simp only [ok_bind]
      obtain ⟨u', v', s, q', e, k1, k2, k3, k4, k5, k6, k7, k8, k9, -⟩ :=
        round T hr hgl R.arr hu hv hne hq
      rw [← e]
      simp only
      rw [idx_of_some (R.arr.headSome k1), ok_bind, idx_of_some (R.arr.posSome k3), ok_bind,
        idx_of_some (R.arr.posSome k1), ok_bind, idx_of_some (R.arr.parent _ k3), sat_bind]
      have hper2 : (dn ++ s ++ q').Perm p := by
        rw [List.append_assoc]; exact (k8.append_left dn).trans hperm
      have hn2 : (dn ++ s ++ q').Nodup := hper2.nodup_iff.2 hp.nodup
      rw [List.nodup_append, List.nodup_append] at hn2
      have happ := mapNodes_append (f := sumN.mapping f) (a := a) (fun x hx hx2 => hn2.1.2.2 x hx x hx2 rfl)
      refine (range_fit R.arr hg (hlen dn) hrep hsim (f := f) (Nat.le_succ_of_le k4)
        (R.arr.pos_lt k1) ?_).mono ?_
      · rw [k5, happ]
        exact Nat.lt_of_le_of_lt (mapNodes_total fun x hx => hper2.mem_iff.1 (List.mem_append_left _ hx)) ht'
      · rintro d ⟨lg', hd, hs'⟩
        simp only [ok_bind, sat_ok]
        rw [k5, happ] at hd hs'
        exact ⟨_, k9, k6, k2, rfl, dn ++ s, q', k7, hper2, lg', hd, hs'⟩
  · exact ⟨hu, hv, rfl, [], p, hp, List.Perm.refl _, by rw [mapNodes_nil]; exact R.data⟩
  · have h1 := (rpath_path T hr hu).length_le T hr
    have h2 := (rpath_path T hr hv).length_le T hr
    rw [R.arr.wf.head]; omega
  · rintro ⟨data, u, v⟩ ⟨hu, hv, he, dn, q, hq, hperm, lg, hrep, hsim⟩
    simp only at hu hv he hq hperm hrep hsim ⊢
    obtain ⟨u', v', s, e, k1, k2, k3, k4, k5, -⟩ := final T hr R.arr hu hv he hq
    rw [idx_of_some (R.arr.posSome hu), ok_bind, idx_of_some (R.arr.posSome hv), ok_bind, ← e]
    simp only
    rw [idx_of_some (R.arr.posSome k1), ok_bind, idx_of_some (R.arr.posSome k2), ok_bind, sat_bind]
    have hper2 : (dn ++ s).Perm p := (k5.append_left dn).trans hperm
    have hn2 : (dn ++ s).Nodup := hper2.nodup_iff.2 hp.nodup
    rw [List.nodup_append] at hn2
    have happ : mapNodes (sumN.mapping f) (mapNodes (sumN.mapping f) a dn) s = mapNodes (sumN.mapping f) a p := by
      rw [mapNodes_append (fun x hx hx2 => hn2.2.2 x hx x hx2 rfl), mapNodes_congr (fun x => hper2.mem_iff)]
    refine (range_fit R.arr hg (hlen dn) hrep hsim (f := f) (Nat.le_succ_of_le k3) (R.arr.pos_lt k2) ?_).mono ?_
    · rw [k4, happ]; exact ht'
    · rintro d ⟨lg', hd, hs'⟩
      rw [k4, happ] at hd hs'
      simp only [sat_ok]
      exact ⟨hlen p, R.arr, lg', hd, hs'⟩

omit ht in
/-- The products that `path_prod` forms are sums over different nodes. -/
theorem nodes_fit (ht : total a < 2 ^ w) {q : List Nat} (hq : q.Nodup) (hlt : ∀ x ∈ q, x < g.length) :
    FitU w (nodeProd a q) := by
  obtain ⟨lg, hd, hs⟩ := R.data
  have hsp : q.Subperm (List.range a.length) := List.subperm_of_subset hq fun x hx => by
    rw [List.mem_range, R.len]; exact hlt x hx
  obtain ⟨rest, hrest⟩ : ∃ rest, (List.range a.length).Perm (q ++ rest) := by
    obtain ⟨l, h1, h2⟩ := hsp
    obtain ⟨rest, h3⟩ := h2.exists_perm_append
    exact ⟨rest, h3.trans (h1.append_right rest)⟩
  have hD : (D q a ++ D rest a).Perm a := by
    have h1 := (D_perm hrest.symm)
    rwa [D, List.map_append] at h1
  have hone : ∀ x ∈ a, x.toAdd.2 = 1 := by
    intro x hx
    have hx' : x ∈ D (root :: c.pre) a := (D_perm (by rw [R.len]; exact R.arr.perm)).symm.subset hx
    obtain ⟨i, hi, rfl⟩ := List.mem_iff_getElem.1 hx'
    exact (hs.2 i _ _ (List.getElem?_eq_getElem hi) (List.getElem?_eq_getElem (hs.1 ▸ hi))).1
  have e1 := total_perm hD
  rw [total_app] at e1
  refine ⟨?_, ?_⟩
  · show total (D q a) < 2 ^ w
    omega
  · have e2 : (D q a).prod.toAdd.2 = (D q a).length := prod_snd fun x hx =>
      hone x (hD.subset (List.mem_append_left _ hx))
    have e3 := hD.length_eq
    rw [List.length_append, R.len] at e3
    show (D q a).prod.toAdd.2 < 2 ^ w
    omega

theorem hpathProd_fit (T : IsTree g) (hr : root < g.length) (hgl : g.length < 2 ^ 64)
    {u v : Nat} (hu : u < g.length) (hv : v < g.length) {p : List Nat} (hp : IsPath g u v p) :
    Sat (h.pathProd (fitSum w) u v) (fun o => GRep g root c o.1 a) := by
  obtain ⟨lg, hd0, hs⟩ := R.data
  have hmem : ∀ x ∈ p, x < g.length := fun x hx => hp.lt T hu x hx
  have hfine := D_fine R.arr R.len hg hs ht
  unfold HLD.pathProd
  rw [sat_bind]
  have happ : ∀ {data : LazySegtree Sums Nat} {l r : Nat},
      LazyF.Rep sumN data (D (root :: c.pre) a) lg → l ≤ r → r < g.length →
      Sat (data.prod (fitSum w) l (r + 1)) (fun o => LazyF.Rep sumN o.1 (D (root :: c.pre) a) lg ∧
        o.2 = nodeProd a (((root :: c.pre).take (r + 1)).drop l)) := by
    intro data l r hd hlr hrn
    refine (LazyF.prod_sat fitOps_chk sumN_lawful sumN_comp hfine hd (by omega) (by rw [R.dlen']; omega)).mono ?_
    rintro ⟨d, x⟩ ⟨h1, h2⟩
    exact ⟨h1, by rw [← D_prod]; exact h2⟩
  have hop : ∀ {dn s q : List Nat}, (dn ++ s ++ q).Perm p →
      (fitSum w).op (nodeProd a dn) (nodeProd a s) = ok (nodeProd a (dn ++ s)) := by
    intro dn s q hperm
    have hn : (dn ++ s ++ q).Nodup := hperm.nodup_iff.2 hp.nodup
    rw [nodeProd_append]
    refine if_pos ?_
    show FitU w (nodeProd a dn * nodeProd a s)
    rw [← nodeProd_append]
    exact nodes_fit hg R ht (List.nodup_append.1 hn).1 fun x hx =>
      hmem x (hperm.mem_iff.1 (List.mem_append_left _ hx))
  refine (whileLoop_satG (σ := LazySegtree Sums Nat × Sums × Nat × Nat)
    (fun s k => s.2.2.1 < g.length ∧ s.2.2.2 < g.length ∧
      k = (rpath g root s.2.2.1).length + (rpath g root s.2.2.2).length ∧
      ∃ dn q, IsPath g s.2.2.1 s.2.2.2 q ∧ (dn ++ q).Perm p ∧ s.2.1 = nodeProd a dn ∧
        LazyF.Rep sumN s.1 (D (root :: c.pre) a) lg)
    (fun s => s.2.2.1 < g.length ∧ s.2.2.2 < g.length ∧ Hd h.arr s.2.2.1 = Hd h.arr s.2.2.2 ∧
      ∃ dn q, IsPath g s.2.2.1 s.2.2.2 q ∧ (dn ++ q).Perm p ∧ s.2.1 = nodeProd a dn ∧
        LazyF.Rep sumN s.1 (D (root :: c.pre) a) lg) ?_ _ _
    ((rpath g root u).length + (rpath g root v).length) ?_ ?_).mono ?_
  · rintro ⟨data, res, u', v'⟩ k ⟨hu', hv', rfl, dn, q, hq, hperm, rfl, hrep⟩
    simp only at hu' hv' hq hperm hrep ⊢
    rw [idx_of_some (R.arr.headSome hu'), ok_bind, idx_of_some (R.arr.headSome hv')]
    simp only [ok_bind, sat_ok]
    by_cases hne : Hd h.arr u' = Hd h.arr v'
    · rw [if_neg (by simp [hne])]
      exact ⟨hu', hv', hne, dn, q, hq, hperm, rfl, hrep⟩
    · rw [if_pos (by simp [hne])]
      have hhu := (R.arr.head_spec T hr _ u' hu' rfl).1
      have hhv := (R.arr.head_spec T hr _ v' hv' rfl).1
      rw [idx_of_some (R.arr.dep _ hhu), idx_of_some (R.arr.dep _ hhv)]
      simp only [ok_bind]
      obtain ⟨u2, v2, s, q', e, k1, k2, k3, k4, k5, k6, k7, k8, k9, -⟩ :=
        round T hr hgl R.arr hu' hv' hne hq
      rw [← e]
      simp only
      rw [idx_of_some (R.arr.headSome k1), ok_bind, idx_of_some (R.arr.posSome k3), ok_bind,
        idx_of_some (R.arr.posSome k1), ok_bind, idx_of_some (R.arr.parent _ k3), sat_bind]
      refine (happ hrep k4 (R.arr.pos_lt k1)).mono ?_
      rintro ⟨d, x⟩ ⟨hd, hx⟩
      rw [k5] at hx
      simp only at hx hd ⊢
      subst hx
      have hper2 : (dn ++ s ++ q').Perm p := by
        rw [List.append_assoc]; exact (k8.append_left dn).trans hperm
      rw [hop hper2]
      simp only [ok_bind, sat_ok]
      exact ⟨_, k9, k6, k2, rfl, dn ++ s, q', k7, hper2, rfl, hd⟩
  · exact ⟨hu, hv, rfl, [], p, hp, List.Perm.refl _, rfl, hd0⟩
  · have h1 := (rpath_path T hr hu).length_le T hr
    have h2 := (rpath_path T hr hv).length_le T hr
    rw [R.arr.wf.head]; omega
  · rintro ⟨data, res, u', v'⟩ ⟨hu', hv', he, dn, q, hq, hperm, rfl, hrep⟩
    simp only at hu' hv' he hq hperm hrep ⊢
    obtain ⟨u2, v2, s, e, k1, k2, k3, k4, k5, k6⟩ := final T hr R.arr hu' hv' he hq
    rw [idx_of_some (R.arr.posSome hu'), ok_bind, idx_of_some (R.arr.posSome hv'), ok_bind, ← e]
    simp only
    rw [idx_of_some (R.arr.posSome k1), ok_bind, idx_of_some (R.arr.posSome k2), ok_bind, sat_bind]
    refine (happ hrep k3 (R.arr.pos_lt k2)).mono ?_
    rintro ⟨d, x⟩ ⟨hd, hx⟩
    rw [k4] at hx
    simp only at hx hd ⊢
    subst hx
    have hper2 : (dn ++ s ++ []).Perm p := by
      rw [List.append_nil]; exact (k5.append_left dn).trans hperm
    rw [hop hper2]
    simp only [ok_bind, sat_ok]
    exact ⟨R.len, R.arr, lg, hd, hs⟩

end

theorem hnew_fit (T : IsTree g) (hr : root < g.length) (hgl : g.length < 2 ^ 32) :
    Sat (HLD.new (fitSum w) g root) (fun h => ∃ c, HOk g root h.arr c) := by
  unfold HLD.new
  simp only []
  rw [assert_true hr, ok_bind, sat_bind]
  unfold LazySegtree.new
  have hp := Nat.two_pow_pos w
  have hone : ∀ l r, rangeProd (List.replicate g.length (1 : Sums)) l r = 1 := by
    intro l r
    unfold rangeProd
    rw [List.take_replicate, List.drop_replicate, List.prod_replicate, one_pow]
  refine (LazyF.from_sat (fitOps_chk (M := sumN) (Fits := FitU w) (FitsF := (· < 2 ^ w))) sumN_lawful sumN_comp
    (a := List.replicate g.length 1) (by simpa using hgl) ⟨hp, fun l r _ _ => by rw [hone]; exact ⟨hp, hp⟩, ?_⟩).mono ?_
  · intro fs hfs k
    rw [List.eq_of_mem_replicate hfs, List.take_nil]
    exact hp
  intro d hd
  rw [upd_of_lt (by simpa using hr), ok_bind]
  have hb := new_arr T hr hgl _ rfl
  simp only [sat_bind] at hb ⊢
  refine hb.mono ?_
  rintro ⟨t, s⟩ h1
  refine h1.mono ?_
  rintro ⟨t2, s2⟩ ⟨c, hc⟩
  simp only [sat_ok]
  exact ⟨c, hc⟩

theorem hinit_fit (T : IsTree g) (hr : root < g.length) (hgl : g.length < 2 ^ 32) (hg : g.length < 2 ^ w)
    {v : List Sums} (hv : v.length = g.length) (h1 : ∀ x ∈ v, x.toAdd.2 = 1) (ht : total v < 2 ^ w) :
    Sat (HLD.withInitValue (fitSum w) g root v) (fun h => ∃ c, GRep g root c h v) := by
  unfold HLD.withInitValue
  rw [assert_true hv.symm, ok_bind, sat_bind]
  refine (hnew_fit T hr hgl).mono ?_
  rintro h ⟨c, H⟩
  rw [sat_bind]
  refine (forRange_sat (fun j (a : List Sums) => a.length = v.length ∧
    ∀ i, i < j → a[P h.arr i]? = v[i]?) (Nat.zero_le _) ⟨rfl, by omega⟩ ?_).mono ?_
  · intro j a _ hj ⟨h1, h2⟩
    have hjl : j < g.length := by omega
    have hp := H.pos_lt hjl
    rw [idx_of_lt hj, ok_bind, idx_of_some (H.posSome hjl), ok_bind, upd_of_lt (by omega), sat_ok]
    refine ⟨by simpa using h1, ?_⟩
    intro i hi
    by_cases e : i = j
    · subst e
      rw [List.getElem?_set_self (by omega), List.getElem?_eq_getElem hj]
    · rw [List.getElem?_set_ne, h2 i (by omega)]
      intro hc
      exact e (H.pos_inj hjl (by omega) hc).symm
  · intro a ⟨h1', h2⟩
    have e : a = D (root :: c.pre) v := by
      apply List.ext_getElem?
      intro i
      rw [D, List.getElem?_map]
      cases hx : (root :: c.pre)[i]? with
      | none =>
        have := List.getElem?_eq_none_iff.1 hx
        rw [H.length] at this
        rw [List.getElem?_eq_none (by omega)]; rfl
      | some x =>
        have hxl := H.mem.1 (List.mem_of_getElem? hx)
        have := h2 x (by omega)
        rw [H.ord_get hx] at this
        rw [this, Option.map_some, getD_eq_of_lt (by omega), List.getElem?_eq_getElem (by omega)]
    subst e
    rw [sat_bind]
    have hs : Simple (D (root :: c.pre) v) (List.replicate (D (root :: c.pre) v).length []) := by
      refine ⟨by simp, fun i x fs e1 e2 => ⟨?_, ?_⟩⟩
      · exact h1 x ((D_perm (by rw [hv]; exact H.perm)).subset (List.mem_of_getElem? e1))
      · rw [List.eq_of_mem_replicate (List.mem_of_getElem? e2)]; exact Nat.zero_le _
    refine (LazyF.from_sat fitOps_chk sumN_lawful sumN_comp (by omega) (D_fine H hv hg hs ht)).mono ?_
    intro d hd
    simp only [sat_ok]
    exact ⟨c, hv, H, _, hd, hs⟩

theorem hStep_fit (hg : g.length < 2 ^ w) (T : IsTree g) (hr : root < g.length) (hgl : g.length < 2 ^ 32)
    {h : HLD Sums Nat} {a : List Sums} (R : GRep g root c h a) (ht : total a < 2 ^ w) {op : HldOp Sums Nat}
    (hp : op.Pre g.length) (hu : HUnitOp op) (ht' : ∀ b, op.Next sumN g root a b → total b < 2 ^ w) :
    Sat (hStep (fitSum w) h op) (fun o => ∃ b, op.Next sumN g root a b ∧ GRep g root c o.1 b) := by
  cases op with
  | get u =>
    simp only [hStep, sat_bind, sat_ok]
    exact (hget_fit hg R ht hp).mono fun _ k => ⟨a, rfl, k⟩
  | set u x =>
    simp only [hStep, sat_bind, sat_ok]
    exact (hset_fit hg R ht hp hu (ht' _ rfl)).mono fun _ k => ⟨_, rfl, k⟩
  | applyPath u v f =>
    obtain ⟨p, hpath⟩ := (T.path u v hp.1 hp.2).exists
    simp only [hStep, sat_bind, sat_ok]
    exact (happlyPath_fit hg R T hr (by omega) hp.1 hp.2 hpath (ht' _ ⟨p, hpath, rfl⟩)).mono fun _ k =>
      ⟨_, ⟨p, hpath, rfl⟩, k⟩
  | pathProd u v =>
    obtain ⟨p, hpath⟩ := (T.path u v hp.1 hp.2).exists
    simp only [hStep, sat_bind, sat_ok]
    exact (hpathProd_fit hg R ht T hr (by omega) hp.1 hp.2 hpath).mono fun _ k => ⟨a, rfl, k⟩
  | applySubtree u f =>
    simp only [hStep, sat_bind, sat_ok]
    exact (happlySub_fit hg R T hr hp fun s hs => ht' _ ⟨s, hs, rfl⟩).mono fun _ ⟨s, hs, k⟩ => ⟨_, ⟨s, hs, rfl⟩, k⟩
  | subtreeProd u =>
    simp only [hStep, sat_bind, sat_ok]
    exact (hsubProd_fit hg R ht T hr hp).mono fun _ k => ⟨a, rfl, k⟩

theorem HTotalFits.here {a : List Sums} {ops : List (HldOp Sums Nat)} (h : HTotalFits w g root a ops) :
    total a < 2 ^ w := by
  cases ops with
  | nil => exact h
  | cons op ops => exact h.1

theorem hRun_fit (hg : g.length < 2 ^ w) (T : IsTree g) (hr : root < g.length) (hgl : g.length < 2 ^ 32)
    {ops : List (HldOp Sums Nat)} {h : HLD Sums Nat} {a : List Sums} (R : GRep g root c h a)
    (hp : ∀ op ∈ ops, op.Pre g.length) (hu : ∀ op ∈ ops, HUnitOp op) (ht : HTotalFits w g root a ops) :
    Sat (hRun (fitSum w) h ops) (fun _ => True) := by
  induction ops generalizing h a with
  | nil => simp only [hRun, sat_ok]
  | cons op ops ih =>
    simp only [hRun, sat_bind, sat_ok]
    refine (hStep_fit hg T hr hgl R ht.1 (hp op (by simp)) (hu op (by simp)) fun b hb => (ht.2 b hb).here).mono ?_
    rintro ⟨h1, o⟩ ⟨b, k1, k2⟩
    exact ih k2 (fun op' h' => hp op' (List.mem_cons_of_mem _ h')) (fun op' h' => hu op' (List.mem_cons_of_mem _ h'))
      (ht.2 b k1)

/-- A call on given node values leaves exactly one list of node values. -/
theorem next_unique (T : IsTree g) {a b b' : List Sums} {op : HldOp Sums Nat} (hp : op.Pre g.length)
    (h : op.Next sumN g root a b) (h' : op.Next sumN g root a b') : b = b' := by
  cases op with
  | applyPath u v f =>
    obtain ⟨p, h1, rfl⟩ := h
    obtain ⟨q, h2, rfl⟩ := h'
    rw [h1.eq T h2 hp.1]
  | applySubtree u f =>
    obtain ⟨p, h1, rfl⟩ := h
    obtain ⟨q, h2, rfl⟩ := h'
    exact mapNodes_congr fun x => (h1 x).trans (h2 x).symm
  | _ => exact h.trans (Eq.symm h')

theorem htotal_of_run (T : IsTree g) (hr : root < g.length) (hgl : g.length < 2 ^ 32)
    {ops : List (HldOp (Nat × Nat) Nat)} {ops' : List (HldOp Sums Nat)}
    (ho : List.Forall₂ (HldOp.Like (IsU w) (IsF w)) ops ops') {a : List Sums} {h : HLD (Nat × Nat) Nat}
    {h' : HLD Sums Nat} (hh : HR (IsU w) (IsF w) h h') (R : HLDP.Rep sumN g root c h' a)
    (hp : ∀ op ∈ ops', op.Pre g.length) {u : HLD (Nat × Nat) Nat × List (HldOut (Nat × Nat))}
    (hrun : hRun (sumU w) h ops = ok u) : HTotalFits w g root a ops' := by
  have here : ∀ {a : List Sums} {h : HLD (Nat × Nat) Nat} {h' : HLD Sums Nat}, HR (IsU w) (IsF w) h h' →
      HLDP.Rep sumN g root c h' a → total a < 2 ^ w := by
    intro a h h' hh R
    rw [← D_total R.arr R.len]
    exact total_of_tr hh.data R.data
  induction ho generalizing h h' a u with
  | nil => exact here hh R
  | @cons op op' ops ops' hop hrest ih =>
    refine ⟨here hh R, ?_⟩
    obtain ⟨⟨t1', o'⟩, e', b, hb, hr', -, -⟩ := hStep_sat sumN_lawful T hr hgl R (hp op' (by simp))
    simp only [hRun] at hrun
    rcases hStep_sim (represents_sim (sumU_represents w)) hh hop with
      ⟨-, e⟩ | ⟨h, -⟩ | ⟨-, e⟩ | ⟨-, e⟩ | ⟨⟨t1, o⟩, ⟨u1, v1⟩, e1, e2, k1, k2⟩
    · rw [e] at hrun; cases hrun
    · exact h.elim
    · rw [e'] at e; cases e
    · rw [e'] at e; cases e
    · rw [e'] at e2; cases e2
      rw [e1, ok_bind] at hrun
      simp only at hrun
      cases e3 : hRun (sumU w) t1 ops with
      | ok v =>
        intro b' hb'
        rw [← next_unique T (hp op' (by simp)) hb hb']
        exact ih k1 hr' (fun op'' h' => hp op'' (List.mem_cons_of_mem _ h')) e3
      | panic => rw [e3] at hrun; cases hrun
      | diverge => rw [e3] at hrun; cases hrun

theorem hlike_fits {op : HldOp (Nat × Nat) Nat} {op' : HldOp Sums Nat} (h : op.Like (IsU w) (IsF w) op') :
    op.Like (AndFits (IsU w) (FitU w)) (AndFits (IsF w) (· < 2 ^ w)) op' := by
  have hU : ∀ {x : Nat × Nat} {a : Sums}, IsU w x a → AndFits (IsU w) (FitU w) x a := by
    rintro x a ⟨rfl, h1, h2⟩; exact ⟨⟨rfl, h1, h2⟩, h1, h2⟩
  have hF : ∀ {f φ : Nat}, IsF w f φ → AndFits (IsF w) (· < 2 ^ w) f φ := by
    rintro f φ ⟨rfl, h1⟩; exact ⟨⟨rfl, h1⟩, h1⟩
  cases op <;> cases op' <;> try exact h.elim
  · exact h
  · exact ⟨h.1, hU h.2⟩
  · exact ⟨h.1, h.2.1, hF h.2.2⟩
  · exact h
  · exact ⟨h.1, hF h.2⟩
  · exact h

/-- **C97.** A heavy-light decomposition for range addition and sums of `u{w}` values, `w` at least 32, answers a history
of calls if the sum of all node values fits in `u{w}` at each moment; otherwise it panics. -/
theorem C97_sum_exact (w : Nat) (hw : 32 ≤ w) (T : IsTree g) (hr : root < g.length) (hgl : g.length < 2 ^ 32)
    (v : List (Nat × Nat)) (a : List Sums) (hv : List.Forall₂ (IsU w) v a) (h1 : ∀ x ∈ a, x.toAdd.2 = 1)
    (ha : a.length = g.length) (ops : List (HldOp (Nat × Nat) Nat)) (ops' : List (HldOp Sums Nat))
    (ho : List.Forall₂ (HldOp.Like (IsU w) (IsF w)) ops ops') (hu : ∀ op ∈ ops', HUnitOp op)
    (hops : ∀ op ∈ ops', op.Pre g.length) :
    (HTotalFits w g root a ops' → ∃ outs outs' ord,
      (do let h ← HLD.withInitValue (sumU w) g root v; Prod.snd <$> hRun (sumU w) h ops : Res _) = ok outs ∧
      List.Forall₂ (HldOut.Like (IsU w)) outs outs' ∧ ord.Perm (List.range g.length) ∧
      HldRunOk sumN g root ord a ops' outs') ∧
    (¬ HTotalFits w g root a ops' →
      (do let h ← HLD.withInitValue (sumU w) g root v; Prod.snd <$> hRun (sumU w) h ops : Res _) = Res.panic) := by
  have hg : g.length < 2 ^ w := Nat.lt_of_lt_of_le hgl (Nat.pow_le_pow_right (by omega) hw)
  have hp := Nat.two_pow_pos w
  have hC64 := C64_hld sumN_lawful (sumU_represents w) g root T hr hgl v a hv ha ops ops' ho hops
  constructor
  · intro ht
    rcases hC64 with hpanic | h
    · exfalso
      have hs := fitOps_sim (sumU_represents w) (sumU_returns w) (⟨hp, hp⟩ : FitU w sumN.e) (hp : sumN.idMap < 2 ^ w)
      obtain ⟨t0, e0, c, R⟩ := hinit_fit T hr hgl hg ha h1 ht.here
      have hl : ListRel (AndFits (IsU w) (FitU w)) v a := by
        refine ⟨(listRel_of hv).1, fun i x y k1 k2 => ?_⟩
        obtain ⟨rfl, k3, k4⟩ := (listRel_of hv).2 i x y k1 k2
        exact ⟨⟨rfl, k3, k4⟩, k3, k4⟩
      rcases H.withInitValue_sim hs g root hl with ⟨h, -⟩ | ⟨-, e⟩ | ⟨-, e⟩ | ⟨-, e⟩ | ⟨t1, t1', e2, e3, k⟩
      · exact h.elim
      · rw [show HLD.withInitValue (fitOps sumN (FitU w) (· < 2 ^ w)) g root a = _ from e0] at e; cases e
      · rw [show HLD.withInitValue (fitOps sumN (FitU w) (· < 2 ^ w)) g root a = _ from e0] at e; cases e
      · rw [show HLD.withInitValue (fitOps sumN (FitU w) (· < 2 ^ w)) g root a = _ from e0] at e; cases e
      rw [show HLD.withInitValue (fitOps sumN (FitU w) (· < 2 ^ w)) g root a = _ from e0] at e3; cases e3
      obtain ⟨x, e4, -⟩ := hRun_fit hg T hr hgl R hops hu ht
      have ho' := ho.imp fun _ _ h => hlike_fits h
      rcases hRun_sim hs ho' k with ⟨h, -⟩ | ⟨-, e⟩ | ⟨-, e⟩ | ⟨-, e⟩ | ⟨o, o', e5, e6, k1, k2⟩
      · exact h.elim
      · rw [show hRun (fitOps sumN (FitU w) (· < 2 ^ w)) t0 ops' = _ from e4] at e; cases e
      · rw [show hRun (fitOps sumN (FitU w) (· < 2 ^ w)) t0 ops' = _ from e4] at e; cases e
      · rw [show hRun (fitOps sumN (FitU w) (· < 2 ^ w)) t0 ops' = _ from e4] at e; cases e
      rw [e2, ok_bind, e5] at hpanic
      cases hpanic
    · exact h
  · intro ht
    rcases hC64 with h | ⟨outs, outs', ord, h, -, -, -⟩
    · exact h
    refine (ht ?_).elim
    obtain ⟨t0', e0, c, R⟩ := withInitValue_sat sumN_lawful T hr hgl ha
    rcases H.withInitValue_sim (represents_sim (sumU_represents w)) g root (listRel_of hv) with
      ⟨-, e⟩ | ⟨h, -⟩ | ⟨-, e⟩ | ⟨-, e⟩ | ⟨t1, t1', e2, e3, k⟩
    · rw [e] at h; cases h
    · exact h.elim
    · rw [e0] at e; cases e
    · rw [e0] at e; cases e
    rw [e0] at e3; cases e3
    rw [e2, ok_bind] at h
    cases e4 : hRun (sumU w) t1 ops with
    | ok u => exact htotal_of_run T hr hgl ho k R hops e4
    | panic => rw [e4] at h; cases h
    | diverge => rw [e4] at h; cases h

/-- The sum of the four values stays below `2 ^ 32` with an addition of `1431655758` along the path `1, 0, 2`, but not
with one more. -/
theorem hTotalFits_example : IsTree [[1, 2], [0], [0, 3], [2]] ∧
    HTotalFits 32 [[1, 2], [0], [0, 3], [2]] 0 [.ofAdd (5, 1), .ofAdd (7, 1), .ofAdd (9, 1), .ofAdd (0, 1)]
      [.applyPath 1 2 1431655758, .set 0 (.ofAdd (1, 1)), .pathProd 1 3] ∧
    ¬ HTotalFits 32 [[1, 2], [0], [0, 3], [2]] 0 [.ofAdd (5, 1), .ofAdd (7, 1), .ofAdd (9, 1), .ofAdd (0, 1)]
      [.applyPath 1 2 1431655759] := by
  have T : IsTree [[1, 2], [0], [0, 3], [2]] := isTree_of_check (by decide +kernel)
  have hp : IsPath [[1, 2], [0], [0, 3], [2]] 1 2 [1, 0, 2] := ⟨rfl, rfl, by decide, by decide⟩
  refine ⟨T, ⟨by simp [total, toAdd_mul], ?_⟩, fun h => ?_⟩
  · rintro b ⟨p, h1, rfl⟩
    rw [h1.eq T hp (by decide)]
    refine ⟨by simp [total, mapNodes, sumN, toAdd_mul], ?_⟩
    rintro b rfl
    refine ⟨by simp [total, mapNodes, sumN, toAdd_mul], ?_⟩
    rintro b rfl
    simp [HTotalFits, total, mapNodes, sumN, toAdd_mul]
  · have := h.2 _ ⟨_, hp, rfl⟩
    simp [HTotalFits, total, mapNodes, sumN, toAdd_mul] at this

example : (do
    let h ← HLD.withInitValue (sumU 32) [[1, 2], [0], [0, 3], [2]] 0 [(5, 1), (7, 1), (9, 1), (0, 1)]
    Prod.snd <$> hRun (sumU 32) h [.applyPath 1 2 1431655758, .set 0 (1, 1), .pathProd 1 3] : Res _) =
      ok [.unit, .unit, .val (2863311533, 4)] ∧
  (do
    let h ← HLD.withInitValue (sumU 32) [[1, 2], [0], [0, 3], [2]] 0 [(5, 1), (7, 1), (9, 1), (0, 1)]
    Prod.snd <$> hRun (sumU 32) h [.applyPath 1 2 1431655759] : Res _) = Res.panic := by constructor <;> rfl

end Verif.Props
