import Verif.Model.Width
import Verif.Proof.BinaryLifting
/-! Binary lifting on a target where `usize` has `W` bits (`Verif.Width.BinaryLifting`): the proofs of
`Proof/BinaryLifting.lean` with the width as a parameter and with any number of levels that is large enough. -/
namespace Verif.BLP
open Res Model Spec TreeP

section
variable {g : List (List Nat)} {root : Nat} {L W : Nat}
variable (T : IsTree g) (hr : root < g.length)
include T hr

/-- Body of the adjacency loop. -/
def stepW (W fuel : Nat) (g : List (List Nat)) (u p v : Nat) (st : BinaryLifting × Nat) :
    Res (BinaryLifting × Nat) :=
  let (t, timer) := st
  if v ≠ p then do
    let du ← idx t.dep u
    let d ← addU W du 1
    let dep ← upd t.dep v d
    Width.BinaryLifting.dfs W fuel g v u { t with dep := dep } timer
  else ok (t, timer)

/-- One `dfs` call, given that the adjacency loop does its job. -/
theorem nodeW_sat {g' : List (List Nat)} {l : List Nat} {u p τ fuel : Nat} {c : Forest} {t : BinaryLifting}
    (hu : u < g.length) (hgu : g'[u]? = some l)
    (hL : 0 < L) (hpar : par g root u = p) (huc : u ∉ c.pre)
    (hw : WF g.length L t) (hdep : t.dep[u]? = some ((rpath g root u).length - 1))
    (hanc : ∀ a ∈ rpath g root u, a ≠ u → t.pa[a]? = some (rowOf g root L a))
    (hτ : τ + 1 < 2 ^ W)
    (hloop : ∀ t1, WF g.length L t1 → t1.dep[u]? = some ((rpath g root u).length - 1) →
      (∀ a ∈ rpath g root u, t1.pa[a]? = some (rowOf g root L a)) →
      Sat (forList l (t1, τ + 1) (stepW W fuel g' u p)) (fun o =>
        Done g root L (τ + 1) c t1 o.1 ∧ o.2 = τ + 1 + c.size)) :
    Sat (Width.BinaryLifting.dfs W (fuel + 1) g' u p t τ) (fun o =>
      Done g root L τ (.cons u c .nil) t o.1 ∧ o.2 = τ + 1 + c.size) := by
  have hlv := hw.level
  subst hlv
  unfold Width.BinaryLifting.dfs
  have hut : u < t.tin.length := by rw [hw.tin]; exact hu
  have hup : u < t.pa.length := by rw [hw.pa]; exact hu
  rw [upd_of_lt hut, addU_of_lt hτ]
  simp only [ok_bind]
  obtain ⟨row, hrow⟩ : ∃ row, t.pa[u]? = some row := ⟨t.pa[u], by simp [hup]⟩
  have hrl := hw.row _ _ hrow
  rw [idx_of_some hrow]
  simp only [ok_bind]
  rw [upd_of_lt (by omega)]
  simp only [ok_bind]
  rw [upd_of_lt hup]
  simp only [ok_bind, sat_bind]
  refine (row_sat T hr (L := t.level) (u := u) hu (pa := t.pa.set u (row.set 0 p)) (by simp [hw.pa]) ?_
    (getElem?_set_self' hup) (by simpa using hrl) hL ?_).mono ?_
  · intro a ha hau
    rw [getElem?_set_ne' hau]
    exact hanc a ha hau
  · rw [getElem?_set_self' (by omega), hpar]
  rintro pa1 rfl
  rw [List.set_set]
  rw [idx_of_some hgu, sat_ok]
  have hw1 : WF g.length t.level { t with tin := t.tin.set u τ, pa := t.pa.set u (rowOf g root t.level u) } := by
    refine ⟨hw.level, by simpa using hw.pa, ?_, hw.dep, by simpa using hw.tin, hw.tout⟩
    intro a row' h
    by_cases hau : a = u
    · subst hau
      rw [getElem?_set_self' hup] at h
      cases h; simp [rowOf]
    · rw [getElem?_set_ne' hau] at h
      exact hw.row _ _ h
  refine (hloop _ hw1 hdep ?_).mono ?_
  · intro a ha
    by_cases hau : a = u
    · subst hau; exact getElem?_set_self' hup
    · simp only
      rw [getElem?_set_ne' hau]; exact hanc a ha hau
  · rintro ⟨t2, τ2⟩ ⟨hd, rfl⟩
    simp only [sat_bind, sat_upd, sat_ok, hd.wf.tout]
    refine ⟨hu, ⟨?_, ?_, ?_, ?_, ?_⟩, trivial⟩
    · exact ⟨hd.wf.level, hd.wf.pa, hd.wf.row, hd.wf.dep, hd.wf.tin,
        by simpa using hd.wf.tout⟩
    · have hfu := hd.frame u huc
      refine ⟨?_, ?_, ?_, trivial⟩
      · show t2.tin[u]? = _
        rw [hfu.1]; exact getElem?_set_self' hut
      · exact getElem?_set_self' (by rw [hd.wf.tout]; exact hu)
      · refine hd.stamped.congr (fun _ _ => rfl) ?_
        intro x hx
        exact getElem?_set_ne' fun h => huc (h ▸ hx)
    · intro x hx
      simp only [Forest.pre, List.append_nil, List.mem_cons] at hx
      rcases hx with rfl | hx
      · exact (hd.frame x huc).2.2.1.trans hdep
      · exact hd.dep x hx
    · intro x hx
      simp only [Forest.pre, List.append_nil, List.mem_cons] at hx
      rcases hx with rfl | hx
      · exact (hd.frame x huc).2.2.2.trans (getElem?_set_self' hup)
      · exact hd.pa x hx
    · intro x hx
      simp only [Forest.pre, List.append_nil, List.mem_cons, not_or] at hx
      obtain ⟨f1, f2, f3, f4⟩ := hd.frame x hx.2
      refine ⟨?_, ?_, f3, ?_⟩
      · show t2.tin[x]? = _
        rw [f1]; exact getElem?_set_ne' hx.1
      · show (t2.tout.set u _)[x]? = _
        rw [getElem?_set_ne' hx.1, f2]
      · show t2.pa[x]? = _
        rw [f4]; exact getElem?_set_ne' hx.1

theorem listW_sat {u p : Nat} {l : List Nat} {f : Forest} (hf : FRep g u p l f)
    (hu : u < g.length) (hlt : ∀ x ∈ f.pre, x < g.length)
    (hL : 0 < L) (hp : PathsOk (rpath g root) u f) (hn : (u :: f.pre).Nodup)
    {fuel τ : Nat} (hfuel : f.height ≤ fuel) (hτ : τ + f.size < 2 ^ W) (hgl : g.length < 2 ^ W)
    {t : BinaryLifting} (hw : WF g.length L t)
    (hdep : t.dep[u]? = some ((rpath g root u).length - 1))
    (hanc : ∀ a ∈ rpath g root u, t.pa[a]? = some (rowOf g root L a)) :
    Sat (forList l (t, τ) (stepW W fuel g u p)) (fun o =>
      Done g root L τ f t o.1 ∧ o.2 = τ + f.size) := by
  induction hf generalizing fuel τ t with
  | nil =>
    simp only [forList_nil, sat_ok]
    exact ⟨⟨hw, trivial, by simp [Forest.pre], by simp [Forest.pre], fun _ _ => ⟨rfl, rfl, rfl, rfl⟩⟩,
      by simp [Forest.size]⟩
  | @skip u p l f _ ih =>
    simp only [forList_cons, sat_bind]
    have : stepW W fuel g u p p (t, τ) = ok (t, τ) := by simp [stepW]
    rw [this, sat_ok]
    exact ih hu hlt hp hn hfuel hτ hw hdep hanc
  | @child u p v l c s hne hc hs ih1 ih2 =>
    obtain ⟨hpv, hpc, hps⟩ := hp
    simp only [Forest.height] at hfuel
    simp only [Forest.size] at hτ
    simp only [Forest.pre, List.nodup_cons, List.mem_cons, List.mem_append, not_or,
      List.nodup_append] at hn
    obtain ⟨⟨huv, huc, hus⟩, ⟨hvc, hvs⟩, hnc, hns, hcs⟩ := hn
    have hvl : v < g.length := hlt v (by simp [Forest.pre])
    obtain ⟨fuel, rfl⟩ : ∃ k, fuel = k + 1 := ⟨fuel - 1, by omega⟩
    simp only [forList_cons, sat_bind]
    have hRl := (rpath_path T hr hvl).length_le T hr
    have hRu := rpath_pos T hr hu
    have hRv : (rpath g root v).length = (rpath g root u).length + 1 := by rw [hpv]; simp
    have hvd : v < t.dep.length := by rw [hw.dep]; exact hvl
    have hstep : stepW W (fuel + 1) g u p v (t, τ) = Width.BinaryLifting.dfs W (fuel + 1) g v u
        { t with dep := t.dep.set v ((rpath g root v).length - 1) } τ := by
      simp only [stepW, ne_eq, hne, not_false_eq_true, if_true]
      rw [idx_of_some hdep]
      simp only [ok_bind]
      rw [addU_of_lt (by omega), ok_bind, upd_of_lt hvd, ok_bind]
      congr 4
      omega
    rw [hstep]
    have huv' : u ∉ rpath g root u → False := by
      intro h
      obtain ⟨A, hA⟩ := rpath_snoc T hr hu
      exact h (by rw [hA]; simp)
    have hvRu : v ∉ rpath g root u := by
      intro h
      have := (rpath_path T hr hvl).nodup
      rw [hpv, List.nodup_append] at this
      exact this.2.2 v h v (by simp) rfl
    refine (nodeW_sat T hr (c := c) (L := L)
      (t := { t with dep := t.dep.set v ((rpath g root v).length - 1) }) hvl (getD_some hvl) hL (par_of_snoc T hr hu hpv) hvc
      ⟨hw.level, hw.pa, hw.row, by simpa using hw.dep, hw.tin, hw.tout⟩
      (getElem?_set_self' hvd) ?_ (by omega) ?_).mono ?_
    · intro a ha hav
      rw [hpv, List.mem_append, List.mem_singleton] at ha
      exact hanc a (ha.resolve_right hav)
    · intro t1 hw1 hd1 ha1
      exact ih1 hvl (fun x hx => hlt x (by simp [Forest.pre, hx])) hpc
        (List.nodup_cons.2 ⟨hvc, hnc⟩) (by omega) (by omega) hw1 hd1 ha1
    · rintro ⟨t2, τ2⟩ ⟨hd, rfl⟩
      simp only at hd ⊢
      have hpre1 : ∀ x, x ∈ (Forest.cons v c .nil).pre ↔ x = v ∨ x ∈ c.pre := by
        intro x; simp [Forest.pre]
      have hRuNot : ∀ a ∈ rpath g root u, a ∉ (Forest.cons v c .nil).pre := by
        intro a ha hac
        rw [hpre1] at hac
        rcases hac with rfl | hac
        · exact hvRu ha
        · obtain ⟨w, hw⟩ := pre_prefix' hc hpc a hac
          have hal := hlt a (by simp [Forest.pre, hac])
          have h1 := (anc_iff T hr hal hu).1 ((anc_mem T hr hu).2 ha)
          have := h1.length_le
          have := hw.2.2.length_le
          simp at this
          omega
      have hns' : u ∉ s.pre := hus
      have hfu := hd.frame u (by rw [hpre1]; simp [huv, huc])
      refine (ih2 (fuel := fuel + 1) (τ := τ + 1 + c.size) (t := t2) hu
        (fun x hx => hlt x (by simp [Forest.pre, hx])) hps
        (List.nodup_cons.2 ⟨hus, hns⟩) (by omega) (by omega) hd.wf ?_ ?_).mono ?_
      · rw [hfu.2.2.1]
        simp only
        rw [getElem?_set_ne' huv]; exact hdep
      · intro a ha
        rw [(hd.frame a (hRuNot a ha)).2.2.2]
        exact hanc a ha
      · rintro ⟨t3, τ3⟩ ⟨hd3, rfl⟩
        simp only [Forest.size]
        have hvcs : ∀ x, x = v ∨ x ∈ c.pre → x ∉ s.pre := by
          rintro x (rfl | hx) hxs
          · exact hvs hxs
          · exact hcs x hx x hxs rfl
        refine ⟨⟨hd3.wf, ?_, ?_, ?_, ?_⟩, by omega⟩
        · obtain ⟨s1, s2, s3, _⟩ := hd.stamped
          refine ⟨?_, ?_, ?_, hd3.stamped⟩
          · rw [(hd3.frame v (hvcs v (.inl rfl))).1]; exact s1
          · rw [(hd3.frame v (hvcs v (.inl rfl))).2.1]; exact s2
          · exact s3.congr (fun x hx => (hd3.frame x (hvcs x (.inr hx))).1)
              (fun x hx => (hd3.frame x (hvcs x (.inr hx))).2.1)
        · intro x hx
          simp only [Forest.pre, List.mem_cons, List.mem_append] at hx
          rw [← or_assoc] at hx
          rcases hx with hx | hx
          · rw [(hd3.frame x (hvcs x hx)).2.2.1]
            exact hd.dep x ((hpre1 x).2 hx)
          · exact hd3.dep x hx
        · intro x hx
          simp only [Forest.pre, List.mem_cons, List.mem_append] at hx
          rw [← or_assoc] at hx
          rcases hx with hx | hx
          · rw [(hd3.frame x (hvcs x hx)).2.2.2]
            exact hd.pa x ((hpre1 x).2 hx)
          · exact hd3.pa x hx
        · intro x hx
          simp only [Forest.pre, List.mem_cons, List.mem_append, not_or] at hx
          obtain ⟨f1, f2, f3, f4⟩ := hd3.frame x hx.2.2
          obtain ⟨e1, e2, e3, e4⟩ := hd.frame x (by rw [hpre1]; simp [hx.1, hx.2.1])
          refine ⟨f1.trans e1, f2.trans e2, ?_, f4.trans e4⟩
          rw [f3, e3]
          exact getElem?_set_ne' hx.1

/-- `from` on a graph `g'` whose search below the root is that of the tree `g` along the entries of the root
in `g'`. -/
theorem fromW_gen {lv : Nat} (hlg : Width.lg W g.length = ok lv) (hlog : g.length < 2 ^ (lv + 1))
    (hlv : lv + 1 < 2 ^ W) {g' : List (List Nat)} {f : Forest} (hlen : g'.length = g.length) (hgl : g.length < 2 ^ W)
    (hrep : FRep g root root (g'.getD root []) f) (hp : PathsOk (rpath g root) root f)
    (hnd : (root :: f.pre).Nodup) (hh : f.height < g.length)
    (hag : ∀ fuel v t τ, v ∈ g'.getD root [] → v ≠ root →
      Width.BinaryLifting.dfs W fuel g' v root t τ = Width.BinaryLifting.dfs W fuel g v root t τ) :
    Sat (Width.BinaryLifting.from W g' root) (fun t => RepOn g root (· ∈ root :: f.pre) t ∧ t.level = lv + 1) := by
  have hlt : ∀ x ∈ root :: f.pre, x < g.length := by
    intro x hx
    rcases List.mem_cons.1 hx with rfl | hx
    · exact hr
    · obtain ⟨q, -, e⟩ := pathsOk_par hp x hx
      exact lt_of_rpath T hr (by rw [e]; simp)
  have hn0 : g.length ≠ 0 := by omega
  have hsize : f.size + 1 ≤ g.length := by
    have h2 : (root :: f.pre).toFinset ⊆ Finset.range g.length := by
      intro x hx; exact Finset.mem_range.2 (hlt x (List.mem_toFinset.1 hx))
    have h3 := Finset.card_le_card h2
    rw [List.toFinset_card_of_nodup hnd, Finset.card_range, List.length_cons, Forest.pre_length] at h3
    omega
  unfold Width.BinaryLifting.from
  rw [hlen]
  simp only [hlg, ok_bind]
  rw [addU_of_lt (by omega)]
  simp only [ok_bind, sat_bind]
  obtain ⟨hn1, hn2⟩ := List.nodup_cons.1 hnd
  refine (nodeW_sat T hr (L := lv + 1) (c := f) hr (getD_some (g := g') (by omega)) (by omega)
    (par_root T hr) hn1 ⟨rfl, by simp, ?_, by simp, by simp, by simp⟩ ?_ ?_ (by omega) ?_).mono ?_
  · intro a row h
    simp only [List.getElem?_replicate] at h
    split at h
    · cases h; simp
    · simp at h
  · simp only [List.getElem?_replicate, hr, if_true, rpath_root T hr]; rfl
  · intro a ha har
    rw [rpath_root T hr] at ha
    simp at ha
    exact absurd ha har
  · intro t1 hw1 hd1 ha1
    have h1 := listW_sat T hr (fuel := g.length + (List.map List.length g').sum + 1) (τ := 0 + 1) hrep hr
      (fun x hx => hlt x (List.mem_cons_of_mem _ hx)) (by omega) hp
      hnd (by omega) (by omega) hgl hw1 hd1 ha1
    rw [forList_congr (f' := stepW W (g.length + (List.map List.length g').sum + 1) g root root)]
    · exact h1
    · rintro v hv ⟨t, τ⟩
      unfold stepW
      by_cases hvr : v = root
      · simp [hvr]
      · simp only [ne_eq, hvr, not_false_eq_true, if_true, hag _ v _ _ hv hvr]
  · rintro ⟨t, τ⟩ ⟨hd, -⟩
    simp only [sat_ok]
    have hpre : ∀ x, x ∈ root :: f.pre → x ∈ (Forest.cons root f .nil).pre := by
      intro x hx
      simpa [Forest.pre] using hx
    have hlv := hd.wf.level
    refine ⟨⟨hlt, ?_, by rw [hlv]; exact hlog, by rw [hlv]; omega, fun x hx => hd.dep x (hpre x hx),
      fun x hx => by rw [hlv]; exact hd.pa x (hpre x hx), ?_, ?_, hd.stamped.1⟩, hlv⟩
    · intro x hx
      rcases List.mem_cons.1 hx with rfl | hx
      · rw [par_root T hr]; simp
      · obtain ⟨q, hq, e⟩ := pathsOk_par hp x hx
        rw [par_of_snoc T hr (hlt q hq) e]; exact hq
    · intro x y hx hy
      obtain ⟨a, b, h1, h2, -, h3, -⟩ := hd.stamped.bounds x (hpre x hx)
      obtain ⟨c, d, h4, -, h5, h6, h7⟩ := hd.stamped.bounds y (hpre y hy)
      refine ⟨a, b, c, h1, h2, h4, ?_⟩
      rw [anc_iff T hr (hlt x hx) (hlt y hy)]
      obtain ⟨s1, s2, s3, -⟩ := hd.stamped
      rcases List.mem_cons.1 hx with rfl | hx'
      · rw [s1] at h1; cases h1
        rw [s2] at h2; cases h2
        obtain ⟨l, hl⟩ := head_root T hr (hlt y hy)
        simp only [Forest.size] at h7
        refine ⟨fun _ => ?_, fun _ => by omega⟩
        rw [rpath_root T hr, hl]
        exact ⟨l, rfl⟩
      · rcases List.mem_cons.1 hy with rfl | hy'
        · rw [s1] at h4; cases h4
          obtain ⟨a', b', k1, k2, k3, k4, k5⟩ := s3.bounds x hx'
          rw [k1] at h1; cases h1
          refine ⟨fun _ => by omega, fun h => ?_⟩
          obtain ⟨q, hq, e⟩ := pathsOk_par hp x hx'
          have h8 := h.length_le
          have h9 := rpath_pos T hr (hlt q hq)
          rw [rpath_root T hr, e] at h8
          simp only [List.length_append, List.length_singleton] at h8
          omega
        · exact s3.anc hn2 hp x hx' y hy' a b c h1 h2 h4
    · intro x hx hxv
      obtain ⟨f1, f2, f3, -⟩ := hd.frame x (by simpa [Forest.pre] using hxv)
      simp only [List.getElem?_replicate, hx, if_true] at f1 f2 f3
      exact ⟨f1, f2, f3⟩

theorem fromW_sat {lv : Nat} (hlg : Width.lg W g.length = ok lv) (hlog : g.length < 2 ^ (lv + 1))
    (hlv : lv + 1 < 2 ^ W) (hgl : g.length < 2 ^ W) :
    Sat (Width.BinaryLifting.from W g root) (fun t => Rep g root t ∧ t.level = lv + 1) := by
  obtain ⟨f, hf⟩ := rooted_exists T hr
  have := fromW_gen T hr hlg hlog hlv rfl hgl hf.rep hf.paths hf.nodup hf.height (fun _ _ _ _ _ _ => rfl)
  have e : (fun x => x ∈ root :: f.pre) = (fun x => x < g.length) := funext fun x => propext (hf.mem x)
  refine this.mono fun t ht => ⟨?_, ht.2⟩
  have h := ht.1
  rwa [e] at h

theorem disW_sat {V : Nat → Prop} {t : BinaryLifting} (h : RepOn g root V t) (hgl : g.length + g.length ≤ 2 ^ W) {u v : Nat}
    (hVu : V u) (hVv : V v) : Sat (Width.BinaryLifting.dis W t u v) (IsTreeDist g u v) := by
  unfold Width.BinaryLifting.dis
  simp only [sat_bind]
  have hu := h.lt u hVu
  have hv := h.lt v hVv
  refine (lca_satOn T hr h hVu hVv).mono fun l hl => ?_
  obtain ⟨hVl, hl⟩ := hl
  have hll := (anc_lt T hr hl.1).1
  have h1 := ((anc_iff T hr hll hu).1 hl.1).length_le
  have h2 := ((anc_iff T hr hll hv).1 hl.2.1).length_le
  have h3 := rpath_pos T hr hll
  have h4 := (rpath_path T hr hu).length_le T hr
  have h5 := (rpath_path T hr hv).length_le T hr
  rw [idx_of_some (h.dep u hVu), idx_of_some (h.dep v hVv), idx_of_some (h.dep l hVl)]
  simp only [sat_ok, sat_subU, sat_addU]
  refine ⟨by omega, by omega, by omega, ?_⟩
  have := dist_of_path T hr (path_via T hr hu hv hl) hu
  simp only [List.length_append, List.length_reverse, List.length_drop] at this
  convert this using 1
  omega

end
end Verif.BLP
