import Verif.Proof.BinaryLifting
import Verif.Proof.NonTree
/-! Binary lifting on graphs that need not be trees. -/
namespace Verif.BLP
open Res Model Spec TreeP

variable {g : List (List Nat)} {root : Nat}

/-! ### When the recursion ends -/

theorem dfs_ok_bounded {fuel u p : Nat} {t : BinaryLifting} {τ : Nat} {r : BinaryLifting × Nat}
    (h : BinaryLifting.dfs fuel g u p t τ = ok r) : ¬ NoReturnWalk g fuel p u := by
  induction fuel generalizing u p t τ r with
  | zero => unfold BinaryLifting.dfs at h; cases h
  | succ fuel ih =>
    rintro ⟨v, hv, hne, hw⟩
    unfold BinaryLifting.dfs at h
    obtain ⟨_, -, h⟩ := bind_ok_inv h
    obtain ⟨_, -, h⟩ := bind_ok_inv h
    obtain ⟨_, -, h⟩ := bind_ok_inv h
    obtain ⟨_, -, h⟩ := bind_ok_inv h
    obtain ⟨_, -, h⟩ := bind_ok_inv h
    obtain ⟨_, -, h⟩ := bind_ok_inv h
    obtain ⟨gu, hgu, h⟩ := bind_ok_inv h
    obtain ⟨_, hl, h⟩ := bind_ok_inv h
    have hmem : v ∈ gu := by
      have hu : u < g.length := by
        by_contra hc
        rw [idx_panic (by omega)] at hgu; cases hgu
      rw [idx_of_some (getD_some hu)] at hgu
      cases hgu
      exact hv
    obtain ⟨⟨t', τ'⟩, r', hs⟩ := forList_ok_mem hl hmem
    simp only [ne_eq, hne, not_false_eq_true, if_true] at hs
    obtain ⟨_, -, hs⟩ := bind_ok_inv hs
    obtain ⟨_, -, hs⟩ := bind_ok_inv hs
    obtain ⟨_, -, hs⟩ := bind_ok_inv hs
    exact ih hs hw

theorem dfs_nd {fuel u p : Nat} {t : BinaryLifting} {τ : Nat} (h : ¬ NoReturnWalk g fuel p u) :
    BinaryLifting.dfs fuel g u p t τ ≠ .diverge := by
  induction fuel generalizing u p t τ with
  | zero => exact absurd trivial h
  | succ fuel ih =>
    unfold BinaryLifting.dfs
    refine nd_bind nd_upd fun _ => nd_bind nd_addU fun _ => nd_bind nd_idx fun _ => nd_bind nd_upd fun _ =>
      nd_bind nd_upd fun _ => nd_bind ?_ fun _ => ?_
    · refine nd_forRange fun i s => ?_
      refine nd_bind nd_subU fun _ => nd_bind nd_idx fun _ => nd_bind nd_idx fun _ => nd_bind nd_idx fun _ =>
        nd_bind nd_idx fun _ => nd_bind nd_upd fun _ => nd_upd
    by_cases hu : u < g.length
    · rw [idx_of_some (getD_some hu), ok_bind]
      refine nd_bind (nd_forList ?_) fun _ => nd_bind nd_upd fun _ => nd_ok
      rintro v hv ⟨t', τ'⟩
      by_cases hne : v = p
      · simp only [hne, ne_eq, not_true, if_false]; exact nd_ok
      · simp only [ne_eq, hne, not_false_eq_true, if_true]
        refine nd_bind nd_idx fun _ => nd_bind nd_addU fun _ => nd_bind nd_upd fun _ => ih fun hw => h ⟨v, hv, hne, hw⟩
    · rw [idx_panic (by omega)]; exact nd_panic

/-! ### A component that is a tree -/

theorem nrw_component (S : IsSimpleGraph g) (hr : root < g.length) :
    HasCycleAt g root ↔ ∀ k, NoReturnWalk g k root root :=
  ⟨fun h k => nrw_of_cycle S h k, fun h => cycle_of_long S hr (h _)⟩

open Classical in
/-- `g` with the vertices that are not connected to the root made leaves below the root. -/
noncomputable def gplus (g : List (List Nat)) (root : Nat) : List (List Nat) :=
  (List.range g.length).map fun u =>
    if Connected g root u then
      if u = root then g.getD root [] ++ (List.range g.length).filter fun v => ¬ Connected g root v
      else g.getD u []
    else [root]

theorem gplus_length : (gplus g root).length = g.length := by simp [gplus]

theorem gplus_getD {u : Nat} (hu : u < g.length) : (gplus g root).getD u [] =
    open Classical in if Connected g root u then
      if u = root then g.getD root [] ++ (List.range g.length).filter fun v => ¬ Connected g root v
      else g.getD u []
    else [root] := by
  classical
  unfold gplus
  rw [List.getD_eq_getElem?_getD, List.getElem?_map, List.getElem?_range hu]
  rfl

theorem gplus_mem (hr : root < g.length) {u v : Nat} : v ∈ (gplus g root).getD u [] ↔
    (Connected g root u ∧ u < g.length ∧ v ∈ g.getD u []) ∨ (u = root ∧ ¬ Connected g root v ∧ v < g.length) ∨
      (¬ Connected g root u ∧ u < g.length ∧ v = root) := by
  classical
  by_cases hu : u < g.length
  · rw [gplus_getD hu]
    split
    · next hc =>
      split
      · next h =>
        subst h
        simp only [List.mem_append, List.mem_filter, List.mem_range, decide_eq_true_eq]
        tauto
      · next h => simp only [hc, hu, h]; tauto
    · next hc =>
      have : u ≠ root := by rintro rfl; exact hc (conn_refl _)
      simp only [List.mem_singleton, hc, hu, this]; tauto
  · rw [List.getD_eq_getElem?_getD, List.getElem?_eq_none (by rw [gplus_length]; omega)]
    have : u ≠ root := by rintro rfl; exact hu hr
    simp [hu, this]

variable (S : IsSimpleGraph g) (hr : root < g.length)
include S hr

theorem gplus_simple : IsSimpleGraph (gplus g root) := by
  classical
  refine ⟨?_, ?_, ?_, ?_⟩
  · intro u v h
    rw [gplus_length]
    rcases (gplus_mem hr).1 h with ⟨_, _, h⟩ | ⟨_, _, h⟩ | ⟨_, _, h⟩
    · exact S.inRange _ _ h
    · exact h
    · rw [h]; exact hr
  · intro u v h
    rw [gplus_mem hr]
    rcases (gplus_mem hr).1 h with ⟨h1, h2, h⟩ | ⟨h1, h2, h⟩ | ⟨h1, h2, h⟩
    · exact .inl ⟨conn_step h1 h, S.inRange _ _ h, S.symm _ _ h⟩
    · exact .inr (.inr ⟨h2, h, h1⟩)
    · exact .inr (.inl ⟨h, h1, h2⟩)
  · intro u h
    rcases (gplus_mem hr).1 h with ⟨h1, h2, h⟩ | ⟨h1, h2, h⟩ | ⟨h1, h2, h⟩
    · exact S.irrefl _ h
    · subst h1; exact h2 (conn_refl _)
    · subst h; exact h1 (conn_refl _)
  · intro u
    by_cases hu : u < g.length
    · rw [gplus_getD hu]
      split
      · split
        · rw [List.nodup_append]
          refine ⟨S.nodup _, List.nodup_range.filter _, ?_⟩
          rintro a ha b hb rfl
          simp only [List.mem_filter, List.mem_range, decide_eq_true_eq] at hb
          exact hb.2 (conn_step (conn_refl _) ha)
        · exact S.nodup _
      · simp
    · rw [List.getD_eq_getElem?_getD, List.getElem?_eq_none (by rw [gplus_length]; omega)]
      simp

theorem gplus_adj {u v : Nat} (hu : Connected g root u) (hv : v ∈ g.getD u []) : v ∈ (gplus g root).getD u [] :=
  (gplus_mem hr).2 (.inl ⟨hu, conn_lt S.inRange hr hu, hv⟩)

theorem gplus_chain {l : List Nat} {u : Nat} (hu : Connected g root u)
    (h : (u :: l).IsChain (fun a b => b ∈ g.getD a [])) :
    (u :: l).IsChain (fun a b => b ∈ (gplus g root).getD a []) := by
  induction l generalizing u with
  | nil => simp
  | cons v l ih =>
    rw [List.isChain_cons_cons] at h ⊢
    exact ⟨gplus_adj S hr hu h.1, ih (conn_step hu h.1) h.2⟩

theorem gplus_nrw {k p u : Nat} (hu : Connected g root u) (h : NoReturnWalk (gplus g root) (k + 1) p u) :
    NoReturnWalk g k p u := by
  induction k generalizing p u with
  | zero => trivial
  | succ k ih =>
    obtain ⟨v, hv, hne, h⟩ := h
    rcases (gplus_mem hr).1 hv with ⟨h1, h2, h3⟩ | ⟨rfl, h2, h3⟩ | ⟨h1, h2, h3⟩
    · exact ⟨v, h3, hne, ih (conn_step hu h3) h⟩
    · obtain ⟨w, hw, hwn, -⟩ := h
      rcases (gplus_mem hr).1 hw with ⟨q, _⟩ | ⟨q, _⟩ | ⟨_, _, q⟩
      · exact absurd q h2
      · exact absurd (q ▸ conn_refl _) h2
      · exact absurd q hwn
    · exact absurd hu h1

theorem gplus_conn {u : Nat} (hu : u < g.length) : Connected (gplus g root) root u := by
  by_cases hc : Connected g root u
  · obtain ⟨w, h1, h2, h3⟩ := hc
    obtain ⟨l, rfl⟩ := List.head?_eq_some_iff.1 h1
    exact ⟨root :: l, rfl, h2, gplus_chain S hr (conn_refl _) h3⟩
  · exact conn_step (conn_refl _) ((gplus_mem hr).2 (.inr (.inl ⟨rfl, hc, hu⟩)))

theorem gplus_tree (hno : ¬ HasCycleAt g root) : IsTree (gplus g root) := by
  have hS := gplus_simple S hr
  have hroot : root < (gplus g root).length := by rw [gplus_length]; exact hr
  refine isTree_of_acyclic hS ?_ ?_
  · intro u v hu hv
    rw [gplus_length] at hu hv
    exact conn_trans (conn_symm hS.symm (gplus_conn S hr hu)) (gplus_conn S hr hv)
  · intro c hc
    refine hno ((nrw_component S hr).2 fun k => gplus_nrw S hr (conn_refl _) ?_)
    refine nrw_of_cycle hS ?_ (k + 1)
    obtain ⟨x, c', rfl⟩ := List.exists_cons_of_length_pos (l := c) (by have := hc.len; omega)
    refine ⟨_, x, hc, by simp, gplus_conn S hr ?_⟩
    have h1 := hc.chain
    have h2 := hc.len
    match c', h1, h2 with
    | b :: c', h1, _ =>
      have := hS.inRange _ _ (hS.symm _ _ (List.isChain_cons_cons.1 h1).1)
      rwa [gplus_length] at this

/-- Paths between vertices connected to the root are the same in both graphs. -/
theorem gplus_path (hno : ¬ HasCycleAt g root) {u v : Nat} (hu : Connected g root u) (hv : Connected g root v)
    {p : List Nat} : IsPath (gplus g root) u v p ↔ IsPath g u v p := by
  have T := gplus_tree S hr hno
  have fwd : ∀ {p}, IsPath g u v p → IsPath (gplus g root) u v p := by
    intro p hp
    obtain ⟨h1, h2, h3, h4⟩ := hp
    obtain ⟨l, rfl⟩ := List.head?_eq_some_iff.1 h1
    exact ⟨rfl, h2, gplus_chain S hr hu h3, h4⟩
  refine ⟨fun hp => ?_, fwd⟩
  obtain ⟨w, hw⟩ := conn_trans (conn_symm S.symm hu) hv
  obtain ⟨q, hq, -⟩ := walk_to_path hw
  rw [hp.eq T (fwd hq) (by rw [gplus_length]; exact conn_lt S.inRange hr hu)]
  exact hq

theorem gplus_anc (hno : ¬ HasCycleAt g root) {u v : Nat} (hv : Connected g root v) :
    Ancestor (gplus g root) root u v ↔ Ancestor g root u v := by
  unfold Ancestor
  simp only [gplus_path S hr hno (conn_refl _) hv]

omit S hr in
theorem anc_conn {u v : Nat} (h : Ancestor g root u v) : Connected g root u ∧ Connected g root v := by
  obtain ⟨p, hp, hu⟩ := h
  obtain ⟨h1, h2, h3, h4⟩ := hp
  obtain ⟨l, rfl⟩ := List.head?_eq_some_iff.1 h1
  exact ⟨chain_conn h3 u hu, chain_conn h3 v (List.mem_of_getLast? h2)⟩

omit S hr in
theorem bind_congr' {α β : Type} {x : Res α} {f f' : α → Res β} (h : ∀ a, f a = f' a) : x >>= f = x >>= f' := by
  rw [funext h]

omit S in
theorem pre_conn {u p : Nat} {l : List Nat} {f : Forest} {R : Nat → List Nat} (hR : R root = [root])
    (hf : FRep (gplus g root) u p l f) (hp : PathsOk R u f) (hu : R u ≠ [])
    (hl : ∀ v ∈ l, v ≠ p → Connected g root v) (hlt : ∀ x ∈ f.pre, x < g.length) :
    ∀ x ∈ f.pre, Connected g root x := by
  induction hf with
  | nil => simp [Forest.pre]
  | @skip u p l f _ ih => exact ih hp hu (fun v hv => hl v (List.mem_cons_of_mem _ hv)) hlt
  | @child u p v l c s hne hc hs ih1 ih2 =>
    obtain ⟨hpv, hpc, hps⟩ := hp
    have hv := hl v (by simp) hne
    have hvr : v ≠ root := by
      rintro rfl
      rw [hR] at hpv
      have := congrArg List.length hpv
      simp at this
      exact hu this
    intro x hx
    simp only [Forest.pre, List.mem_cons, List.mem_append] at hx
    have h2 : ∀ y ∈ c.pre, y < g.length := fun y hy => hlt y (by simp [Forest.pre, hy])
    have h3 : ∀ y ∈ s.pre, y < g.length := fun y hy => hlt y (by simp [Forest.pre, hy])
    rcases hx with rfl | hx | hx
    · exact hv
    · refine ih1 hpc (by rw [hpv]; simp) ?_ h2 x hx
      intro w hw _
      rw [gplus_getD (hlt v (by simp [Forest.pre])), if_pos hv, if_neg hvr] at hw
      exact conn_step hv hw
    · exact ih2 hps hu (fun w hw => hl w (List.mem_cons_of_mem _ hw)) h3 x hx

/-- The searches below a child of the root agree. -/
theorem dfs_agree (hno : ¬ HasCycleAt g root) {fuel u p : Nat} (hu : Connected g root u) (hur : u ≠ root)
    (hp : p < g.length)
    (hpath : rpath (gplus g root) root u = rpath (gplus g root) root p ++ [u]) (t : BinaryLifting) (τ : Nat) :
    BinaryLifting.dfs fuel g u p t τ = BinaryLifting.dfs fuel (gplus g root) u p t τ := by
  have T := gplus_tree S hr hno
  have hroot : root < (gplus g root).length := by rw [gplus_length]; exact hr
  induction fuel generalizing u p t τ with
  | zero => rfl
  | succ fuel ih =>
    have hul := conn_lt S.inRange hr hu
    have e : (gplus g root).getD u [] = g.getD u [] := by
      rw [gplus_getD hul, if_pos hu, if_neg hur]
    unfold BinaryLifting.dfs
    rw [idx_of_some (getD_some hul), idx_of_some (getD_some (g := gplus g root) (by rw [gplus_length]; exact hul)), e]
    have hstep : ∀ v ∈ g.getD u [], ∀ s : BinaryLifting × Nat, step fuel g u p v s = step fuel (gplus g root) u p v s := by
      rintro v hv ⟨t', τ'⟩
      unfold step
      by_cases hne : v = p
      · simp [hne]
      · simp only [ne_eq, hne, not_false_eq_true, if_true]
        have hcv := conn_step hu hv
        have hvl := conn_lt S.inRange hr hcv
        have hchild : rpath (gplus g root) root v = rpath (gplus g root) root u ++ [v] := by
          rcases rpath_adj T hroot (by rw [gplus_length]; exact hul) (gplus_adj S hr hu hv) with h | h
          · exact h
          · rw [hpath] at h
            have := (List.append_inj_left' h rfl)
            exact absurd (rpath_inj T hroot (by rw [gplus_length]; exact hvl) (by rw [gplus_length]; exact hp) this.symm) hne
        have hvr : v ≠ root := by
          rintro rfl
          rw [rpath_root T hroot] at hchild
          have h1 := congrArg List.length hchild
          have h2 := rpath_pos T hroot (v := u) (by rw [gplus_length]; exact hul)
          simp only [List.length_append, List.length_singleton] at h1
          omega
        simp only [fun t τ => ih hcv hvr hul hchild t τ]
    iterate 6 refine bind_congr' fun _ => ?_
    rw [ok_bind, ok_bind]
    exact congrArg (· >>= _) (forList_congr hstep)

theorem root_adj (hno : ¬ HasCycleAt g root) : ∀ v ∈ g.getD root [],
    rpath (gplus g root) root v = rpath (gplus g root) root root ++ [v] := by
  have T := gplus_tree S hr hno
  have hl : (gplus g root).length = g.length := gplus_length
  have hroot : root < (gplus g root).length := by omega
  intro v hv
  rcases rpath_adj T hroot hroot (gplus_adj S hr (conn_refl _) hv) with h | h
  · exact h
  · exfalso
    have h1 := congrArg List.length h
    have h2 := rpath_pos T hroot (v := v) (by rw [hl]; exact S.inRange _ _ hv)
    rw [rpath_root T hroot] at h1
    simp at h1
    rw [h1] at h2
    simp at h2

/-- The forest of the vertices connected to the root. -/
theorem component_forest (hno : ¬ HasCycleAt g root) :
    ∃ f, FRep (gplus g root) root root (g.getD root []) f ∧ PathsOk (rpath (gplus g root) root) root f ∧
      f.height ≤ g.length - 1 ∧ (root :: f.pre).Nodup ∧ (∀ x ∈ f.pre, x < g.length) ∧
      ∀ x, x ∈ root :: f.pre ↔ Connected g root x := by
  have T := gplus_tree S hr hno
  have hl : (gplus g root).length = g.length := gplus_length
  have hroot : root < (gplus g root).length := by omega
  have hadj := root_adj S hr hno
  obtain ⟨f, h1, h2, h3⟩ := forest_exists T hroot ((gplus g root).length - 1) root root (g.getD root []) hroot
    (fun v hv => ⟨gplus_adj S hr (conn_refl _) hv, fun _ => hadj v hv⟩) (by rw [rpath_root T hroot]; simp; omega)
  have hnd := pre_nodup T.nodup h1 h2 (S.nodup _)
  have hlt : ∀ x ∈ root :: f.pre, x < g.length := by
    intro x hx
    rcases List.mem_cons.1 hx with rfl | hx
    · exact hr
    · obtain ⟨q, -, e⟩ := pathsOk_par h2 x hx
      have := lt_of_rpath T hroot (v := x) (by rw [e]; simp)
      omega
  refine ⟨f, h1, h2, by omega, hnd, fun x hx => hlt x (List.mem_cons_of_mem _ hx), ?_⟩
  intro x
  constructor
  · intro hx
    rcases List.mem_cons.1 hx with rfl | hx
    · exact conn_refl _
    · exact pre_conn hr (rpath_root T hroot) h1 h2 (by rw [rpath_root T hroot]; simp)
        (fun v hv _ => conn_step (conn_refl _) hv) (fun y hy => hlt y (List.mem_cons_of_mem _ hy)) x hx
  · intro hx
    refine (conn_induct (P := fun x => Connected g root x ∧ x ∈ root :: f.pre) ⟨conn_refl _, by simp⟩ ?_ hx).2
    rintro x y ⟨hcx, hx⟩ hy
    refine ⟨conn_step hcx hy, ?_⟩
    rcases List.mem_cons.1 hx with rfl | hx
    · exact List.mem_cons_of_mem _ (mem_of_adj h1 hy fun e => S.irrefl _ (e ▸ hy))
    · obtain ⟨q, c, h4, h5, h6, h7⟩ := sub_forest h1 h2 hx
      obtain ⟨q', hq', e'⟩ := pathsOk_par h2 x hx
      by_cases hyq : y = q
      · have hqq : q = q' := by
          have hne : rpath (gplus g root) root q ≠ [] := by
            have := rpath_pos T hroot (v := q') (by rw [hl]; exact hlt _ hq')
            have h8 : rpath (gplus g root) root q = rpath (gplus g root) root q' :=
              List.append_inj_left' (h4.symm.trans e') rfl
            rw [h8]; exact List.length_pos_iff.1 this
          refine rpath_inj T hroot (lt_of_rpath T hroot hne) (by rw [hl]; exact hlt _ hq') ?_
          exact List.append_inj_left' (h4.symm.trans e') rfl
        rw [hyq, hqq]; exact hq'
      · exact List.mem_cons_of_mem _ (h7 y (mem_of_adj h5 (gplus_adj S hr hcx hy) hyq))

theorem from_component (hno : ¬ HasCycleAt g root) (hgl : g.length < 2 ^ 64) :
    ∃ V : Nat → Prop, (∀ x, V x ↔ Connected g root x) ∧ Sat (BinaryLifting.from g root) (RepOn (gplus g root) root V) := by
  have T := gplus_tree S hr hno
  have hl : (gplus g root).length = g.length := gplus_length
  have hroot : root < (gplus g root).length := by omega
  obtain ⟨f, h1, h2, h3, hnd, -, hm⟩ := component_forest S hr hno
  refine ⟨(· ∈ root :: f.pre), hm, ?_⟩
  refine from_gen T hroot hl.symm (by omega) h1 h2 hnd (by omega) ?_
  intro fuel v t τ hv hvr
  exact dfs_agree S hr hno (conn_step (conn_refl _) hv) hvr hr (root_adj S hr hno v hv) t τ

end Verif.BLP
