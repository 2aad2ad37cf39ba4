import Verif.Prelude.Sim
import Verif.Props.HLD
/-! Two heavy-light decompositions with the same arrays and the same node values; the effect of a history on each node. -/
namespace Verif.Props
open Res Model Spec TreeP HLDP

variable {S F : Type} [Monoid S] {M : MapOps S F} {g : List (List Nat)} {root : Nat}

/-- Two lazy trees with the same contents. -/
def SameTree (M : MapOps S F) (t t' : LazySegtree S F) : Prop := ∃ b, LazyP.Rep M t b ∧ LazyP.Rep M t' b

theorem prod_same (hM : LawfulMap M) {t t' : LazySegtree S F} (h : SameTree M t t') (l r : Nat) :
    Sim False False (fun o o' => SameTree M o.1 o'.1 ∧ o.2 = o'.2) (t.prod M l r) (t'.prod M l r) := by
  obtain ⟨b, h1, h2⟩ := h
  by_cases hlr : l ≤ r ∧ r ≤ b.length
  · obtain ⟨o, e1, k1, x1⟩ := LazyP.prod_sat hM h1 hlr.1 hlr.2
    obtain ⟨o', e2, k2, x2⟩ := LazyP.prod_sat hM h2 hlr.1 hlr.2
    rw [e1, e2]
    exact sim_ok ⟨⟨b, k1, k2⟩, x1.trans x2.symm⟩
  · have e1 : t.prod M l r = Res.panic := by
      unfold LazySegtree.prod; rw [h1.n, assert_false hlr]; rfl
    have e2 : t'.prod M l r = Res.panic := by
      unfold LazySegtree.prod; rw [h2.n, assert_false hlr]; rfl
    rw [e1, e2]
    exact sim_panic

theorem pathProd_same (hM : LawfulMap M) {h h' : HLD S F} (ha : h.arr = h'.arr) (hd : SameTree M h.data h'.data)
    (u v : Nat) : Sim False False (fun o o' => o.2 = o'.2) (h.pathProd M u v) (h'.pathProd M u v) := by
  unfold HLD.pathProd
  simp only [ha]
  refine sim_bind (Q := fun a b => SameTree M a.1 b.1 ∧ a.2 = b.2) (sim_while ⟨hd, rfl⟩ ?_ ?_) ?_
  · rintro ⟨a, s, u, v⟩ ⟨a', s', u', v'⟩ ⟨ha, e⟩
    cases e
    exact sim_refl
  · rintro ⟨a, s, u, v⟩ ⟨a', s', u', v'⟩ ⟨ha, e⟩
    cases e
    refine sim_bind sim_refl ?_
    rintro hu _ rfl
    refine sim_bind sim_refl ?_
    rintro du _ rfl
    refine sim_bind sim_refl ?_
    rintro hv _ rfl
    refine sim_bind sim_refl ?_
    rintro dv _ rfl
    simp only
    refine sim_bind sim_refl ?_
    rintro hu _ rfl
    refine sim_bind sim_refl ?_
    rintro l _ rfl
    refine sim_bind sim_refl ?_
    rintro r _ rfl
    refine sim_bind (prod_same hM ha _ _) ?_
    rintro ⟨d, x⟩ ⟨d', x'⟩ ⟨hd, rfl⟩
    refine sim_bind sim_refl ?_
    rintro y _ rfl
    refine sim_bind sim_refl ?_
    rintro u _ rfl
    exact sim_ok ⟨hd, rfl⟩
  · rintro ⟨a, s, u, v⟩ ⟨a', s', u', v'⟩ ⟨ha, e⟩
    cases e
    refine sim_bind sim_refl ?_
    rintro pu _ rfl
    refine sim_bind sim_refl ?_
    rintro pv _ rfl
    simp only
    refine sim_bind sim_refl ?_
    rintro l _ rfl
    refine sim_bind sim_refl ?_
    rintro r _ rfl
    refine sim_bind (prod_same hM ha _ _) ?_
    rintro ⟨d, x⟩ ⟨d', x'⟩ ⟨hd, rfl⟩
    refine sim_bind sim_refl ?_
    rintro y _ rfl
    exact sim_ok rfl

theorem subtreeProd_same (hM : LawfulMap M) {h h' : HLD S F} (ha : h.arr = h'.arr) (hd : SameTree M h.data h'.data)
    (u : Nat) : Sim False False (fun o o' => o.2 = o'.2) (h.subtreeProd M u) (h'.subtreeProd M u) := by
  unfold HLD.subtreeProd
  simp only [ha]
  refine sim_bind sim_refl ?_
  rintro l _ rfl
  refine sim_bind sim_refl ?_
  rintro r _ rfl
  refine sim_bind (prod_same hM hd _ _) ?_
  rintro ⟨d, x⟩ ⟨d', x'⟩ ⟨hd, rfl⟩
  exact sim_ok rfl

/-- The same node lies on the path. -/
def OnPath (g : List (List Nat)) (u v x : Nat) : Prop := ∃ p, IsPath g u v p ∧ x ∈ p

open Classical in
/-- What a call does to the value `y` of node `x`. -/
noncomputable def hAct (M : MapOps S F) (g : List (List Nat)) (root : Nat) (x : Nat) (y : S) : HldOp S F → S
  | .set u z => if u = x then z else y
  | .applyPath u v f => if OnPath g u v x then M.mapping f y else y
  | .applySubtree u f => if Ancestor g root u x then M.mapping f y else y
  | .get _ | .pathProd _ _ | .subtreeProd _ => y

/-- What a history does to the value `y` of node `x`. -/
noncomputable def hActs (M : MapOps S F) (g : List (List Nat)) (root : Nat) (x : Nat) (y : S) (ops : List (HldOp S F)) : S :=
  ops.foldl (fun y op => hAct M g root x y op) y

omit [Monoid S] in
theorem next_act (T : IsTree g) {a b : List S} {op : HldOp S F} (hp : op.Pre g.length) (h : op.Next M g root a b)
    (x : Nat) : b[x]? = (a[x]?).map fun y => hAct M g root x y op := by
  cases op with
  | set u z =>
    simp only [HldOp.Next] at h
    subst h
    rw [List.getElem?_set]
    by_cases e : u = x
    · subst e
      by_cases h : u < a.length <;> simp [h, hAct]
    · simp [e, hAct]
  | applyPath u v f =>
    obtain ⟨p, hp', rfl⟩ := h
    have : OnPath g u v x ↔ x ∈ p :=
      ⟨fun ⟨q, h1, h2⟩ => by rwa [h1.eq T hp' hp.1] at h2, fun h => ⟨p, hp', h⟩⟩
    simp [mapNodes, List.getElem?_mapIdx, hAct, this]
  | applySubtree u f =>
    obtain ⟨s, hs, rfl⟩ := h
    simp only [mapNodes, List.getElem?_mapIdx, hAct]
    by_cases e : Ancestor g root u x <;> simp [hs, e]
  | get _ => simp only [HldOp.Next] at h; subst h; simp [hAct]
  | pathProd _ _ => simp only [HldOp.Next] at h; subst h; simp [hAct]
  | subtreeProd _ => simp only [HldOp.Next] at h; subst h; simp [hAct]

theorem hRun_acts (hM : LawfulMap M) (T : IsTree g) (hr : root < g.length) (hgl : g.length < 2 ^ 32) {c : Forest}
    {ops : List (HldOp S F)} {h : HLD S F} {a : List S} (R : Rep M g root c h a) (hp : ∀ op ∈ ops, op.Pre g.length) :
    Sat (hRun M h ops) (fun o => o.1.arr = h.arr ∧ ∃ b, Rep M g root c o.1 b ∧
      ∀ x : Nat, b[x]? = (a[x]?).map fun y => hActs M g root x y ops) := by
  induction ops generalizing h a with
  | nil => simp only [hRun, sat_ok]; exact ⟨trivial, a, R, fun x => by simp [hActs]⟩
  | cons op ops ih =>
    simp only [hRun, sat_bind, sat_ok]
    refine (hStep_sat hM T hr hgl R (hp op (by simp))).mono ?_
    rintro ⟨h1, o⟩ ⟨b, k1, k2, k3, k4⟩
    refine (ih k2 fun op' h' => hp op' (List.mem_cons_of_mem _ h')).mono ?_
    rintro ⟨h2, os⟩ ⟨k5, b', k6, k7⟩
    refine ⟨k5.trans k3, b', k6, fun x => ?_⟩
    rw [k7, next_act T (hp op (by simp)) k1, Option.map_map]
    rfl

omit [Monoid S] in
theorem sim_snd {x y : Res (HLD S F × S)} (h : Sim False False (fun o o' => o.2 = o'.2) x y) {o o' : HLD S F × S}
    (e : x = ok o) (e' : y = ok o') : o.2 = o'.2 := by
  subst e e'
  rcases h with h | h | ⟨h, _⟩ | ⟨h, _⟩ | ⟨a, b, h1, h2, h3⟩
  · exact h.1.elim
  · exact h.1.elim
  · cases h
  · cases h
  · cases h1; cases h2; exact h3

theorem hStep_same (hM : LawfulMap M) (T : IsTree g) (hr : root < g.length) (hgl : g.length < 2 ^ 32) {c : Forest}
    {h h' : HLD S F} {a : List S} (R : Rep M g root c h a) (R' : Rep M g root c h' a) (ha : h.arr = h'.arr)
    {op : HldOp S F} (hp : op.Pre g.length) :
    ∃ u u' o b, hStep M h op = ok (u, o) ∧ hStep M h' op = ok (u', o) ∧ Rep M g root c u b ∧ Rep M g root c u' b ∧
      u.arr = u'.arr := by
  obtain ⟨⟨u, o⟩, e1, b, n1, r1, a1, q1⟩ := hStep_sat hM T hr hgl R hp
  obtain ⟨⟨u', o'⟩, e2, b', n2, r2, a2, q2⟩ := hStep_sat hM T hr hgl R' hp
  have hb : b = b' := by
    apply List.ext_getElem?
    intro x
    rw [next_act T hp n1, next_act T hp n2]
  subst hb
  simp only at a1 a2 r1 r2 q1 q2
  have hd : SameTree M h.data h'.data := ⟨_, R.data, R'.data⟩
  have ho : o = o' := by
    cases op with
    | get w =>
      obtain ⟨x, e3, rfl⟩ := q1
      obtain ⟨y, e4, rfl⟩ := q2
      rw [e3] at e4; cases e4; rfl
    | pathProd w w' =>
      simp only [hStep] at e1 e2
      obtain ⟨y, k1, k2⟩ := bind_ok_inv e1
      obtain ⟨y', k3, k4⟩ := bind_ok_inv e2
      cases k2; cases k4
      rw [sim_snd (pathProd_same hM ha hd w w') k1 k3]
    | subtreeProd w =>
      simp only [hStep] at e1 e2
      obtain ⟨y, k1, k2⟩ := bind_ok_inv e1
      obtain ⟨y', k3, k4⟩ := bind_ok_inv e2
      cases k2; cases k4
      rw [sim_snd (subtreeProd_same hM ha hd w) k1 k3]
    | set _ _ => simp only [HldOp.OutOk] at q1 q2; rw [q1, q2]
    | applyPath _ _ _ => simp only [HldOp.OutOk] at q1 q2; rw [q1, q2]
    | applySubtree _ _ => simp only [HldOp.OutOk] at q1 q2; rw [q1, q2]
  subst ho
  exact ⟨u, u', o, b, e1, e2, r1, r2, by rw [a1, a2, ha]⟩

theorem hRun_same (hM : LawfulMap M) (T : IsTree g) (hr : root < g.length) (hgl : g.length < 2 ^ 32) {c : Forest}
    {h h' : HLD S F} {a : List S} (R : Rep M g root c h a) (R' : Rep M g root c h' a) (ha : h.arr = h'.arr)
    {ops : List (HldOp S F)} (hp : ∀ op ∈ ops, op.Pre g.length) :
    ∃ u u' outs, hRun M h ops = ok (u, outs) ∧ hRun M h' ops = ok (u', outs) := by
  induction ops generalizing h h' a with
  | nil => exact ⟨h, h', [], rfl, rfl⟩
  | cons op ops ih =>
    obtain ⟨u, u', o, b, e1, e2, r1, r2, hu⟩ := hStep_same hM T hr hgl R R' ha (hp op (by simp))
    obtain ⟨w, w', os, f1, f2⟩ := ih r1 r2 hu (fun op h => hp op (by simp [h]))
    exact ⟨w, w', o :: os, by simp [hRun, e1, f1, ok_bind], by simp [hRun, e2, f2, ok_bind]⟩

theorem rep_same {c c' : Forest} {h h' : HLD S F} {a : List S} (R : Rep M g root c h a) (R' : Rep M g root c' h' a)
    (ha : h.arr = h'.arr) : Rep M g root c h' a := by
  have ho : root :: c.pre = root :: c'.pre := by
    apply List.ext_getElem?
    intro i
    by_cases hi : i < (root :: c.pre).length
    · have k1 := R.arr.ord_get (List.getElem?_eq_getElem hi)
      have k2 := R'.arr.ord_pos (R.arr.mem.1 (List.getElem_mem hi))
      rw [← ha, k1] at k2
      rw [k2, List.getElem?_eq_getElem hi]
    · rw [List.getElem?_eq_none (by omega), List.getElem?_eq_none]
      rw [R'.arr.length]; rw [R.arr.length] at hi; omega
  refine ⟨R.len, ha ▸ R.arr, ?_⟩
  rw [ho]
  exact R'.data

/-- Decompositions of the same tree with the same root have the same arrays. -/
theorem reached_arr (hM : LawfulMap M) (T : IsTree g) (hr : root < g.length) (hgl : g.length < 2 ^ 32) {h : HLD S F}
    (hh : HReached M g root h) : ∃ h0, HLD.new M.ops g root = ok h0 ∧ h.arr = h0.arr := by
  obtain ⟨v, h0, ops, outs, hv, hops, e0, e1⟩ := hh
  obtain ⟨h0', e0', c, R⟩ := withInitValue_sat hM T hr hgl hv
  rw [e0] at e0'; cases e0'
  obtain ⟨o, e1', -, k2, -⟩ := hRun_sat hM T hr hgl R hops
  rw [e1] at e1'; cases e1'
  unfold HLD.withInitValue at e0
  rw [assert_true hv.symm, ok_bind] at e0
  obtain ⟨r, f1, f2⟩ := bind_ok_inv e0
  obtain ⟨x, f3, f4⟩ := bind_ok_inv f2
  obtain ⟨d, f5, f6⟩ := bind_ok_inv f4
  cases f6
  exact ⟨r, f1, k2⟩

theorem reached_same (hM : LawfulMap M) (T : IsTree g) (hr : root < g.length) (hgl : g.length < 2 ^ 32) {h h' : HLD S F}
    (hh : HReached M g root h) (hh' : HReached M g root h') {a : List S} (ha : Reads M g h a) (ha' : Reads M g h' a) :
    h.arr = h'.arr ∧ ∃ c, Rep M g root c h a ∧ Rep M g root c h' a := by
  obtain ⟨h0, e0, k0⟩ := reached_arr hM T hr hgl hh
  obtain ⟨h0', e0', k0'⟩ := reached_arr hM T hr hgl hh'
  rw [e0] at e0'; cases e0'
  have hA : h.arr = h'.arr := k0.trans k0'.symm
  obtain ⟨c, b, R⟩ := hh.rep hM T hr hgl
  obtain ⟨c', b', R'⟩ := hh'.rep hM T hr hgl
  obtain rfl := (R.reads hM).unique ha
  obtain rfl := (R'.reads hM).unique ha'
  exact ⟨hA, c, R, rep_same R R' hA⟩

/-! Tree facts. -/

theorem path_reverse (T : IsTree g) {u v : Nat} {p : List Nat} (h : IsPath g u v p) : IsPath g v u p.reverse := by
  refine ⟨by rw [List.head?_reverse]; exact h.last, by rw [List.getLast?_reverse]; exact h.head, ?_,
    List.nodup_reverse.2 h.nodup⟩
  rw [List.isChain_reverse]
  exact h.chain.imp fun a b h => T.symm _ _ h

/-- The children of `u`. -/
def IsChildren (g : List (List Nat)) (root u : Nat) (ch : List Nat) : Prop :=
  ch.Nodup ∧ ∀ c, c ∈ ch ↔ c ∈ g.getD u [] ∧ Ancestor g root u c

theorem child_rpath (T : IsTree g) (hr : root < g.length) {u c : Nat} (hu : u < g.length) (h : c ∈ g.getD u [])
    (ha : Ancestor g root u c) : rpath g root c = rpath g root u ++ [c] := by
  have hc := T.inRange _ _ h
  rcases rpath_adj T hr hu h with e | e
  · exact e
  · have := ((anc_iff T hr hu hc).1 ha).length_le
    rw [e] at this
    simp at this

theorem child_anc (T : IsTree g) (hr : root < g.length) {u c x : Nat} (hu : u < g.length) (h : c ∈ g.getD u [])
    (ha : Ancestor g root u c) (hx : Ancestor g root c x) : Ancestor g root u x ∧ x ≠ u := by
  have hc := T.inRange _ _ h
  have hxl := (anc_lt T hr hx).2
  have e := child_rpath T hr hu h ha
  rw [anc_iff T hr hc hxl, e] at hx
  refine ⟨(anc_iff T hr hu hxl).2 ((List.prefix_append _ _).trans hx), ?_⟩
  rintro rfl
  have := hx.length_le
  simp at this

theorem child_unique (T : IsTree g) (hr : root < g.length) {u c c' x : Nat} (hu : u < g.length) (h : c ∈ g.getD u [])
    (ha : Ancestor g root u c) (h' : c' ∈ g.getD u []) (ha' : Ancestor g root u c') (hx : Ancestor g root c x)
    (hx' : Ancestor g root c' x) : c = c' := by
  have hxl := (anc_lt T hr hx).2
  rw [anc_iff T hr (T.inRange _ _ h) hxl, child_rpath T hr hu h ha] at hx
  rw [anc_iff T hr (T.inRange _ _ h') hxl, child_rpath T hr hu h' ha'] at hx'
  exact prefix_snoc_inj hx hx'

theorem child_exists (T : IsTree g) (hr : root < g.length) {u x : Nat} (hx : Ancestor g root u x) (hne : x ≠ u) :
    ∃ c, c ∈ g.getD u [] ∧ Ancestor g root u c ∧ Ancestor g root c x := by
  obtain ⟨hu, hxl⟩ := anc_lt T hr hx
  obtain ⟨B, hB⟩ := (anc_iff T hr hu hxl).1 hx
  obtain ⟨A, hA⟩ := rpath_snoc T hr hu
  cases B with
  | nil =>
    rw [List.append_nil] at hB
    exact absurd (rpath_inj T hr hu hxl hB).symm hne
  | cons c B =>
    have hP := rpath_path T hr hxl
    rw [← hB, hA, List.append_assoc, List.singleton_append] at hP
    have hc1 : c ∈ g.getD u [] := by
      have := hP.drop.chain
      rw [List.isChain_cons_cons] at this
      exact this.1
    have hcl := T.inRange _ _ hc1
    have e : rpath g root c = rpath g root u ++ [c] := by
      have : rpath g root x = rpath g root u ++ c :: B := hB.symm
      exact rpath_split T hr hxl this
    refine ⟨c, hc1, (anc_iff T hr hu hcl).2 (by rw [e]; exact List.prefix_append _ _), ?_⟩
    rw [anc_iff T hr hcl hxl, e, ← hB]
    exact ⟨B, by simp⟩

end Verif.Props
