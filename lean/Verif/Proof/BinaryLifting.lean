import Verif.Model.BinaryLifting
import Verif.Proof.Util
import Verif.Proof.TreeStamp
import Verif.Prelude.NoDiv
/-! Correctness of the binary lifting model. -/
namespace Verif.BLP
open Res Model Spec TreeP

/-- Array shapes. -/
structure WF (n L : Nat) (t : BinaryLifting) : Prop where
  level : t.level = L
  pa : t.pa.length = n
  row : ∀ (a : Nat) row, t.pa[a]? = some row → row.length = L
  dep : t.dep.length = n
  tin : t.tin.length = n
  tout : t.tout.length = n

section
variable {g : List (List Nat)} {root : Nat} {L : Nat}

/-- The jump table row of a vertex. -/
noncomputable def rowOf (g : List (List Nat)) (root L a : Nat) : List Nat :=
  (List.range L).map fun i => (par g root)^[2 ^ i] a

/-- `t'` is `t` with the forest `f` fully processed from time `τ` on. -/
structure Done (g : List (List Nat)) (root L τ : Nat) (f : Forest) (t t' : BinaryLifting) :
    Prop where
  wf : WF g.length L t'
  stamped : Stamped t'.tin t'.tout τ f
  dep : ∀ x ∈ f.pre, t'.dep[x]? = some ((rpath g root x).length - 1)
  pa : ∀ x ∈ f.pre, t'.pa[x]? = some (rowOf g root L x)
  frame : ∀ x, x ∉ f.pre → t'.tin[x]? = t.tin[x]? ∧ t'.tout[x]? = t.tout[x]? ∧
    t'.dep[x]? = t.dep[x]? ∧ t'.pa[x]? = t.pa[x]?

theorem getElem?_set_ne' {α : Type} {l : List α} {i j : Nat} {a : α} (h : j ≠ i) :
    (l.set i a)[j]? = l[j]? := by
  rw [List.getElem?_set]; simp [Ne.symm h]

theorem getElem?_set_self' {α : Type} {l : List α} {i : Nat} {a : α} (h : i < l.length) :
    (l.set i a)[i]? = some a := by
  simp [h]

variable (T : IsTree g) (hr : root < g.length)
include T hr

/-- Filling the jump table row of `u`. -/
theorem row_sat {u : Nat} (hu : u < g.length) {pa : List (List Nat)} (hpa : pa.length = g.length)
    (hanc : ∀ a ∈ rpath g root u, a ≠ u → pa[a]? = some (rowOf g root L a))
    {row : List Nat} (hrow : pa[u]? = some row) (hlen : row.length = L) (hL : 0 < L)
    (h0 : row[0]? = some (par g root u)) :
    Sat (forRange 1 L pa fun i pa => do
      let j ← subU i 1
      let row ← idx pa u
      let a ← idx row j
      let ra ← idx pa a
      let x ← idx ra j
      let row ← upd row i x
      upd pa u row) (fun pa' => pa' = pa.set u (rowOf g root L u)) := by
  refine (forRange_sat (lo := 1) (hi := L) (s := pa) (I := fun i (pa' : List (List Nat)) =>
    ∃ row', pa' = pa.set u row' ∧ row'.length = L ∧
      ∀ j < i, row'[j]? = some ((par g root)^[2 ^ j] u)) (by omega) ?_ ?_).mono ?_
  · refine ⟨row, ?_, hlen, ?_⟩
    · apply List.ext_getElem?
      intro i
      rw [List.getElem?_set]
      split
      · subst_vars; rw [hrow]
        rw [if_pos (by rw [hpa]; exact hu)]
      · rfl
    · intro j hj
      have : j = 0 := by omega
      subst this
      simpa using h0
  · rintro i pa' h1 h2 ⟨row', rfl, hl', hj⟩
    have hup : u < pa.length := by rw [hpa]; exact hu
    obtain ⟨k, rfl⟩ : ∃ k, i = k + 1 := ⟨i - 1, by omega⟩
    simp only [sat_bind, sat_subU, Nat.add_sub_cancel]
    refine ⟨by omega, ?_⟩
    rw [idx_of_some (getElem?_set_self' hup), sat_ok, idx_of_some (hj k (by omega)), sat_ok]
    have hstep : ∃ ra, (pa.set u row')[(par g root)^[2 ^ k] u]? = some ra ∧
        ra[k]? = some ((par g root)^[2 ^ (k + 1)] u) := by
      have e : (par g root)^[2 ^ (k + 1)] u = (par g root)^[2 ^ k] ((par g root)^[2 ^ k] u) := by
        rw [← Function.iterate_add_apply]; congr 1; omega
      by_cases hself : (par g root)^[2 ^ k] u = u
      · refine ⟨row', by rw [hself, getElem?_set_self' hup], ?_⟩
        rw [e, hself, hself, hj k (by omega), hself]
      · refine ⟨rowOf g root L ((par g root)^[2 ^ k] u), ?_, ?_⟩
        · rw [getElem?_set_ne' hself]
          exact hanc _ (par_iter_mem T hr hu _) hself
        · rw [e]
          simp only [rowOf, List.getElem?_map]
          rw [List.getElem?_range (by omega)]; rfl
    obtain ⟨ra, hra, hx⟩ := hstep
    rw [idx_of_some hra, sat_ok, idx_of_some hx, sat_ok]
    simp only [sat_upd, hl', List.length_set]
    refine ⟨h2, hup, row'.set (k + 1) ((par g root)^[2 ^ (k + 1)] u), by simp, by simp [hl'], ?_⟩
    intro j hj'
    by_cases hjk : j = k + 1
    · subst hjk; exact getElem?_set_self' (by omega)
    · rw [getElem?_set_ne' hjk]; exact hj j (by omega)
  · rintro pa' ⟨row', rfl, hl', hj⟩
    congr 1
    apply List.ext_getElem?
    intro i
    by_cases hi : i < L
    · rw [hj i hi]
      simp [rowOf, hi]
    · rw [List.getElem?_eq_none (by omega), List.getElem?_eq_none (by simp [rowOf]; omega)]

/-- Body of the adjacency loop. -/
def step (fuel : Nat) (g : List (List Nat)) (u p v : Nat) (st : BinaryLifting × Nat) :
    Res (BinaryLifting × Nat) :=
  let (t, timer) := st
  if v ≠ p then do
    let du ← idx t.dep u
    let d ← addU 64 du 1
    let dep ← upd t.dep v d
    BinaryLifting.dfs fuel g v u { t with dep := dep } timer
  else ok (t, timer)

omit T hr in
theorem getD_some {u : Nat} (hu : u < g.length) : g[u]? = some (g.getD u []) := by
  rw [List.getD_eq_getElem?_getD]; simp [hu]

/-- One `dfs` call, given that the adjacency loop does its job. -/
theorem node_sat {g' : List (List Nat)} {l : List Nat} {u p τ fuel : Nat} {c : Forest} {t : BinaryLifting}
    (hu : u < g.length) (hgu : g'[u]? = some l)
    (hL : 0 < L) (hpar : par g root u = p) (huc : u ∉ c.pre)
    (hw : WF g.length L t) (hdep : t.dep[u]? = some ((rpath g root u).length - 1))
    (hanc : ∀ a ∈ rpath g root u, a ≠ u → t.pa[a]? = some (rowOf g root L a))
    (hτ : τ + 1 < 2 ^ 64)
    (hloop : ∀ t1, WF g.length L t1 → t1.dep[u]? = some ((rpath g root u).length - 1) →
      (∀ a ∈ rpath g root u, t1.pa[a]? = some (rowOf g root L a)) →
      Sat (forList l (t1, τ + 1) (step fuel g' u p)) (fun o =>
        Done g root L (τ + 1) c t1 o.1 ∧ o.2 = τ + 1 + c.size)) :
    Sat (BinaryLifting.dfs (fuel + 1) g' u p t τ) (fun o =>
      Done g root L τ (.cons u c .nil) t o.1 ∧ o.2 = τ + 1 + c.size) := by
  have hlv := hw.level
  subst hlv
  unfold BinaryLifting.dfs
  have hut : u < t.tin.length := by rw [hw.tin]; exact hu
  have hup : u < t.pa.length := by rw [hw.pa]; exact hu
  rw [upd_of_lt hut, addU_of_lt hτ]
  simp only [ok_bind]
  obtain ⟨row, hrow⟩ : ∃ row, t.pa[u]? = some row := ⟨t.pa[u], by simp [hup]⟩
  have hrl := hw.row _ _ hrow
  rw [idx_of_some hrow]
  simp only [ok_bind]
  rw [upd_of_lt (by omega)]
  simp only [ok_bind]
  rw [upd_of_lt hup]
  simp only [ok_bind, sat_bind]
  refine (row_sat T hr (L := t.level) (u := u) hu (pa := t.pa.set u (row.set 0 p)) (by simp [hw.pa]) ?_
    (getElem?_set_self' hup) (by simpa using hrl) hL ?_).mono ?_
  · intro a ha hau
    rw [getElem?_set_ne' hau]
    exact hanc a ha hau
  · rw [getElem?_set_self' (by omega), hpar]
  rintro pa1 rfl
  rw [List.set_set]
  rw [idx_of_some hgu, sat_ok]
  have hw1 : WF g.length t.level { t with tin := t.tin.set u τ, pa := t.pa.set u (rowOf g root t.level u) } := by
    refine ⟨hw.level, by simpa using hw.pa, ?_, hw.dep, by simpa using hw.tin, hw.tout⟩
    intro a row' h
    by_cases hau : a = u
    · subst hau
      rw [getElem?_set_self' hup] at h
      cases h; simp [rowOf]
    · rw [getElem?_set_ne' hau] at h
      exact hw.row _ _ h
  refine (hloop _ hw1 hdep ?_).mono ?_
  · intro a ha
    by_cases hau : a = u
    · subst hau; exact getElem?_set_self' hup
    · simp only
      rw [getElem?_set_ne' hau]; exact hanc a ha hau
  · rintro ⟨t2, τ2⟩ ⟨hd, rfl⟩
    simp only [sat_bind, sat_upd, sat_ok, hd.wf.tout]
    refine ⟨hu, ⟨?_, ?_, ?_, ?_, ?_⟩, trivial⟩
    · exact ⟨hd.wf.level, hd.wf.pa, hd.wf.row, hd.wf.dep, hd.wf.tin,
        by simpa using hd.wf.tout⟩
    · have hfu := hd.frame u huc
      refine ⟨?_, ?_, ?_, trivial⟩
      · show t2.tin[u]? = _
        rw [hfu.1]; exact getElem?_set_self' hut
      · exact getElem?_set_self' (by rw [hd.wf.tout]; exact hu)
      · refine hd.stamped.congr (fun _ _ => rfl) ?_
        intro x hx
        exact getElem?_set_ne' fun h => huc (h ▸ hx)
    · intro x hx
      simp only [Forest.pre, List.append_nil, List.mem_cons] at hx
      rcases hx with rfl | hx
      · exact (hd.frame x huc).2.2.1.trans hdep
      · exact hd.dep x hx
    · intro x hx
      simp only [Forest.pre, List.append_nil, List.mem_cons] at hx
      rcases hx with rfl | hx
      · exact (hd.frame x huc).2.2.2.trans (getElem?_set_self' hup)
      · exact hd.pa x hx
    · intro x hx
      simp only [Forest.pre, List.append_nil, List.mem_cons, not_or] at hx
      obtain ⟨f1, f2, f3, f4⟩ := hd.frame x hx.2
      refine ⟨?_, ?_, f3, ?_⟩
      · show t2.tin[x]? = _
        rw [f1]; exact getElem?_set_ne' hx.1
      · show (t2.tout.set u _)[x]? = _
        rw [getElem?_set_ne' hx.1, f2]
      · show t2.pa[x]? = _
        rw [f4]; exact getElem?_set_ne' hx.1

theorem list_sat {u p : Nat} {l : List Nat} {f : Forest} (hf : FRep g u p l f)
    (hu : u < g.length) (hlt : ∀ x ∈ f.pre, x < g.length)
    (hL : 0 < L) (hp : PathsOk (rpath g root) u f) (hn : (u :: f.pre).Nodup)
    {fuel τ : Nat} (hfuel : f.height ≤ fuel) (hτ : τ + f.size < 2 ^ 64) (hgl : g.length < 2 ^ 64)
    {t : BinaryLifting} (hw : WF g.length L t)
    (hdep : t.dep[u]? = some ((rpath g root u).length - 1))
    (hanc : ∀ a ∈ rpath g root u, t.pa[a]? = some (rowOf g root L a)) :
    Sat (forList l (t, τ) (step fuel g u p)) (fun o =>
      Done g root L τ f t o.1 ∧ o.2 = τ + f.size) := by
  induction hf generalizing fuel τ t with
  | nil =>
    simp only [forList_nil, sat_ok]
    exact ⟨⟨hw, trivial, by simp [Forest.pre], by simp [Forest.pre], fun _ _ => ⟨rfl, rfl, rfl, rfl⟩⟩,
      by simp [Forest.size]⟩
  | @skip u p l f _ ih =>
    simp only [forList_cons, sat_bind]
    have : step fuel g u p p (t, τ) = ok (t, τ) := by simp [step]
    rw [this, sat_ok]
    exact ih hu hlt hp hn hfuel hτ hw hdep hanc
  | @child u p v l c s hne hc hs ih1 ih2 =>
    obtain ⟨hpv, hpc, hps⟩ := hp
    simp only [Forest.height] at hfuel
    simp only [Forest.size] at hτ
    simp only [Forest.pre, List.nodup_cons, List.mem_cons, List.mem_append, not_or,
      List.nodup_append] at hn
    obtain ⟨⟨huv, huc, hus⟩, ⟨hvc, hvs⟩, hnc, hns, hcs⟩ := hn
    have hvl : v < g.length := hlt v (by simp [Forest.pre])
    obtain ⟨fuel, rfl⟩ : ∃ k, fuel = k + 1 := ⟨fuel - 1, by omega⟩
    simp only [forList_cons, sat_bind]
    have hRl := (rpath_path T hr hvl).length_le T hr
    have hRu := rpath_pos T hr hu
    have hRv : (rpath g root v).length = (rpath g root u).length + 1 := by rw [hpv]; simp
    have hvd : v < t.dep.length := by rw [hw.dep]; exact hvl
    have hstep : step (fuel + 1) g u p v (t, τ) = BinaryLifting.dfs (fuel + 1) g v u
        { t with dep := t.dep.set v ((rpath g root v).length - 1) } τ := by
      simp only [step, ne_eq, hne, not_false_eq_true, if_true]
      rw [idx_of_some hdep]
      simp only [ok_bind]
      rw [addU_of_lt (by omega), ok_bind, upd_of_lt hvd, ok_bind]
      congr 4
      omega
    rw [hstep]
    have huv' : u ∉ rpath g root u → False := by
      intro h
      obtain ⟨A, hA⟩ := rpath_snoc T hr hu
      exact h (by rw [hA]; simp)
    have hvRu : v ∉ rpath g root u := by
      intro h
      have := (rpath_path T hr hvl).nodup
      rw [hpv, List.nodup_append] at this
      exact this.2.2 v h v (by simp) rfl
    refine (node_sat T hr (c := c) (L := L)
      (t := { t with dep := t.dep.set v ((rpath g root v).length - 1) }) hvl (getD_some hvl) hL (par_of_snoc T hr hu hpv) hvc
      ⟨hw.level, hw.pa, hw.row, by simpa using hw.dep, hw.tin, hw.tout⟩
      (getElem?_set_self' hvd) ?_ (by omega) ?_).mono ?_
    · intro a ha hav
      rw [hpv, List.mem_append, List.mem_singleton] at ha
      exact hanc a (ha.resolve_right hav)
    · intro t1 hw1 hd1 ha1
      exact ih1 hvl (fun x hx => hlt x (by simp [Forest.pre, hx])) hpc
        (List.nodup_cons.2 ⟨hvc, hnc⟩) (by omega) (by omega) hw1 hd1 ha1
    · rintro ⟨t2, τ2⟩ ⟨hd, rfl⟩
      simp only at hd ⊢
      have hpre1 : ∀ x, x ∈ (Forest.cons v c .nil).pre ↔ x = v ∨ x ∈ c.pre := by
        intro x; simp [Forest.pre]
      have hRuNot : ∀ a ∈ rpath g root u, a ∉ (Forest.cons v c .nil).pre := by
        intro a ha hac
        rw [hpre1] at hac
        rcases hac with rfl | hac
        · exact hvRu ha
        · obtain ⟨w, hw⟩ := pre_prefix' hc hpc a hac
          have hal := hlt a (by simp [Forest.pre, hac])
          have h1 := (anc_iff T hr hal hu).1 ((anc_mem T hr hu).2 ha)
          have := h1.length_le
          have := hw.2.2.length_le
          simp at this
          omega
      have hns' : u ∉ s.pre := hus
      have hfu := hd.frame u (by rw [hpre1]; simp [huv, huc])
      refine (ih2 (fuel := fuel + 1) (τ := τ + 1 + c.size) (t := t2) hu
        (fun x hx => hlt x (by simp [Forest.pre, hx])) hps
        (List.nodup_cons.2 ⟨hus, hns⟩) (by omega) (by omega) hd.wf ?_ ?_).mono ?_
      · rw [hfu.2.2.1]
        simp only
        rw [getElem?_set_ne' huv]; exact hdep
      · intro a ha
        rw [(hd.frame a (hRuNot a ha)).2.2.2]
        exact hanc a ha
      · rintro ⟨t3, τ3⟩ ⟨hd3, rfl⟩
        simp only [Forest.size]
        have hvcs : ∀ x, x = v ∨ x ∈ c.pre → x ∉ s.pre := by
          rintro x (rfl | hx) hxs
          · exact hvs hxs
          · exact hcs x hx x hxs rfl
        refine ⟨⟨hd3.wf, ?_, ?_, ?_, ?_⟩, by omega⟩
        · obtain ⟨s1, s2, s3, _⟩ := hd.stamped
          refine ⟨?_, ?_, ?_, hd3.stamped⟩
          · rw [(hd3.frame v (hvcs v (.inl rfl))).1]; exact s1
          · rw [(hd3.frame v (hvcs v (.inl rfl))).2.1]; exact s2
          · exact s3.congr (fun x hx => (hd3.frame x (hvcs x (.inr hx))).1)
              (fun x hx => (hd3.frame x (hvcs x (.inr hx))).2.1)
        · intro x hx
          simp only [Forest.pre, List.mem_cons, List.mem_append] at hx
          rw [← or_assoc] at hx
          rcases hx with hx | hx
          · rw [(hd3.frame x (hvcs x hx)).2.2.1]
            exact hd.dep x ((hpre1 x).2 hx)
          · exact hd3.dep x hx
        · intro x hx
          simp only [Forest.pre, List.mem_cons, List.mem_append] at hx
          rw [← or_assoc] at hx
          rcases hx with hx | hx
          · rw [(hd3.frame x (hvcs x hx)).2.2.2]
            exact hd.pa x ((hpre1 x).2 hx)
          · exact hd3.pa x hx
        · intro x hx
          simp only [Forest.pre, List.mem_cons, List.mem_append, not_or] at hx
          obtain ⟨f1, f2, f3, f4⟩ := hd3.frame x hx.2.2
          obtain ⟨e1, e2, e3, e4⟩ := hd.frame x (by rw [hpre1]; simp [hx.1, hx.2.1])
          refine ⟨f1.trans e1, f2.trans e2, ?_, f4.trans e4⟩
          rw [f3, e3]
          exact getElem?_set_ne' hx.1

/-- What `from` establishes about the vertices in `V`. -/
structure RepOn (g : List (List Nat)) (root : Nat) (V : Nat → Prop) (t : BinaryLifting) : Prop where
  lt : ∀ x, V x → x < g.length
  par : ∀ x, V x → V (par g root x)
  level : g.length < 2 ^ t.level
  levelPos : 0 < t.level
  dep : ∀ x, V x → t.dep[x]? = some ((rpath g root x).length - 1)
  pa : ∀ x, V x → t.pa[x]? = some (rowOf g root t.level x)
  anc : ∀ x y, V x → V y → ∃ a b c, t.tin[x]? = some a ∧ t.tout[x]? = some b ∧
    t.tin[y]? = some c ∧ (a ≤ c ∧ c < b ↔ Ancestor g root x y)
  frame : ∀ x, x < g.length → ¬ V x → t.tin[x]? = some 0 ∧ t.tout[x]? = some 0 ∧ t.dep[x]? = some 0
  rootTin : t.tin[root]? = some 0

/-- What `from` establishes. -/
abbrev Rep (g : List (List Nat)) (root : Nat) (t : BinaryLifting) : Prop := RepOn g root (· < g.length) t

omit T hr in
theorem pathsOk_par {R : Nat → List Nat} {u : Nat} {f : Forest} (h : PathsOk R u f) :
    ∀ w ∈ f.pre, ∃ q ∈ u :: f.pre, R w = R q ++ [w] := by
  induction f generalizing u with
  | nil => simp [Forest.pre]
  | cons v c s ih1 ih2 =>
    intro w hw
    simp only [Forest.pre, List.mem_cons, List.mem_append] at hw ⊢
    rcases hw with rfl | hw | hw
    · exact ⟨u, by simp, h.1⟩
    · obtain ⟨q, hq, e⟩ := ih1 h.2.1 w hw
      refine ⟨q, ?_, e⟩
      rcases List.mem_cons.1 hq with rfl | hq <;> simp [*]
    · obtain ⟨q, hq, e⟩ := ih2 h.2.2 w hw
      refine ⟨q, ?_, e⟩
      rcases List.mem_cons.1 hq with rfl | hq <;> simp [*]

theorem lt_of_rpath {v : Nat} (h : rpath g root v ≠ []) : v < g.length := by
  by_contra hn
  refine h ?_
  unfold rpath
  rw [dif_neg]
  rintro ⟨p, hp⟩
  exact hn (hp.lt T hr v (List.mem_of_getLast? hp.last))

/-- `from` on a graph `g'` whose search below the root is that of the tree `g` along the entries of the root
in `g'`. -/
theorem from_gen {g' : List (List Nat)} {f : Forest} (hlen : g'.length = g.length) (hgl : g.length < 2 ^ 64)
    (hrep : FRep g root root (g'.getD root []) f) (hp : PathsOk (rpath g root) root f)
    (hnd : (root :: f.pre).Nodup) (hh : f.height < g.length)
    (hag : ∀ fuel v t τ, v ∈ g'.getD root [] → v ≠ root →
      BinaryLifting.dfs fuel g' v root t τ = BinaryLifting.dfs fuel g v root t τ) :
    Sat (BinaryLifting.from g' root) (RepOn g root (· ∈ root :: f.pre)) := by
  have hlt : ∀ x ∈ root :: f.pre, x < g.length := by
    intro x hx
    rcases List.mem_cons.1 hx with rfl | hx
    · exact hr
    · obtain ⟨q, -, e⟩ := pathsOk_par hp x hx
      exact lt_of_rpath T hr (by rw [e]; simp)
  have hn0 : g.length ≠ 0 := by omega
  have hlog : g.length < 2 ^ (Nat.log2 g.length + 1) := Nat.lt_log2_self
  have hlog64 : Nat.log2 g.length < 64 := (Nat.log2_lt hn0).2 hgl
  have hsize : f.size + 1 ≤ g.length := by
    have h2 : (root :: f.pre).toFinset ⊆ Finset.range g.length := by
      intro x hx; exact Finset.mem_range.2 (hlt x (List.mem_toFinset.1 hx))
    have h3 := Finset.card_le_card h2
    rw [List.toFinset_card_of_nodup hnd, Finset.card_range, List.length_cons, Forest.pre_length] at h3
    omega
  unfold BinaryLifting.from
  rw [hlen]
  simp only [lg_eq hn0 hgl, ok_bind]
  rw [addU_of_lt (by omega)]
  simp only [ok_bind, sat_bind]
  obtain ⟨hn1, hn2⟩ := List.nodup_cons.1 hnd
  refine (node_sat T hr (L := Nat.log2 g.length + 1) (c := f) hr (getD_some (g := g') (by omega)) (by omega)
    (par_root T hr) hn1 ⟨rfl, by simp, ?_, by simp, by simp, by simp⟩ ?_ ?_ (by omega) ?_).mono ?_
  · intro a row h
    simp only [List.getElem?_replicate] at h
    split at h
    · cases h; simp
    · simp at h
  · simp only [List.getElem?_replicate, hr, if_true, rpath_root T hr]; rfl
  · intro a ha har
    rw [rpath_root T hr] at ha
    simp at ha
    exact absurd ha har
  · intro t1 hw1 hd1 ha1
    have h1 := list_sat T hr (fuel := g.length + (List.map List.length g').sum + 1) (τ := 0 + 1) hrep hr
      (fun x hx => hlt x (List.mem_cons_of_mem _ hx)) (by omega) hp
      hnd (by omega) (by omega) hgl hw1 hd1 ha1
    rw [forList_congr (f' := step (g.length + (List.map List.length g').sum + 1) g root root)]
    · exact h1
    · rintro v hv ⟨t, τ⟩
      unfold step
      by_cases hvr : v = root
      · simp [hvr]
      · simp only [ne_eq, hvr, not_false_eq_true, if_true, hag _ v _ _ hv hvr]
  · rintro ⟨t, τ⟩ ⟨hd, -⟩
    simp only [sat_ok]
    have hpre : ∀ x, x ∈ root :: f.pre → x ∈ (Forest.cons root f .nil).pre := by
      intro x hx
      simpa [Forest.pre] using hx
    have hlv := hd.wf.level
    refine ⟨hlt, ?_, by rw [hlv]; exact hlog, by rw [hlv]; omega, fun x hx => hd.dep x (hpre x hx),
      fun x hx => by rw [hlv]; exact hd.pa x (hpre x hx), ?_, ?_, hd.stamped.1⟩
    · intro x hx
      rcases List.mem_cons.1 hx with rfl | hx
      · rw [par_root T hr]; simp
      · obtain ⟨q, hq, e⟩ := pathsOk_par hp x hx
        rw [par_of_snoc T hr (hlt q hq) e]; exact hq
    · intro x y hx hy
      obtain ⟨a, b, h1, h2, -, h3, -⟩ := hd.stamped.bounds x (hpre x hx)
      obtain ⟨c, d, h4, -, h5, h6, h7⟩ := hd.stamped.bounds y (hpre y hy)
      refine ⟨a, b, c, h1, h2, h4, ?_⟩
      rw [anc_iff T hr (hlt x hx) (hlt y hy)]
      obtain ⟨s1, s2, s3, -⟩ := hd.stamped
      rcases List.mem_cons.1 hx with rfl | hx'
      · rw [s1] at h1; cases h1
        rw [s2] at h2; cases h2
        obtain ⟨l, hl⟩ := head_root T hr (hlt y hy)
        simp only [Forest.size] at h7
        refine ⟨fun _ => ?_, fun _ => by omega⟩
        rw [rpath_root T hr, hl]
        exact ⟨l, rfl⟩
      · rcases List.mem_cons.1 hy with rfl | hy'
        · rw [s1] at h4; cases h4
          obtain ⟨a', b', k1, k2, k3, k4, k5⟩ := s3.bounds x hx'
          rw [k1] at h1; cases h1
          refine ⟨fun _ => by omega, fun h => ?_⟩
          obtain ⟨q, hq, e⟩ := pathsOk_par hp x hx'
          have h8 := h.length_le
          have h9 := rpath_pos T hr (hlt q hq)
          rw [rpath_root T hr, e] at h8
          simp only [List.length_append, List.length_singleton] at h8
          omega
        · exact s3.anc hn2 hp x hx' y hy' a b c h1 h2 h4
    · intro x hx hxv
      obtain ⟨f1, f2, f3, -⟩ := hd.frame x (by simpa [Forest.pre] using hxv)
      simp only [List.getElem?_replicate, hx, if_true] at f1 f2 f3
      exact ⟨f1, f2, f3⟩

theorem from_sat (hgl : g.length < 2 ^ 64) :
    Sat (BinaryLifting.from g root) (Rep g root) := by
  obtain ⟨f, hf⟩ := rooted_exists T hr
  have := from_gen T hr rfl hgl hf.rep hf.paths hf.nodup hf.height (fun _ _ _ _ _ _ => rfl)
  have e : (fun x => x ∈ root :: f.pre) = (fun x => x < g.length) := funext fun x => propext (hf.mem x)
  rwa [e] at this

omit T hr in
theorem RepOn.iter {V : Nat → Prop} {t : BinaryLifting} (h : RepOn g root V t) {x : Nat} (hx : V x) (k : Nat) :
    V ((TreeP.par g root)^[k] x) := by
  induction k with
  | zero => exact hx
  | succ k ih => rw [Function.iterate_succ_apply']; exact h.par _ ih

theorem isAncestor_sat {V : Nat → Prop} {t : BinaryLifting} (h : RepOn g root V t) {u v : Nat} (hu : V u)
    (hv : V v) : Sat (t.isAncestor u v) (fun b => b = true ↔ Ancestor g root u v) := by
  obtain ⟨a, b, c, h1, h2, h3, h4⟩ := h.anc u v hu hv
  unfold BinaryLifting.isAncestor
  rw [idx_of_some h3, idx_of_some h1, idx_of_some h2]
  simp only [ok_bind]
  rw [sat_ite]
  constructor
  · intro hc
    simp only [sat_ok, decide_eq_true_eq]
    rw [← h4]
    exact ⟨fun h => ⟨hc, h⟩, fun h => h.2⟩
  · intro hc
    simp only [sat_ok]
    rw [← h4]
    constructor
    · intro h; simp at h
    · intro h; exact absurd h.1 hc

theorem anc_trans {u v w : Nat} (h1 : Ancestor g root u v) (h2 : Ancestor g root v w) :
    Ancestor g root u w := by
  obtain ⟨hu, hv⟩ := anc_lt T hr h1
  obtain ⟨_, hw⟩ := anc_lt T hr h2
  rw [anc_iff T hr] at * <;> try assumption
  exact h1.trans h2

theorem anc_par {v : Nat} (hv : v < g.length) (k : Nat) :
    Ancestor g root ((par g root)^[k] v) v := (anc_iff_iter T hr hv).2 ⟨k, rfl⟩

theorem anc_root {v : Nat} (hv : v < g.length) : Ancestor g root root v := by
  rw [anc_mem T hr hv]
  obtain ⟨l, hl⟩ := head_root T hr hv
  rw [hl]; simp

theorem lca_satOn {V : Nat → Prop} {t : BinaryLifting} (h : RepOn g root V t) {u v : Nat} (hVu : V u)
    (hVv : V v) : Sat (t.lca u v) (fun l => V l ∧ IsLca g root u v l) := by
  have hu := h.lt u hVu
  have hv := h.lt v hVv
  unfold BinaryLifting.lca
  simp only [sat_bind]
  refine (isAncestor_sat T hr h hVu hVv).mono fun b hb => ?_
  rw [sat_ite]
  refine ⟨fun hbt => ?_, fun hbf => ?_⟩
  · simp only [sat_ok]
    exact ⟨hVu, anc_refl T hr hu, hb.1 hbt, fun x hx _ => hx⟩
  have huv : ¬ Ancestor g root u v := fun h => hbf (hb.2 h)
  simp only [sat_bind]
  refine (isAncestor_sat T hr h hVv hVu).mono fun b hb => ?_
  rw [sat_ite]
  refine ⟨fun hbt => ?_, fun hbf => ?_⟩
  · simp only [sat_ok]
    exact ⟨hVv, hb.1 hbt, anc_refl T hr hv, fun x _ hx => hx⟩
  have hrow : ∀ x i, V x → i < t.level → ∃ row, t.pa[x]? = some row ∧
      row[i]? = some ((par g root)^[2 ^ i] x) := by
    intro x i hx hi
    exact ⟨_, h.pa x hx, by simp [rowOf, hi]⟩
  simp only [sat_bind]
  refine (forRangeRev_sat (lo := 0) (hi := t.level) (s := u) (I := fun i (x : Nat) =>
    V x ∧ Ancestor g root x u ∧ ¬ Ancestor g root x v ∧
      Ancestor g root ((par g root)^[2 ^ i] x) v) (by omega) ?_ ?_).mono ?_
  · refine ⟨hVu, anc_refl T hr hu, huv, ?_⟩
    have : (par g root)^[2 ^ t.level] u = root := by
      obtain ⟨h1, h2⟩ := par_iter T hr hu (2 ^ t.level)
      refine eq_root_of_len T hr h1 ?_
      have h3 := (rpath_path T hr hu).length_le T hr
      have h4 := rpath_pos T hr hu
      have := h.level
      rw [h2, List.length_take]; omega
    rw [this]
    exact anc_root T hr hv
  · rintro i x - hi ⟨hVx, hxu, hxv, hxi⟩
    have hx := h.lt x hVx
    obtain ⟨row, hr1, hr2⟩ := hrow x i hVx hi
    have hpl := RepOn.iter h hVx (2 ^ i)
    simp only [idx_of_some hr1, ok_bind, idx_of_some hr2, sat_bind]
    refine (isAncestor_sat T hr h hpl hVv).mono fun b hb => ?_
    rw [sat_ite]
    constructor
    · intro hbt
      simp only [sat_ok]
      refine ⟨hpl, anc_trans T hr (anc_par T hr hx _) hxu, ?_, ?_⟩
      · intro ha
        rw [hb.2 ha] at hbt; simp at hbt
      · rw [← Function.iterate_add_apply]
        rw [show 2 ^ i + 2 ^ i = 2 ^ (i + 1) by omega]; exact hxi
    · intro hbf
      simp only [sat_ok]
      refine ⟨hVx, hxu, hxv, hb.1 ?_⟩
      cases b <;> simp_all
  · rintro x ⟨hVx, hxu, hxv, hxp⟩
    have hx := h.lt x hVx
    obtain ⟨row, hr1, hr2⟩ := hrow x 0 hVx h.levelPos
    simp only [idx_of_some hr1, sat_ok, idx_of_some hr2]
    refine ⟨RepOn.iter h hVx _, anc_trans T hr (anc_par T hr hx _) hxu, hxp, ?_⟩
    intro y hyu hyv
    have hyl := (anc_lt T hr hyu).1
    rw [anc_iff T hr hyl hu] at hyu
    have hxu' := (anc_iff T hr hx hu).1 hxu
    have hpl := par_iter T hr hx (2 ^ 0)
    rw [anc_iff T hr hyl hpl.1, hpl.2]
    rcases List.prefix_or_prefix_of_prefix hyu hxu' with hyx | hxy
    · have hlen := hyx.length_le
      have hpos := rpath_pos T hr hyl
      have hne : (rpath g root y).length ≠ (rpath g root x).length := by
        intro he
        have := hyx.eq_of_length he
        rw [rpath_inj T hr hyl hx this] at hyv
        exact hxv hyv
      rw [List.prefix_iff_eq_take] at hyx ⊢
      rw [List.take_take]
      rw [show min (rpath g root y).length (max 1 ((rpath g root x).length - 2 ^ 0)) =
        (rpath g root y).length by omega]
      exact hyx
    · exact absurd (anc_trans T hr ((anc_iff T hr hx hyl).2 hxy) hyv) hxv

theorem lca_sat {t : BinaryLifting} (h : Rep g root t) {u v : Nat} (hu : u < g.length)
    (hv : v < g.length) : Sat (t.lca u v) (IsLca g root u v) :=
  (lca_satOn T hr h hu hv).mono fun _ hl => hl.2

theorem dis_sat {V : Nat → Prop} {t : BinaryLifting} (h : RepOn g root V t) (hgl : g.length < 2 ^ 63) {u v : Nat}
    (hVu : V u) (hVv : V v) : Sat (t.dis u v) (IsTreeDist g u v) := by
  unfold BinaryLifting.dis
  simp only [sat_bind]
  have hu := h.lt u hVu
  have hv := h.lt v hVv
  refine (lca_satOn T hr h hVu hVv).mono fun l hl => ?_
  obtain ⟨hVl, hl⟩ := hl
  have hll := (anc_lt T hr hl.1).1
  have h1 := ((anc_iff T hr hll hu).1 hl.1).length_le
  have h2 := ((anc_iff T hr hll hv).1 hl.2.1).length_le
  have h3 := rpath_pos T hr hll
  have h4 := (rpath_path T hr hu).length_le T hr
  have h5 := (rpath_path T hr hv).length_le T hr
  rw [idx_of_some (h.dep u hVu), idx_of_some (h.dep v hVv), idx_of_some (h.dep l hVl)]
  simp only [sat_ok, sat_subU, sat_addU]
  refine ⟨by omega, by omega, by omega, ?_⟩
  have := dist_of_path T hr (path_via T hr hu hv hl) hu
  simp only [List.length_append, List.length_reverse, List.length_drop] at this
  convert this using 1
  omega

end
end Verif.BLP
