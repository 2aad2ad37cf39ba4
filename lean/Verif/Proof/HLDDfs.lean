import Verif.Model.HLD
import Verif.Proof.TreeStamp
/-! The two depth-first searches of the heavy-light decomposition. -/
namespace Verif.HLDP
open Res Model Spec TreeP

/-- The running maximum and heavy child after scanning the trees of a forest. -/
def hv : Forest → Nat → Option Nat → Nat × Option Nat
  | .nil, m, h => (m, h)
  | .cons v c s, m, h => if 1 + c.size > m then hv s (1 + c.size) (some v) else hv s m h

/-- Heavy children are right at every node of a forest. -/
def HvAll (heavy : List (Option Nat)) : Forest → Prop
  | .nil => True
  | .cons v c s => heavy[v]? = some (hv c 0 none).2 ∧ HvAll heavy c ∧ HvAll heavy s

theorem HvAll.congr {a b : List (Option Nat)} {f : Forest} (h : HvAll a f)
    (he : ∀ x ∈ f.pre, b[x]? = a[x]?) : HvAll b f := by
  induction f with
  | nil => trivial
  | cons v c s ih1 ih2 =>
    obtain ⟨h1, h2, h3⟩ := h
    exact ⟨by rw [he v (by simp [Forest.pre]), h1],
      ih1 h2 fun x hx => he x (by simp [Forest.pre, hx]),
      ih2 h3 fun x hx => he x (by simp [Forest.pre, hx])⟩

theorem set_ne {α : Type} {l : List α} {i j : Nat} {a : α} (h : j ≠ i) :
    (l.set i a)[j]? = l[j]? := by
  rw [List.getElem?_set]; simp [Ne.symm h]

theorem set_self {α : Type} {l : List α} {i : Nat} {a : α} (h : i < l.length) :
    (l.set i a)[i]? = some a := by
  simp [h]

section
variable {g : List (List Nat)} {root : Nat}

/-- Array shapes. -/
structure WF (n : Nat) (t : HArr) : Prop where
  parent : t.parent.length = n
  dep : t.dep.length = n
  heavy : t.heavyChild.length = n
  head : t.head.length = n
  pos : t.pos.length = n
  posR : t.posR.length = n

/-- Effect of `dfs1` on the forest `f` below `u`. -/
structure D1 (g : List (List Nat)) (root u : Nat) (f : Forest) (t t' : HArr) : Prop where
  wf : WF g.length t'
  parent : ∀ x ∈ f.pre, t'.parent[x]? = some (par g root x)
  dep : ∀ x ∈ f.pre, t'.dep[x]? = some ((rpath g root x).length - 1)
  heavy : HvAll t'.heavyChild f
  frame : ∀ x, x ∉ f.pre → t'.parent[x]? = t.parent[x]? ∧ t'.dep[x]? = t.dep[x]? ∧
    (x ≠ u → t'.heavyChild[x]? = t.heavyChild[x]?)
  untouched : t'.pos = t.pos ∧ t'.posR = t.posR ∧ t'.head = t.head

/-- Body of the adjacency loop of `dfs1`. -/
def step1 (fuel : Nat) (g : List (List Nat)) (u v : Nat) (st : HArr × Nat × Nat) :
    Res (HArr × Nat × Nat) := do
  let (t, size, maxSize) := st
  let pu ← idx t.parent u
  if v ≠ pu then do
    let parent ← upd t.parent v u
    let t : HArr := { t with parent := parent }
    let du ← idx t.dep u
    let d ← addU 64 du 1
    let dep ← upd t.dep v d
    let t : HArr := { t with dep := dep }
    let (t, childSize) ← HArr.dfs1 fuel g v t
    let size ← addU 64 size childSize
    if childSize > maxSize then do
      let heavyChild ← upd t.heavyChild u (some v)
      ok ({ t with heavyChild := heavyChild }, size, childSize)
    else ok (t, size, maxSize)
  else ok (t, size, maxSize)

theorem getD_some' {u : Nat} (hu : u < g.length) : g[u]? = some (g.getD u []) := by
  rw [List.getD_eq_getElem?_getD]; simp [hu]

/-! `G` is a tree on the same vertices; the search runs in `g`. -/
variable {G : List (List Nat)} (T : IsTree G) (hr : root < G.length) (hG : G.length = g.length)
include T hr hG

theorem list1_sat {u p : Nat} {l : List Nat} {f : Forest} (hf : FRep g u p l f)
    (hu : u < g.length) (hlt : ∀ x ∈ f.pre, x < g.length)
    (hp : PathsOk (rpath G root) u f) (hn : (u :: f.pre).Nodup)
    {fuel size m : Nat} {h0 : Option Nat} (hfuel : f.height ≤ fuel) (hs : size + f.size < 2 ^ 64)
    (hgl : g.length < 2 ^ 64)
    {t : HArr} (hw : WF G.length t) (hpar : t.parent[u]? = some p)
    (hdep : t.dep[u]? = some ((rpath G root u).length - 1))
    (hheavy : t.heavyChild[u]? = some h0) (hnone : ∀ x ∈ f.pre, t.heavyChild[x]? = some none) :
    Sat (forList l (t, size, m) (step1 fuel g u)) (fun o =>
      D1 G root u f t o.1 ∧ o.2.1 = size + f.size ∧ o.2.2 = (hv f m h0).1 ∧
        o.1.heavyChild[u]? = some (hv f m h0).2) := by
  induction hf generalizing fuel size m h0 t with
  | nil =>
    simp only [forList_nil, sat_ok]
    exact ⟨⟨hw, by simp [Forest.pre], by simp [Forest.pre], trivial, fun _ _ => ⟨rfl, rfl, fun _ => rfl⟩,
      ⟨rfl, rfl, rfl⟩⟩, by simp [Forest.size], rfl, hheavy⟩
  | @skip u p l f _ ih =>
    simp only [forList_cons, sat_bind]
    have : step1 fuel g u p (t, size, m) = ok (t, size, m) := by
      simp [step1, idx_of_some hpar]
    rw [this, sat_ok]
    exact ih hu hlt hp hn hfuel hs hw hpar hdep hheavy hnone
  | @child u p v l c s hne hc hss ih1 ih2 =>
    obtain ⟨hpv, hpc, hps⟩ := hp
    simp only [Forest.height] at hfuel
    simp only [Forest.size] at hs
    simp only [Forest.pre, List.nodup_cons, List.mem_cons, List.mem_append, not_or,
      List.nodup_append] at hn
    obtain ⟨⟨huv, huc, hus⟩, ⟨hvc, hvs⟩, hnc, hns, hcs⟩ := hn
    have hvl : v < g.length := hlt v (by simp [Forest.pre])
    obtain ⟨fuel, rfl⟩ : ∃ k, fuel = k + 1 := ⟨fuel - 1, by omega⟩
    have hRl := (rpath_path T hr (hG ▸ hvl)).length_le T hr
    have hRu := rpath_pos T hr (hG ▸ hu)
    have hRv : (rpath G root v).length = (rpath G root u).length + 1 := by rw [hpv]; simp
    have hvd : v < t.dep.length := by rw [hw.dep, hG]; exact hvl
    have hvp : v < t.parent.length := by rw [hw.parent, hG]; exact hvl
    simp only [forList_cons, sat_bind]
    -- the recursive call
    have hcall : Sat (HArr.dfs1 (fuel + 1) g v { t with
        parent := t.parent.set v u, dep := t.dep.set v ((rpath G root v).length - 1) })
        (fun o => D1 G root v c { t with
          parent := t.parent.set v u, dep := t.dep.set v ((rpath G root v).length - 1) } o.1 ∧
          o.2 = 1 + c.size ∧ o.1.heavyChild[v]? = some (hv c 0 none).2) := by
      unfold HArr.dfs1
      rw [idx_of_some (getD_some' hvl)]
      simp only [ok_bind, sat_bind]
      refine (ih1 (fuel := fuel) (size := 1) (m := 0) (h0 := none) hvl
        (fun x hx => hlt x (by simp [Forest.pre, hx])) hpc (List.nodup_cons.2 ⟨hvc, hnc⟩)
        (by omega) (by omega)
        (t := { t with
          parent := t.parent.set v u, dep := t.dep.set v ((rpath G root v).length - 1) })
        ⟨by simpa using hw.parent, by simpa using hw.dep, hw.heavy, hw.head, hw.pos, hw.posR⟩
        (set_self hvp) (set_self hvd) (hnone v (by simp [Forest.pre]))
        (fun x hx => hnone x (by simp [Forest.pre, hx]))).mono ?_
      rintro ⟨t2, s2, m2⟩ ⟨h1, h2, h3, h4⟩
      simp only [sat_ok]
      exact ⟨h1, h2, h4⟩
    have hst : Sat (step1 (fuel + 1) g u v (t, size, m)) (fun o =>
        D1 G root u (.cons v c .nil) t o.1 ∧ o.2.1 = size + (1 + c.size) ∧
        o.2.2 = (if 1 + c.size > m then 1 + c.size else m) ∧
        o.1.heavyChild[u]? = some (if 1 + c.size > m then some v else h0)) := by
      simp only [step1]
      rw [idx_of_some hpar]
      simp only [ok_bind, ne_eq, hne, not_false_eq_true, if_true]
      rw [upd_of_lt hvp]
      simp only [ok_bind]
      rw [idx_of_some hdep, ok_bind, addU_of_lt (by omega), ok_bind, upd_of_lt hvd]
      simp only [ok_bind, sat_bind]
      have e : (rpath G root u).length - 1 + 1 = (rpath G root v).length - 1 := by omega
      rw [e]
      refine hcall.mono ?_
      rintro ⟨t2, cs⟩ ⟨hd, rfl, hhv⟩
      simp only at hd hhv ⊢
      rw [sat_addU]
      refine ⟨by omega, ?_⟩
      have hfu := hd.frame u huc
      have hbase : ∀ hcArr : List (Option Nat), hcArr.length = G.length →
          (∀ x, x ≠ u → hcArr[x]? = t2.heavyChild[x]?) →
          D1 G root u (.cons v c .nil) t { t2 with heavyChild := hcArr } := by
        intro hcArr hlen hca
        refine ⟨⟨hd.wf.parent, hd.wf.dep, hlen, hd.wf.head, hd.wf.pos, hd.wf.posR⟩, ?_, ?_, ?_, ?_,
          hd.untouched⟩
        · intro x hx
          simp only [Forest.pre, List.append_nil, List.mem_cons] at hx
          rcases hx with rfl | hx
          · rw [(hd.frame x hvc).1]
            simp only
            rw [set_self hvp, par_of_snoc T hr (hG ▸ hu) hpv]
          · exact hd.parent x hx
        · intro x hx
          simp only [Forest.pre, List.append_nil, List.mem_cons] at hx
          rcases hx with rfl | hx
          · rw [(hd.frame x hvc).2.1]
            exact set_self hvd
          · exact hd.dep x hx
        · refine ⟨?_, ?_, trivial⟩
          · rw [hca v (Ne.symm huv)]; exact hhv
          · exact hd.heavy.congr fun x hx => hca x fun h => huc (h ▸ hx)
        · intro x hx
          simp only [Forest.pre, List.append_nil, List.mem_cons, not_or] at hx
          obtain ⟨f1, f2, f3⟩ := hd.frame x hx.2
          refine ⟨?_, ?_, ?_⟩
          · simp only; rw [f1]; exact set_ne hx.1
          · simp only; rw [f2]; exact set_ne hx.1
          · intro hxu
            simp only
            rw [hca x hxu]
            exact f3 hx.1
      rw [sat_ite]
      constructor
      · intro hgt
        have hul : u < t2.heavyChild.length := by rw [hd.wf.heavy, hG]; exact hu
        simp only [sat_bind, sat_upd, sat_ok]
        refine ⟨hul, hbase _ (by simpa using hd.wf.heavy) (fun x hx => set_ne hx), trivial, ?_, ?_⟩
        · rw [if_pos hgt]
        · rw [if_pos hgt, set_self hul]
      · intro hgt
        simp only [sat_ok]
        refine ⟨hbase _ hd.wf.heavy (fun x _ => rfl), trivial, by rw [if_neg hgt], ?_⟩
        rw [if_neg hgt, hfu.2.2 huv]
        exact hheavy
    refine hst.mono ?_
    rintro ⟨t2, s2, m2⟩ ⟨hd, rfl, rfl, hh⟩
    simp only at hd hh ⊢
    have hpre1 : ∀ x, x ∈ (Forest.cons v c .nil).pre ↔ x = v ∨ x ∈ c.pre := by
      intro x; simp [Forest.pre]
    have hfu := hd.frame u (by rw [hpre1]; simp [huv, huc])
    refine (ih2 (fuel := fuel + 1) (size := size + (1 + c.size))
      (m := if 1 + c.size > m then 1 + c.size else m)
      (h0 := if 1 + c.size > m then some v else h0) hu
      (fun x hx => hlt x (by simp [Forest.pre, hx])) hps (List.nodup_cons.2 ⟨hus, hns⟩)
      (by omega) (by omega) hd.wf (by rw [hfu.1]; exact hpar) (by rw [hfu.2.1]; exact hdep)
      hh ?_).mono ?_
    · intro x hx
      have hxu : x ≠ u := fun h => hus (h ▸ hx)
      have hxv : x ∉ (Forest.cons v c .nil).pre := by
        rw [hpre1]
        rintro (rfl | h)
        · exact hvs hx
        · exact hcs x h x hx rfl
      rw [(hd.frame x hxv).2.2 hxu]
      exact hnone x (by simp [Forest.pre, hx])
    · rintro ⟨t3, s3, m3⟩ ⟨hd3, rfl, rfl, hh3⟩
      simp only at hd3 hh3 ⊢
      have hvcs : ∀ x, x = v ∨ x ∈ c.pre → x ∉ s.pre ∧ x ≠ u := by
        rintro x (rfl | hx)
        · exact ⟨hvs, Ne.symm huv⟩
        · exact ⟨fun h => hcs x hx x h rfl, fun h => huc (h ▸ hx)⟩
      have hhv : hv (.cons v c s) m h0 = hv s (if 1 + c.size > m then 1 + c.size else m)
          (if 1 + c.size > m then some v else h0) := by
        simp only [hv]; split <;> rfl
      refine ⟨⟨hd3.wf, ?_, ?_, ?_, ?_, hd3.untouched.1.trans hd.untouched.1,
        hd3.untouched.2.1.trans hd.untouched.2.1, hd3.untouched.2.2.trans hd.untouched.2.2⟩,
        by simp only [Forest.size]; omega, by rw [hhv],
        by rw [hhv]; exact hh3⟩
      · intro x hx
        simp only [Forest.pre, List.mem_cons, List.mem_append] at hx
        rw [← or_assoc] at hx
        rcases hx with hx | hx
        · rw [(hd3.frame x (hvcs x hx).1).1]
          exact hd.parent x ((hpre1 x).2 hx)
        · exact hd3.parent x hx
      · intro x hx
        simp only [Forest.pre, List.mem_cons, List.mem_append] at hx
        rw [← or_assoc] at hx
        rcases hx with hx | hx
        · rw [(hd3.frame x (hvcs x hx).1).2.1]
          exact hd.dep x ((hpre1 x).2 hx)
        · exact hd3.dep x hx
      · obtain ⟨k1, k2, -⟩ := hd.heavy
        refine ⟨?_, ?_, hd3.heavy⟩
        · obtain ⟨j1, j2⟩ := hvcs v (.inl rfl)
          rw [(hd3.frame v j1).2.2 j2]; exact k1
        · refine k2.congr fun x hx => ?_
          obtain ⟨j1, j2⟩ := hvcs x (.inr hx)
          exact (hd3.frame x j1).2.2 j2
      · intro x hx
        simp only [Forest.pre, List.mem_cons, List.mem_append, not_or] at hx
        obtain ⟨f1, f2, f3⟩ := hd3.frame x hx.2.2
        obtain ⟨e1, e2, e3⟩ := hd.frame x (by rw [hpre1]; simp [hx.1, hx.2.1])
        exact ⟨f1.trans e1, f2.trans e2, fun h => (f3 h).trans (e3 h)⟩

/-- `dfs1` from a node. -/
theorem dfs1_sat {u p : Nat} {f : Forest} (hf : FRep g u p (g.getD u []) f)
    (hu : u < g.length) (hlt : ∀ x ∈ f.pre, x < g.length)
    (hp : PathsOk (rpath G root) u f) (hn : (u :: f.pre).Nodup)
    {fuel : Nat} (hfuel : f.height ≤ fuel) (hs : 1 + f.size < 2 ^ 64)
    (hgl : g.length < 2 ^ 64)
    {t : HArr} (hw : WF G.length t) (hpar : t.parent[u]? = some p)
    (hdep : t.dep[u]? = some ((rpath G root u).length - 1))
    (hheavy : t.heavyChild[u]? = some none) (hnone : ∀ x ∈ f.pre, t.heavyChild[x]? = some none) :
    Sat (HArr.dfs1 (fuel + 1) g u t) (fun o =>
      D1 G root u f t o.1 ∧ o.2 = 1 + f.size ∧ o.1.heavyChild[u]? = some (hv f 0 none).2) := by
  unfold HArr.dfs1
  rw [idx_of_some (getD_some' hu)]
  simp only [ok_bind, sat_bind]
  refine (list1_sat T hr hG hf hu hlt hp hn (m := 0) hfuel hs hgl hw hpar hdep hheavy hnone).mono ?_
  rintro ⟨t2, s2, m2⟩ ⟨h1, h2, h3, h4⟩
  simp only [sat_ok]
  exact ⟨h1, h2, h4⟩

end

/-! ### `dfs2` -/

/-- The forest without the tree rooted at `h`. -/
def del (h : Option Nat) : Forest → Forest
  | .nil => .nil
  | .cons v c s => if some v = h then del h s else .cons v c (del h s)

/-- `h` with child forest `ch` is one of the trees. -/
def InF (h : Nat) (ch : Forest) : Forest → Prop
  | .nil => False
  | .cons v c s => (v = h ∧ c = ch) ∨ InF h ch s

/-- All trees have at most `b` nodes. -/
def AllLe (b : Nat) : Forest → Prop
  | .nil => True
  | .cons _ c s => 1 + c.size ≤ b ∧ AllLe b s

/-- In every sibling list the first tree is the largest (`none`), or all trees are at most the
given bound. -/
def LF : Option Nat → Forest → Prop
  | _, .nil => True
  | o, .cons _ c s => (∀ b, o = some b → 1 + c.size ≤ b) ∧ LF none c ∧
      LF (some (o.getD (1 + c.size))) s

/-- Chain heads: the first tree continues the chain `o` (or starts its own), all others start their
own. -/
def Heads (head : List Nat) : Option Nat → Forest → Prop
  | _, .nil => True
  | o, .cons v c s => head[v]? = some (o.getD v) ∧ Heads head (some (o.getD v)) c ∧
      Heads head none s

theorem Heads.congr {a b : List Nat} {o : Option Nat} {f : Forest} (h : Heads a o f)
    (he : ∀ x ∈ f.pre, b[x]? = a[x]?) : Heads b o f := by
  induction f generalizing o with
  | nil => trivial
  | cons v c s ih1 ih2 =>
    obtain ⟨h1, h2, h3⟩ := h
    exact ⟨by rw [he v (by simp [Forest.pre]), h1],
      ih1 h2 fun x hx => he x (by simp [Forest.pre, hx]),
      ih2 h3 fun x hx => he x (by simp [Forest.pre, hx])⟩

theorem InF.mem {h : Nat} {ch f : Forest} (hi : InF h ch f) :
    h ∈ f.pre ∧ ∀ x ∈ ch.pre, x ∈ f.pre := by
  induction f with
  | nil => exact hi.elim
  | cons v c s _ ih2 =>
    rcases hi with ⟨rfl, rfl⟩ | hi
    · exact ⟨by simp [Forest.pre], fun x hx => by simp [Forest.pre, hx]⟩
    · obtain ⟨h1, h2⟩ := ih2 hi
      exact ⟨by simp [Forest.pre, h1], fun x hx => by simp [Forest.pre, h2 x hx]⟩

theorem AllLe.mono {a b : Nat} {f : Forest} (h : AllLe a f) (hab : a ≤ b) : AllLe b f := by
  induction f with
  | nil => trivial
  | cons v c s _ ih2 => exact ⟨by have := h.1; omega, ih2 h.2⟩

theorem hv_spec (f : Forest) (m : Nat) (h0 : Option Nat) :
    m ≤ (hv f m h0).1 ∧ AllLe (hv f m h0).1 f ∧
    (((hv f m h0).1 = m ∧ (hv f m h0).2 = h0) ∨
      ∃ v c, InF v c f ∧ (hv f m h0).2 = some v ∧ (hv f m h0).1 = 1 + c.size) := by
  induction f generalizing m h0 with
  | nil => exact ⟨Nat.le_refl _, trivial, .inl ⟨rfl, rfl⟩⟩
  | cons v c s _ ih2 =>
    simp only [hv]
    split
    · rename_i hgt
      obtain ⟨h1, h2, h3⟩ := ih2 (1 + c.size) (some v)
      refine ⟨by omega, ⟨h1, h2⟩, .inr ?_⟩
      rcases h3 with ⟨h3, h4⟩ | ⟨w, d, h3, h4, h5⟩
      · exact ⟨v, c, .inl ⟨rfl, rfl⟩, h4, h3⟩
      · exact ⟨w, d, .inr h3, h4, h5⟩
    · rename_i hgt
      obtain ⟨h1, h2, h3⟩ := ih2 m h0
      refine ⟨h1, ⟨by omega, h2⟩, ?_⟩
      rcases h3 with h3 | ⟨w, d, h3, h4, h5⟩
      · exact .inl h3
      · exact .inr ⟨w, d, .inr h3, h4, h5⟩

/-- The heavy child of a nonempty forest is a largest tree. -/
theorem hv_cases (f : Forest) : (f = .nil ∧ (hv f 0 none).2 = none) ∨
    ∃ v c, InF v c f ∧ (hv f 0 none).2 = some v ∧ AllLe (1 + c.size) f := by
  obtain ⟨_, h2, h3⟩ := hv_spec f 0 none
  rcases h3 with ⟨h3, h4⟩ | ⟨v, c, h3, h4, h5⟩
  · left
    refine ⟨?_, h4⟩
    cases f with
    | nil => rfl
    | cons v c s =>
      have := h2.1
      omega
  · right
    exact ⟨v, c, h3, h4, h5 ▸ h2⟩

theorem del_of_not_mem {h : Nat} {f : Forest} (hn : h ∉ f.pre) : del (some h) f = f := by
  induction f with
  | nil => rfl
  | cons v c s _ ih2 =>
    simp only [Forest.pre, List.mem_cons, List.mem_append, not_or] at hn
    simp only [del, Option.some.injEq, Ne.symm hn.1, if_false, ih2 hn.2.2]

theorem del_perm {h : Nat} {ch f : Forest} (hi : InF h ch f) (hn : f.pre.Nodup) :
    ((h :: ch.pre) ++ (del (some h) f).pre).Perm f.pre := by
  induction f with
  | nil => exact hi.elim
  | cons v c s _ ih2 =>
    simp only [Forest.pre, List.nodup_cons, List.mem_append, not_or, List.nodup_append] at hn
    obtain ⟨⟨hvc, hvs⟩, hnc, hns, hcs⟩ := hn
    rcases hi with ⟨rfl, rfl⟩ | hi
    · simp only [del, if_true, del_of_not_mem hvs, Forest.pre]
      simp
    · have hne : v ≠ h := fun e => hvs (e ▸ hi.mem.1)
      simp only [del, Option.some.injEq, hne, if_false, Forest.pre]
      have := ih2 hi hns
      refine List.Perm.trans ?_ (((this.append_left (v :: c.pre))).trans (by simp))
      have hc := List.perm_append_comm_assoc (h :: ch.pre) (v :: c.pre) (del (some h) s).pre
      simpa using hc

theorem del_allLe {h : Option Nat} {f : Forest} {b : Nat} (ha : AllLe b f) : AllLe b (del h f) := by
  induction f with
  | nil => trivial
  | cons v c s _ ih2 =>
    simp only [del]
    split
    · exact ih2 ha.2
    · exact ⟨ha.1, ih2 ha.2⟩

section
variable {g : List (List Nat)} {root : Nat} {R : Nat → List Nat}

/-- Effect of `dfs2` on a forest (in the order visited) from time `τ`. -/
structure D2 (n : Nat) (f : Forest) (o : Option Nat) (τ : Nat) (t t' : HArr) : Prop where
  wf : WF n t'
  stamped : Stamped t'.pos t'.posR τ f
  heads : Heads t'.head o f
  frame : ∀ x, x ∉ f.pre → t'.pos[x]? = t.pos[x]? ∧ t'.posR[x]? = t.posR[x]? ∧
    t'.head[x]? = t.head[x]?
  parent : t'.parent = t.parent
  dep : t'.dep = t.dep
  heavy : t'.heavyChild = t.heavyChild

theorem D2.append {n : Nat} {v : Nat} {c s : Forest} {o : Option Nat} {τ : Nat} {t t1 t2 : HArr}
    (h1 : D2 n (.cons v c .nil) o τ t t1) (h2 : D2 n s none (τ + 1 + c.size) t1 t2)
    (hn : ∀ x, x = v ∨ x ∈ c.pre → x ∉ s.pre) : D2 n (.cons v c s) o τ t t2 := by
  obtain ⟨s1, s2, s3, -⟩ := h1.stamped
  obtain ⟨e1, e2, -⟩ := h1.heads
  refine ⟨h2.wf, ⟨?_, ?_, ?_, h2.stamped⟩, ⟨?_, ?_, h2.heads⟩, ?_, h2.parent.trans h1.parent,
    h2.dep.trans h1.dep, h2.heavy.trans h1.heavy⟩
  · rw [(h2.frame v (hn v (.inl rfl))).1]; exact s1
  · rw [(h2.frame v (hn v (.inl rfl))).2.1]; exact s2
  · exact s3.congr (fun x hx => (h2.frame x (hn x (.inr hx))).1)
      (fun x hx => (h2.frame x (hn x (.inr hx))).2.1)
  · rw [(h2.frame v (hn v (.inl rfl))).2.2]; exact e1
  · exact e2.congr fun x hx => (h2.frame x (hn x (.inr hx))).2.2
  · intro x hx
    simp only [Forest.pre, List.mem_cons, List.mem_append, not_or] at hx
    obtain ⟨f1, f2, f3⟩ := h2.frame x hx.2.2
    obtain ⟨k1, k2, k3⟩ := h1.frame x (by simp [Forest.pre, hx.1, hx.2.1])
    exact ⟨f1.trans k1, f2.trans k2, f3.trans k3⟩

/-- Body of the adjacency loop of `dfs2`. -/
def step2 (fuel : Nat) (g : List (List Nat)) (u v : Nat) (st : HArr × Nat) : Res (HArr × Nat) := do
  let (t, timer) := st
  let pu ← idx t.parent u
  if v ≠ pu then do
    let hc ← idx t.heavyChild u
    if some v ≠ hc then HArr.dfs2 fuel g v v t timer else ok (t, timer)
  else ok (t, timer)

/-- What a `dfs2` call on `v` with children `c` must do. -/
def NodeOk (g : List (List Nat)) (R : Nat → List Nat) (v p : Nat) (c : Forest) : Prop :=
  ∀ (fuel hd τ : Nat) (t : HArr), c.height < fuel → τ + 1 + c.size < 2 ^ 64 →
    WF g.length t → t.parent[v]? = some p → t.heavyChild[v]? = some (hv c 0 none).2 →
    HvAll t.heavyChild c → (∀ x ∈ c.pre, ∃ q, R x = R q ++ [x] ∧ t.parent[x]? = some q) →
    Sat (HArr.dfs2 fuel g v hd t τ) (fun o => ∃ c', c'.pre.Perm c.pre ∧ PathsOk R v c' ∧
      LF none c' ∧ D2 g.length (.cons v c' .nil) (some hd) τ t o.1 ∧ o.2 = τ + 1 + c.size)

/-- What the adjacency loop of `dfs2` must do (the heavy child `h` is skipped). -/
def ListOk (g : List (List Nat)) (R : Nat → List Nat) (u p : Nat) (l : List Nat) (f : Forest) :
    Prop :=
  ∀ (fuel τ B : Nat) (h : Option Nat) (t : HArr), (del h f).height ≤ fuel →
    τ + (del h f).size < 2 ^ 64 → AllLe B f →
    WF g.length t → t.parent[u]? = some p → t.heavyChild[u]? = some h →
    HvAll t.heavyChild f → (∀ x ∈ f.pre, ∃ q, R x = R q ++ [x] ∧ t.parent[x]? = some q) →
    Sat (forList l (t, τ) (step2 fuel g u)) (fun o => ∃ f', f'.pre.Perm (del h f).pre ∧
      PathsOk R u f' ∧ LF (some B) f' ∧ D2 g.length f' none τ t o.1 ∧ o.2 = τ + (del h f).size)

theorem perm_size {a b : Forest} (h : a.pre.Perm b.pre) : a.size = b.size := by
  rw [← Forest.pre_length, ← Forest.pre_length]; exact h.length_eq

theorem del_none (f : Forest) : del none f = f := by
  induction f with
  | nil => rfl
  | cons v c s _ ih2 => simp [del, ih2]

theorem del_height (h : Option Nat) (f : Forest) : (del h f).height ≤ f.height := by
  induction f with
  | nil => simp [del]
  | cons v c s _ ih2 =>
    simp only [del]
    split <;> simp only [Forest.height] <;> omega

theorem InF.height {h : Nat} {ch f : Forest} (hi : InF h ch f) : ch.height < f.height := by
  induction f with
  | nil => exact hi.elim
  | cons v c s _ ih2 =>
    simp only [Forest.height]
    rcases hi with ⟨rfl, rfl⟩ | hi
    · omega
    · have := ih2 hi; omega

theorem InF.hvAll {h : Nat} {ch f : Forest} (hi : InF h ch f) {a : List (Option Nat)}
    (hh : HvAll a f) : a[h]? = some (hv ch 0 none).2 ∧ HvAll a ch := by
  induction f with
  | nil => exact hi.elim
  | cons v c s _ ih2 =>
    rcases hi with ⟨rfl, rfl⟩ | hi
    · exact ⟨hh.1, hh.2.1⟩
    · exact ih2 hi hh.2.2

theorem InF.paths {h u : Nat} {ch f : Forest} (hi : InF h ch f)
    (hp : PathsOk R u f) : R h = R u ++ [h] ∧ PathsOk R h ch := by
  induction f with
  | nil => exact hi.elim
  | cons v c s _ ih2 =>
    rcases hi with ⟨rfl, rfl⟩ | hi
    · exact ⟨hp.1, hp.2.1⟩
    · exact ih2 hi hp.2.2

theorem node2 {v p : Nat} {c : Forest} (hv' : v < g.length) (hn : (v :: c.pre).Nodup)
    (hp : PathsOk R v c) (hRinj : ∀ q, (∃ x, R x = R q ++ [x] ∧ R x = R v ++ [x]) → q = v)
    (hlist : ListOk g R v p (g.getD v []) c)
    (hnode : ∀ w d, InF w d c → NodeOk g R w v d) : NodeOk g R v p c := by
  intro fuel hd τ t hfuel hτ hw hpar hheavy hall hparents
  obtain ⟨fuel, rfl⟩ : ∃ k, fuel = k + 1 := ⟨fuel - 1, by omega⟩
  obtain ⟨hvc, hnc⟩ := List.nodup_cons.1 hn
  unfold HArr.dfs2
  have hvh : v < t.head.length := by rw [hw.head]; exact hv'
  have hvp : v < t.pos.length := by rw [hw.pos]; exact hv'
  rw [upd_of_lt hvh, upd_of_lt hvp]
  simp only [ok_bind]
  rw [addU_of_lt (by omega), idx_of_some hheavy]
  simp only [ok_bind]
  -- final assembly, common to both cases
  have hfin : ∀ (t2 : HArr) (c' : Forest), c'.pre.Perm c.pre →
      PathsOk R v c' → LF none c' →
      D2 g.length c' (some hd) (τ + 1) { t with head := t.head.set v hd, pos := t.pos.set v τ } t2 →
      Sat (do
        let posR ← upd t2.posR v (τ + 1 + c.size)
        ok ({ t2 with posR := posR }, τ + 1 + c.size))
        (fun o => ∃ c', c'.pre.Perm c.pre ∧ PathsOk R v c' ∧
          LF none c' ∧ D2 g.length (.cons v c' .nil) (some hd) τ t o.1 ∧ o.2 = τ + 1 + c.size) := by
    intro t2 c' hperm hpaths hlf hd2
    have hvc' : v ∉ c'.pre := fun h => hvc (hperm.mem_iff.1 h)
    have hvr : v < t2.posR.length := by rw [hd2.wf.posR]; exact hv'
    simp only [sat_bind, sat_upd, sat_ok]
    obtain ⟨f1, f2, f3⟩ := hd2.frame v hvc'
    refine ⟨hvr, c', hperm, hpaths, hlf, ⟨?_, ⟨?_, ?_, ?_, trivial⟩, ⟨?_, ?_, trivial⟩, ?_,
      hd2.parent, hd2.dep, hd2.heavy⟩, trivial⟩
    · exact ⟨hd2.wf.parent, hd2.wf.dep, hd2.wf.heavy, hd2.wf.head, hd2.wf.pos,
        by simpa using hd2.wf.posR⟩
    · show t2.pos[v]? = _
      rw [f1]; exact set_self hvp
    · rw [perm_size hperm]; exact set_self hvr
    · exact hd2.stamped.congr (fun _ _ => rfl) (fun x hx => set_ne fun h => hvc' (h ▸ hx))
    · show t2.head[v]? = _
      rw [f3]; exact set_self hvh
    · exact hd2.heads
    · intro x hx
      simp only [Forest.pre, List.append_nil, List.mem_cons, not_or] at hx
      obtain ⟨e1, e2, e3⟩ := hd2.frame x hx.2
      refine ⟨?_, ?_, ?_⟩
      · show t2.pos[x]? = _
        rw [e1]; exact set_ne hx.1
      · show (t2.posR.set v _)[x]? = _
        rw [set_ne hx.1, e2]
      · show t2.head[x]? = _
        rw [e3]; exact set_ne hx.1
  have hw1 : WF g.length { t with head := t.head.set v hd, pos := t.pos.set v τ } :=
    ⟨hw.parent, hw.dep, hw.heavy, by simpa using hw.head, by simpa using hw.pos, hw.posR⟩
  rcases hv_cases c with ⟨rfl, hnone⟩ | ⟨h, ch, hin, hsome, hle⟩
  · rw [hnone]
    simp only [Option.isSome_none, Bool.false_eq_true, if_false, ok_bind]
    rw [idx_of_some (getD_some' hv')]
    simp only [ok_bind, sat_bind]
    refine (hlist fuel (τ + 1) 0 none _ (by simp [del, Forest.height]) (by simpa [del] using hτ)
      trivial hw1 hpar (hnone ▸ hheavy) hall hparents).mono ?_
    rintro ⟨t2, τ2⟩ ⟨f', h1, h2, h3, h4, rfl⟩
    simp only at h4 ⊢
    have hf' : f' = .nil := by
      cases f' with
      | nil => rfl
      | cons => simp [Forest.pre, del] at h1
    subst hf'
    have := hfin t2 .nil (by simp [Forest.pre]) trivial trivial
      ⟨h4.wf, trivial, trivial, h4.frame, h4.parent, h4.dep, h4.heavy⟩
    simpa [del, Forest.size] using this
  · rw [hsome]
    simp only [Option.isSome_some, if_true, unwrap_some, ok_bind, sat_bind]
    obtain ⟨hhv, hhall⟩ := hin.hvAll hall
    obtain ⟨hRh, hpch⟩ := hin.paths hp
    have hmem := hin.mem
    have hper := del_perm hin hnc
    have hsz : 1 + ch.size + (del (some h) c).size = c.size := by
      have := hper.length_eq
      simp only [List.length_append, List.length_cons, Forest.pre_length] at this
      omega
    have hparh : t.parent[h]? = some v := by
      obtain ⟨q, hq1, hq2⟩ := hparents h hmem.1
      rwa [hRinj q ⟨h, hq1, hRh⟩] at hq2
    refine (hnode h ch hin fuel hd (τ + 1) _ (by have := hin.height; omega) (by omega) hw1 hparh
      hhv hhall (fun x hx => hparents x (hmem.2 x hx))).mono ?_
    rintro ⟨t2, τ2⟩ ⟨ch', hc1, hc2, hc3, hc4, rfl⟩
    simp only at hc4 ⊢
    rw [idx_of_some (getD_some' hv'), sat_ok]
    refine (hlist fuel (τ + 1 + 1 + ch.size) (1 + ch.size) (some h) t2
      (by have := del_height (some h) c; omega) (by omega) hle hc4.wf (by rw [hc4.parent]; exact hpar)
      (by rw [hc4.heavy, ← hsome]; exact hheavy)
      (by rw [hc4.heavy]; exact hall) (by rw [hc4.parent]; exact hparents)).mono ?_
    rintro ⟨t3, τ3⟩ ⟨f', h1, h2, h3, h4, rfl⟩
    simp only at h4 ⊢
    have hch' := perm_size hc1
    have e : τ + 1 + 1 + ch.size + (del (some h) c).size = τ + 1 + c.size := by omega
    rw [e]
    have hnd : ((h :: ch.pre) ++ (del (some h) c).pre).Nodup := hper.nodup_iff.2 hnc
    rw [List.nodup_append] at hnd
    rw [← sat_bind]
    refine hfin t3 (.cons h ch' f') ?_ ⟨hRh, hc2, h2⟩ ⟨by simp, hc3, ?_⟩ (D2.append hc4 ?_ ?_)
    · refine List.Perm.trans ?_ hper
      simp only [Forest.pre, List.cons_append]
      exact List.Perm.cons _ (hc1.append h1)
    · rw [hch']; exact h3
    · rw [hch']; exact h4
    · intro x hx hxf
      have h5 : x ∈ (del (some h) c).pre := h1.mem_iff.1 hxf
      have h6 : x ∈ h :: ch.pre := by
        rcases hx with rfl | hx
        · simp
        · exact List.mem_cons_of_mem _ (hc1.mem_iff.1 hx)
      exact hnd.2.2 x h6 x h5 rfl

theorem both {u p : Nat} {l : List Nat} {f : Forest} (hf : FRep g u p l f)
    (hlt : ∀ x ∈ f.pre, x < g.length)
    (hp : PathsOk R u f) (hn : (u :: f.pre).Nodup)
    (hRinj : ∀ q v, (∃ x, R x = R q ++ [x] ∧ R x = R v ++ [x] ∧ v ∈ u :: f.pre) → q = v) :
    ListOk g R u p l f ∧ ∀ w d, InF w d f → NodeOk g R w u d := by
  induction hf with
  | nil =>
    refine ⟨?_, fun w d h => h.elim⟩
    intro fuel τ B h t _ _ _ hw _ _ _ _
    simp only [forList_nil, sat_ok]
    exact ⟨.nil, by simp [del], trivial, trivial,
      ⟨hw, trivial, trivial, fun _ _ => ⟨rfl, rfl, rfl⟩, rfl, rfl, rfl⟩, by simp [del, Forest.size]⟩
  | @skip u p l f _ ih =>
    obtain ⟨h1, h2⟩ := ih hlt hp hn hRinj
    refine ⟨?_, h2⟩
    intro fuel τ B h t a1 a2 a3 hw hpar hh hall hparents
    simp only [forList_cons, sat_bind]
    have : step2 fuel g u p (t, τ) = ok (t, τ) := by
      simp [step2, idx_of_some hpar]
    rw [this, sat_ok]
    exact h1 fuel τ B h t a1 a2 a3 hw hpar hh hall hparents
  | @child u p v l c s hne hc hss ih1 ih2 =>
    obtain ⟨hpv, hpc, hps⟩ := hp
    simp only [Forest.pre, List.nodup_cons, List.mem_cons, List.mem_append, not_or,
      List.nodup_append] at hn
    obtain ⟨⟨huv, huc, hus⟩, ⟨hvc, hvs⟩, hnc, hns, hcs⟩ := hn
    have hvl : v < g.length := hlt v (by simp [Forest.pre])
    obtain ⟨hl1, hn1⟩ := ih1 (fun x hx => hlt x (by simp [Forest.pre, hx])) hpc
      (List.nodup_cons.2 ⟨hvc, hnc⟩) (by
        rintro q w ⟨x, hx1, hx2, hx3⟩
        refine hRinj q w ⟨x, hx1, hx2, ?_⟩
        rcases List.mem_cons.1 hx3 with rfl | hx3
        · simp [Forest.pre]
        · simp [Forest.pre, hx3])
    obtain ⟨hl2, hn2⟩ := ih2 (fun x hx => hlt x (by simp [Forest.pre, hx])) hps
      (List.nodup_cons.2 ⟨hus, hns⟩) (by
        rintro q w ⟨x, hx1, hx2, hx3⟩
        refine hRinj q w ⟨x, hx1, hx2, ?_⟩
        rcases List.mem_cons.1 hx3 with rfl | hx3
        · simp
        · simp [Forest.pre, hx3])
    have hnv : NodeOk g R v u c := node2 hvl (List.nodup_cons.2 ⟨hvc, hnc⟩) hpc (by
        rintro q ⟨x, hx1, hx2⟩
        exact hRinj q v ⟨x, hx1, hx2, by simp [Forest.pre]⟩) hl1 hn1
    refine ⟨?_, ?_⟩
    · intro fuel τ B h t a1 a2 a3 hw hpar hh hall hparents
      obtain ⟨b1, b2⟩ := a3
      obtain ⟨hv1, hv2, hv3⟩ := hall
      have hps' : ∀ x ∈ s.pre, ∃ q, R x = R q ++ [x] ∧ t.parent[x]? = some q :=
        fun x hx => hparents x (by simp [Forest.pre, hx])
      simp only [forList_cons, sat_bind]
      by_cases hhv : some v = h
      · have : step2 fuel g u v (t, τ) = ok (t, τ) := by
          simp [step2, idx_of_some hpar, idx_of_some hh, hne, hhv]
        rw [this, sat_ok]
        have e : del h (.cons v c s) = del h s := by simp [del, hhv]
        rw [e] at a1 a2 ⊢
        exact hl2 fuel τ B h t a1 a2 b2 hw hpar hh hv3 hps'
      · have hst : step2 fuel g u v (t, τ) = HArr.dfs2 fuel g v v t τ := by
          simp [step2, idx_of_some hpar, idx_of_some hh, hne, hhv]
        have e : del h (.cons v c s) = .cons v c (del h s) := by simp [del, hhv]
        rw [e] at a1 a2 ⊢
        simp only [Forest.height] at a1
        simp only [Forest.size] at a2
        have hparv : t.parent[v]? = some u := by
          obtain ⟨q, hq1, hq2⟩ := hparents v (by simp [Forest.pre])
          rwa [hRinj q u ⟨v, hq1, hpv, by simp⟩] at hq2
        rw [hst]
        refine (hnv fuel v τ t (by omega) (by omega) hw hparv hv1 hv2
          (fun x hx => hparents x (by simp [Forest.pre, hx]))).mono ?_
        rintro ⟨t2, τ2⟩ ⟨c', k1, k2, k3, k4, rfl⟩
        simp only at k4 ⊢
        have hsz := perm_size k1
        refine (hl2 fuel (τ + 1 + c.size) B h t2 (by omega) (by omega) b2 k4.wf
          (by rw [k4.parent]; exact hpar) (by rw [k4.heavy]; exact hh) (by rw [k4.heavy]; exact hv3)
          (by rw [k4.parent]; exact hps')).mono ?_
        rintro ⟨t3, τ3⟩ ⟨f', j1, j2, j3, j4, rfl⟩
        simp only at j4 ⊢
        have hsub : ∀ x ∈ (del h s).pre, x ∈ s.pre := by
          clear * -
          induction s with
          | nil => simp [del]
          | cons w d s _ ih =>
            intro x hx
            simp only [del] at hx
            split at hx
            · simp [Forest.pre, ih x hx]
            · simp only [Forest.pre, List.mem_cons, List.mem_append] at hx ⊢
              rcases hx with hx | hx | hx
              · exact .inl hx
              · exact .inr (.inl hx)
              · exact .inr (.inr (ih x hx))
        refine ⟨.cons v c' f', ?_, ⟨hpv, k2, j2⟩, ⟨?_, k3, j3⟩, ?_, by simp only [Forest.size]; omega⟩
        · simp only [Forest.pre]
          exact List.Perm.cons _ (k1.append j1)
        · intro b hb; cases hb; rw [hsz]; exact b1
        · have k4' : D2 g.length (.cons v c' .nil) none τ t t2 := by
            refine ⟨k4.wf, k4.stamped, ?_, k4.frame, k4.parent, k4.dep, k4.heavy⟩
            obtain ⟨e1, e2, e3⟩ := k4.heads
            exact ⟨e1, e2, trivial⟩
          refine D2.append k4' (by rw [hsz]; exact j4) ?_
          intro x hx hxf
          have h5 := hsub x (j1.mem_iff.1 hxf)
          rcases hx with rfl | hx
          · exact hvs h5
          · exact hcs x (k1.mem_iff.1 hx) x h5 rfl
    · intro w d hwd
      rcases hwd with ⟨rfl, rfl⟩ | hwd
      · exact hnv
      · exact hn2 w d hwd

end
end Verif.HLDP
