import Verif.Prelude.Sim
import Verif.Model.HLD
/-! The lazy segment tree on related operations: same control flow, related values. -/
namespace Verif.LazySim
open Res Model

variable {p q : Prop} {S S' F F' : Type} {RS : S → S' → Prop} {RF : F → F' → Prop}

/-- Related implementations. -/
structure OpsSim (p q : Prop) (RS : S → S' → Prop) (RF : F → F' → Prop) (A : MapMonoidOps S F)
    (B : MapMonoidOps S' F') : Prop where
  e : RS A.e B.e
  idMap : RF A.idMap B.idMap
  op : ∀ a b a' b', RS a a' → RS b b' → Sim p q RS (A.op a b) (B.op a' b')
  mapping : ∀ f x f' x', RF f f' → RS x x' → Sim p q RS (A.mapping f x) (B.mapping f' x')
  comp : ∀ f g f' g', RF f f' → RF g g' → Sim p q RF (A.comp f g) (B.comp f' g')

/-- Related trees. -/
structure TR (RS : S → S' → Prop) (RF : F → F' → Prop) (t : LazySegtree S F) (t' : LazySegtree S' F') : Prop where
  n : t.n = t'.n
  size : t.size = t'.size
  log : t.log = t'.log
  d : ListRel RS t.d t'.d
  lz : ListRel RF t.lz t'.lz

variable {A : MapMonoidOps S F} {B : MapMonoidOps S' F'} {t : LazySegtree S F} {t' : LazySegtree S' F'}

theorem update_sim (h : OpsSim p q RS RF A B) (ht : TR RS RF t t') (k : Nat) :
    Sim p q (TR RS RF) (t.update A k) (t'.update B k) := by
  refine sim_bind (sim_idx ht.d _) fun x x' hx => sim_bind (sim_idx ht.d _) fun y y' hy =>
    sim_bind (h.op _ _ _ _ hx hy) fun s s' hs => sim_bind (sim_upd ht.d _ hs) fun d d' hd => sim_ok ?_
  exact ⟨ht.n, ht.size, ht.log, hd, ht.lz⟩

theorem allApply_sim (h : OpsSim p q RS RF A B) (ht : TR RS RF t t') (k : Nat) {f : F} {f' : F'} (hf : RF f f') :
    Sim p q (TR RS RF) (t.allApply A k f) (t'.allApply B k f') := by
  refine sim_bind (sim_idx ht.d _) fun x x' hx =>
    sim_bind (h.mapping _ _ _ _ hf hx) fun y y' hy => sim_bind (sim_upd ht.d _ hy) fun d d' hd => ?_
  simp only [ht.size]
  refine sim_ite ?_ (sim_ok ⟨ht.n, rfl, ht.log, hd, ht.lz⟩)
  refine sim_bind (sim_idx ht.lz _) fun z z' hz => sim_bind (h.comp _ _ _ _ hf hz) fun c c' hc =>
    sim_bind (sim_upd ht.lz _ hc) fun l l' hl => sim_ok ⟨ht.n, rfl, ht.log, hd, hl⟩

theorem push_sim (h : OpsSim p q RS RF A B) (ht : TR RS RF t t') (k : Nat) :
    Sim p q (TR RS RF) (t.push A k) (t'.push B k) := by
  refine sim_bind (sim_idx ht.lz _) fun z z' hz => sim_bind (allApply_sim h ht _ hz) fun t1 t1' h1 =>
    sim_bind (sim_idx h1.lz _) fun y y' hy => sim_bind (allApply_sim h h1 _ hy) fun t2 t2' h2 =>
    sim_bind (sim_upd h2.lz _ h.idMap) fun l l' hl => sim_ok ⟨h2.n, h2.size, h2.log, h2.d, hl⟩

theorem writeSlice_sim {d v : List S} {d' v' : List S'} (hd : ListRel RS d d') (hv : ListRel RS v v') (lo : Nat) :
    Sim p q (ListRel RS) (writeSlice d lo v) (writeSlice d' lo v') := by
  unfold writeSlice
  rw [hd.1, hv.1]
  by_cases hl : lo + v'.length ≤ d'.length
  · rw [if_pos hl, if_pos hl]
    refine sim_ok ⟨by simp [hd.1, hv.1], ?_⟩
    intro i a b ha hb
    simp only [List.getElem?_append, List.length_append, List.length_take, List.getElem?_take, List.getElem?_drop,
      hd.1, hv.1] at ha hb
    split at ha
    · rw [if_pos ‹_›] at hb
      split at ha
      · rw [if_pos ‹_›] at hb
        split at ha
        · rw [if_pos ‹_›] at hb; exact hd.2 _ _ _ ha hb
        · cases ha
      · rw [if_neg ‹_›] at hb; exact hv.2 _ _ _ ha hb
    · rw [if_neg ‹_›] at hb
      exact hd.2 _ _ _ ha hb
  · rw [if_neg hl, if_neg hl]; exact sim_panic

theorem from_sim (h : OpsSim p q RS RF A B) {v : List S} {v' : List S'} (hv : ListRel RS v v') :
    Sim p q (TR RS RF) (LazySegtree.from A v) (LazySegtree.from B v') := by
  unfold LazySegtree.from
  simp only [hv.1]
  refine sim_bind sim_refl ?_
  rintro L _ rfl
  refine sim_bind (writeSlice_sim (ListRel.replicate h.e _) hv _) fun d d' hd => ?_
  exact sim_forRangeRev ⟨rfl, rfl, rfl, hd, ListRel.replicate h.idMap _⟩ fun i s t hst => update_sim h hst i

theorem new_sim (h : OpsSim p q RS RF A B) (n : Nat) :
    Sim p q (TR RS RF) (LazySegtree.new A n) (LazySegtree.new B n) := from_sim h (ListRel.replicate h.e n)

theorem pushPath_sim (h : OpsSim p q RS RF A B) (ht : TR RS RF t t') (k : Nat) :
    Sim p q (TR RS RF) (t.pushPath A k) (t'.pushPath B k) := by
  unfold LazySegtree.pushPath
  rw [ht.log]
  exact sim_forRangeRev ht fun i s t hst => push_sim h hst _

theorem updatePath_sim (h : OpsSim p q RS RF A B) (ht : TR RS RF t t') (k : Nat) :
    Sim p q (TR RS RF) (t.updatePath A k) (t'.updatePath B k) := by
  unfold LazySegtree.updatePath
  rw [ht.log]
  exact sim_forRange ht fun i s t hst => update_sim h hst _

theorem TR.withD {d : List S} {d' : List S'} (ht : TR RS RF t t') (hd : ListRel RS d d') :
    TR RS RF { t with d := d } { t' with d := d' } := ⟨ht.n, ht.size, ht.log, hd, ht.lz⟩

theorem set_sim (h : OpsSim p q RS RF A B) (ht : TR RS RF t t') (k : Nat) {x : S} {x' : S'} (hx : RS x x') :
    Sim p q (TR RS RF) (t.set A k x) (t'.set B k x') := by
  unfold LazySegtree.set
  simp only [ht.n, ht.size]
  refine sim_assert fun _ => sim_bind (pushPath_sim h ht _) fun t1 t1' h1 =>
    sim_bind (sim_upd h1.d _ hx) fun d d' hd => updatePath_sim h (h1.withD hd) _

theorem get_sim (h : OpsSim p q RS RF A B) (ht : TR RS RF t t') (k : Nat) :
    Sim p q (fun o o' => TR RS RF o.1 o'.1 ∧ RS o.2 o'.2) (t.get A k) (t'.get B k) := by
  unfold LazySegtree.get
  simp only [ht.n, ht.size]
  exact sim_assert fun _ => sim_bind (pushPath_sim h ht _) fun t1 t1' h1 =>
    sim_bind (sim_idx h1.d _) fun x x' hx => sim_ok ⟨h1, hx⟩

theorem apply_sim (h : OpsSim p q RS RF A B) (ht : TR RS RF t t') (k : Nat) {f : F} {f' : F'} (hf : RF f f') :
    Sim p q (TR RS RF) (t.apply A k f) (t'.apply B k f') := by
  unfold LazySegtree.apply
  simp only [ht.n, ht.size]
  exact sim_assert fun _ => sim_bind (pushPath_sim h ht _) fun t1 t1' h1 =>
    sim_bind (sim_idx h1.d _) fun x x' hx => sim_bind (h.mapping _ _ _ _ hf hx) fun y y' hy =>
    sim_bind (sim_upd h1.d _ hy) fun d d' hd => updatePath_sim h (h1.withD hd) _

theorem allProd_sim (ht : TR RS RF t t') : Sim p q RS t.allProd t'.allProd := sim_idx ht.d _

theorem prod_sim (h : OpsSim p q RS RF A B) (ht : TR RS RF t t') (l r : Nat) :
    Sim p q (fun o o' => TR RS RF o.1 o'.1 ∧ RS o.2 o'.2) (t.prod A l r) (t'.prod B l r) := by
  unfold LazySegtree.prod
  simp only [ht.n, ht.size, ht.log]
  refine sim_assert fun _ => sim_ite (sim_ok ⟨ht, h.e⟩) ?_
  refine sim_bind (Q := TR RS RF) (sim_forRangeRev ht fun i s t hst => ?_) fun t1 t1' h1 => ?_
  · refine sim_bind (sim_ite (push_sim h hst _) (sim_ok hst)) fun s s' hs => ?_
    exact sim_ite (push_sim h hs _) (sim_ok hs)
  refine sim_bind (Q := fun a b => a.1 = b.1 ∧ a.2.1 = b.2.1 ∧ RS a.2.2.1 b.2.2.1 ∧ RS a.2.2.2 b.2.2.2)
    (sim_while ⟨rfl, rfl, h.e, h.e⟩ ?_ ?_) ?_
  · rintro ⟨a, b, c, d⟩ ⟨a', b', c', d'⟩ ⟨e1, e2, hc, hd⟩
    simp only at e1 e2
    subst e1; subst e2
    exact sim_refl
  · rintro ⟨a, b, c, d⟩ ⟨a', b', c', d'⟩ ⟨e1, e2, hc, hd⟩
    simp only at e1 e2 hc hd
    subst e1; subst e2
    refine sim_bind (Q := fun a b => a.1 = b.1 ∧ RS a.2 b.2) (sim_ite ?_ (sim_ok ⟨rfl, hc⟩)) ?_
    · exact sim_bind (sim_idx h1.d _) fun x x' hx => sim_bind (h.op _ _ _ _ hc hx) fun y y' hy => sim_ok ⟨rfl, hy⟩
    rintro ⟨l1, c1⟩ ⟨l1', c1'⟩ ⟨e1, hc1⟩
    simp only at e1 hc1
    subst e1
    refine sim_bind (Q := fun a b => a.1 = b.1 ∧ RS a.2 b.2) (sim_ite ?_ (sim_ok ⟨rfl, hd⟩)) ?_
    · exact sim_bind (sim_idx h1.d _) fun x x' hx => sim_bind (h.op _ _ _ _ hx hd) fun y y' hy => sim_ok ⟨rfl, hy⟩
    rintro ⟨r1, d1⟩ ⟨r1', d1'⟩ ⟨e1, hd1⟩
    simp only at e1 hd1
    subst e1
    exact sim_ok ⟨rfl, rfl, hc1, hd1⟩
  · rintro ⟨a, b, c, d⟩ ⟨a', b', c', d'⟩ ⟨e1, e2, hc, hd⟩
    exact sim_bind (h.op _ _ _ _ hc hd) fun s s' hs => sim_ok ⟨h1, hs⟩

theorem applyRange_sim (h : OpsSim p q RS RF A B) (ht : TR RS RF t t') (l r : Nat) {f : F} {f' : F'}
    (hf : RF f f') : Sim p q (TR RS RF) (t.applyRange A l r f) (t'.applyRange B l r f') := by
  unfold LazySegtree.applyRange
  simp only [ht.n, ht.size, ht.log]
  refine sim_assert fun _ => sim_ite (sim_ok ht) ?_
  refine sim_bind (Q := TR RS RF) (sim_forRangeRev ht fun i s t hst => ?_) fun t1 t1' h1 => ?_
  · refine sim_bind (sim_ite (push_sim h hst _) (sim_ok hst)) fun s s' hs => ?_
    exact sim_ite (push_sim h hs _) (sim_ok hs)
  refine sim_bind (Q := fun a b => a.1 = b.1 ∧ a.2.1 = b.2.1 ∧ TR RS RF a.2.2 b.2.2)
    (sim_while ⟨rfl, rfl, h1⟩ ?_ ?_) ?_
  · rintro ⟨a, b, c⟩ ⟨a', b', c'⟩ ⟨e1, e2, hc⟩
    simp only at e1 e2
    subst e1; subst e2
    exact sim_refl
  · rintro ⟨a, b, c⟩ ⟨a', b', c'⟩ ⟨e1, e2, hc⟩
    simp only at e1 e2 hc
    subst e1; subst e2
    refine sim_bind (Q := fun a b => a.1 = b.1 ∧ TR RS RF a.2 b.2) (sim_ite ?_ (sim_ok ⟨rfl, hc⟩)) ?_
    · exact sim_bind (allApply_sim h hc _ hf) fun y y' hy => sim_ok ⟨rfl, hy⟩
    rintro ⟨l1, c1⟩ ⟨l1', c1'⟩ ⟨e1, hc1⟩
    simp only at e1 hc1
    subst e1
    refine sim_bind (Q := fun a b => a.1 = b.1 ∧ TR RS RF a.2 b.2) (sim_ite ?_ (sim_ok ⟨rfl, hc1⟩)) ?_
    · exact sim_bind (allApply_sim h hc1 _ hf) fun y y' hy => sim_ok ⟨rfl, hy⟩
    rintro ⟨r1, d1⟩ ⟨r1', d1'⟩ ⟨e1, hd1⟩
    simp only at e1 hd1
    subst e1
    exact sim_ok ⟨rfl, rfl, hd1⟩
  · rintro ⟨a, b, c⟩ ⟨a', b', c'⟩ ⟨e1, e2, hc⟩
    simp only at hc
    simp only [hc.log]
    refine sim_forRange hc fun i s t hst => ?_
    refine sim_bind (sim_ite (update_sim h hst _) (sim_ok hst)) fun s s' hs => ?_
    exact sim_ite (update_sim h hs _) (sim_ok hs)

/-- Outer state of the searches. -/
def SR (RS : S → S' → Prop) (a : Nat × S) (b : Nat × S') : Prop := a.1 = b.1 ∧ RS a.2 b.2

theorem maxRight_sim (h : OpsSim p q RS RF A B) (ht : TR RS RF t t') (l : Nat) {g : S → Bool} {g' : S' → Bool}
    (hg : ∀ x x', RS x x' → g x = g' x') :
    Sim p q (fun o o' => TR RS RF o.1 o'.1 ∧ o.2 = o'.2) (t.maxRight A l g) (t'.maxRight B l g') := by
  unfold LazySegtree.maxRight
  simp only [ht.n, ht.size, hg _ _ h.e]
  refine sim_assert fun _ => sim_assert fun _ => sim_ite (sim_ok ⟨ht, rfl⟩) ?_
  refine sim_bind (pushPath_sim h ht _) fun t1 t1' h1 => ?_
  simp only [h1.size]
  refine sim_loop (Q := SR RS) ⟨rfl, h.e⟩ ?_
  rintro ⟨a, s⟩ ⟨a', s'⟩ ⟨e1, hs⟩
  simp only at e1 hs
  subst e1
  refine sim_bind sim_refl ?_
  rintro a _ rfl
  refine sim_bind (sim_idx h1.d _) fun x x' hx => sim_bind (h.op _ _ _ _ hs hx) fun y y' hy => ?_
  rw [hg _ _ hy]
  refine sim_ite ?_ ?_
  · refine sim_bind (Q := fun a b => a.1 = b.1 ∧ RS a.2.1 b.2.1 ∧ TR RS RF a.2.2 b.2.2)
      (sim_while ⟨rfl, hs, h1⟩ ?_ ?_) ?_
    · rintro ⟨a, b, c⟩ ⟨a', b', c'⟩ ⟨e1, hb, hc⟩
      simp only at e1 hc
      subst e1
      simp only [hc.size]
      exact sim_refl
    · rintro ⟨a, b, c⟩ ⟨a', b', c'⟩ ⟨e1, hb, hc⟩
      simp only at e1 hb hc
      subst e1
      refine sim_bind (push_sim h hc _) fun t2 t2' h2 => sim_bind (sim_idx h2.d _) fun x x' hx =>
        sim_bind (h.op _ _ _ _ hb hx) fun y y' hy => ?_
      rw [hg _ _ hy]
      exact sim_ite (sim_ok ⟨rfl, hy, h2⟩) (sim_ok ⟨rfl, hb, h2⟩)
    · rintro ⟨a, b, c⟩ ⟨a', b', c'⟩ ⟨e1, hb, hc⟩
      simp only at e1 hc
      subst e1
      simp only [hc.size]
      refine sim_bind sim_refl ?_
      rintro r _ rfl
      exact sim_ok ⟨hc, rfl⟩
  · refine sim_bind (sim_idx h1.d _) fun x x' hx => sim_bind (h.op _ _ _ _ hs hx) fun y y' hy => ?_
    refine sim_ite (sim_ok ⟨h1, h1.n⟩) (sim_ok ⟨rfl, hy⟩)

theorem minLeft_sim (h : OpsSim p q RS RF A B) (ht : TR RS RF t t') (r : Nat) {g : S → Bool} {g' : S' → Bool}
    (hg : ∀ x x', RS x x' → g x = g' x') :
    Sim p q (fun o o' => TR RS RF o.1 o'.1 ∧ o.2 = o'.2) (t.minLeft A r g) (t'.minLeft B r g') := by
  unfold LazySegtree.minLeft
  simp only [ht.n, ht.size, hg _ _ h.e]
  refine sim_assert fun _ => sim_assert fun _ => sim_ite (sim_ok ⟨ht, rfl⟩) ?_
  refine sim_bind (pushPath_sim h ht _) fun t1 t1' h1 => ?_
  simp only [h1.size]
  refine sim_loop (Q := SR RS) ⟨rfl, h.e⟩ ?_
  rintro ⟨a, s⟩ ⟨a', s'⟩ ⟨e1, hs⟩
  simp only at e1 hs
  subst e1
  refine sim_bind sim_refl ?_
  rintro a _ rfl
  refine sim_bind sim_refl ?_
  rintro a _ rfl
  refine sim_bind (sim_idx h1.d _) fun x x' hx => sim_bind (h.op _ _ _ _ hx hs) fun y y' hy => ?_
  rw [hg _ _ hy]
  refine sim_ite ?_ ?_
  · refine sim_bind (Q := fun a b => a.1 = b.1 ∧ RS a.2.1 b.2.1 ∧ TR RS RF a.2.2 b.2.2)
      (sim_while ⟨rfl, hs, h1⟩ ?_ ?_) ?_
    · rintro ⟨a, b, c⟩ ⟨a', b', c'⟩ ⟨e1, hb, hc⟩
      simp only at e1 hc
      subst e1
      simp only [hc.size]
      exact sim_refl
    · rintro ⟨a, b, c⟩ ⟨a', b', c'⟩ ⟨e1, hb, hc⟩
      simp only at e1 hb hc
      subst e1
      refine sim_bind (push_sim h hc _) fun t2 t2' h2 => sim_bind (sim_idx h2.d _) fun x x' hx =>
        sim_bind (h.op _ _ _ _ hx hb) fun y y' hy => ?_
      rw [hg _ _ hy]
      refine sim_ite ?_ (sim_ok ⟨rfl, hb, h2⟩)
      refine sim_bind sim_refl ?_
      rintro r _ rfl
      exact sim_ok ⟨rfl, hy, h2⟩
    · rintro ⟨a, b, c⟩ ⟨a', b', c'⟩ ⟨e1, hb, hc⟩
      simp only at e1 hc
      subst e1
      simp only [hc.size]
      refine sim_bind sim_refl ?_
      rintro r _ rfl
      exact sim_ok ⟨hc, rfl⟩
  · refine sim_bind (sim_idx h1.d _) fun x x' hx => sim_bind (h.op _ _ _ _ hx hs) fun y y' hy => ?_
    exact sim_ite (sim_ok ⟨h1, rfl⟩) (sim_ok ⟨rfl, hy⟩)

end Verif.LazySim
