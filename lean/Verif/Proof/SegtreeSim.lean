import Verif.Proof.LazySim
import Verif.Model.Segtree
/-! The segment tree on related operations: same control flow, related values. -/
namespace Verif.SegSim
open Res Model
open LazySim (writeSlice_sim SR)

variable {p q : Prop} {S S' : Type} {RS : S → S' → Prop}

/-- Related implementations. -/
structure OpSim (p q : Prop) (RS : S → S' → Prop) (A : MonoidOps S) (B : MonoidOps S') : Prop where
  e : RS A.e B.e
  op : ∀ a b a' b', RS a a' → RS b b' → Sim p q RS (A.op a b) (B.op a' b')

/-- Related trees. -/
structure TS (RS : S → S' → Prop) (t : Segtree S) (t' : Segtree S') : Prop where
  n : t.n = t'.n
  size : t.size = t'.size
  log : t.log = t'.log
  d : ListRel RS t.d t'.d

variable {A : MonoidOps S} {B : MonoidOps S'} {t : Segtree S} {t' : Segtree S'}

theorem update_sim (h : OpSim p q RS A B) (ht : TS RS t t') (k : Nat) :
    Sim p q (TS RS) (t.update A k) (t'.update B k) := by
  refine sim_bind (sim_idx ht.d _) fun x x' hx => sim_bind (sim_idx ht.d _) fun y y' hy =>
    sim_bind (h.op _ _ _ _ hx hy) fun s s' hs => sim_bind (sim_upd ht.d _ hs) fun d d' hd => sim_ok ?_
  exact ⟨ht.n, ht.size, ht.log, hd⟩

theorem from_sim (h : OpSim p q RS A B) {v : List S} {v' : List S'} (hv : ListRel RS v v') :
    Sim p q (TS RS) (Segtree.from A v) (Segtree.from B v') := by
  unfold Segtree.from
  simp only [hv.1]
  refine sim_bind sim_refl ?_
  rintro L _ rfl
  refine sim_bind (writeSlice_sim (ListRel.replicate h.e _) hv _) fun d d' hd => ?_
  exact sim_forRangeRev ⟨rfl, rfl, rfl, hd⟩ fun i s t hst => update_sim h hst i

theorem set_sim (h : OpSim p q RS A B) (ht : TS RS t t') (k : Nat) {x : S} {x' : S'} (hx : RS x x') :
    Sim p q (TS RS) (t.set A k x) (t'.set B k x') := by
  unfold Segtree.set
  simp only [ht.n, ht.size, ht.log]
  refine sim_assert fun _ => sim_bind (sim_upd ht.d _ hx) fun d d' hd => ?_
  exact sim_forRange ⟨rfl, rfl, rfl, hd⟩ fun i s t hst => update_sim h hst _

theorem get_sim (ht : TS RS t t') (k : Nat) : Sim p q RS (t.get k) (t'.get k) := by
  unfold Segtree.get
  simp only [ht.n, ht.size]
  exact sim_assert fun _ => sim_idx ht.d _

theorem allProd_sim (ht : TS RS t t') : Sim p q RS t.allProd t'.allProd := sim_idx ht.d _

theorem prod_sim (h : OpSim p q RS A B) (ht : TS RS t t') (l r : Nat) :
    Sim p q RS (t.prod A l r) (t'.prod B l r) := by
  unfold Segtree.prod
  simp only [ht.n, ht.size]
  refine sim_assert fun _ => ?_
  refine sim_bind (Q := fun a b => a.1 = b.1 ∧ a.2.1 = b.2.1 ∧ RS a.2.2.1 b.2.2.1 ∧ RS a.2.2.2 b.2.2.2)
    (sim_while ⟨rfl, rfl, h.e, h.e⟩ ?_ ?_) ?_
  · rintro ⟨a, b, c, d⟩ ⟨a', b', c', d'⟩ ⟨e1, e2, hc, hd⟩
    simp only at e1 e2
    subst e1; subst e2
    exact sim_refl
  · rintro ⟨a, b, c, d⟩ ⟨a', b', c', d'⟩ ⟨e1, e2, hc, hd⟩
    simp only at e1 e2 hc hd
    subst e1; subst e2
    refine sim_bind (Q := fun a b => a.1 = b.1 ∧ RS a.2 b.2) (sim_ite ?_ (sim_ok ⟨rfl, hc⟩)) ?_
    · exact sim_bind (sim_idx ht.d _) fun x x' hx => sim_bind (h.op _ _ _ _ hc hx) fun y y' hy => sim_ok ⟨rfl, hy⟩
    rintro ⟨l1, c1⟩ ⟨l1', c1'⟩ ⟨e1, hc1⟩
    simp only at e1 hc1
    subst e1
    refine sim_bind (Q := fun a b => a.1 = b.1 ∧ RS a.2 b.2) (sim_ite ?_ (sim_ok ⟨rfl, hd⟩)) ?_
    · exact sim_bind (sim_idx ht.d _) fun x x' hx => sim_bind (h.op _ _ _ _ hx hd) fun y y' hy => sim_ok ⟨rfl, hy⟩
    rintro ⟨r1, d1⟩ ⟨r1', d1'⟩ ⟨e1, hd1⟩
    simp only at e1 hd1
    subst e1
    exact sim_ok ⟨rfl, rfl, hc1, hd1⟩
  · rintro ⟨a, b, c, d⟩ ⟨a', b', c', d'⟩ ⟨e1, e2, hc, hd⟩
    exact h.op _ _ _ _ hc hd

theorem maxRight_sim (h : OpSim p q RS A B) (ht : TS RS t t') (l : Nat) {g : S → Bool} {g' : S' → Bool}
    (hg : ∀ x x', RS x x' → g x = g' x') : Sim p q Eq (t.maxRight A l g) (t'.maxRight B l g') := by
  unfold Segtree.maxRight
  simp only [ht.n, ht.size, hg _ _ h.e]
  refine sim_assert fun _ => sim_assert fun _ => sim_ite (sim_ok rfl) ?_
  refine sim_loop (Q := SR RS) ⟨rfl, h.e⟩ ?_
  rintro ⟨a, s⟩ ⟨a', s'⟩ ⟨e1, hs⟩
  simp only at e1 hs
  subst e1
  refine sim_bind sim_refl ?_
  rintro a _ rfl
  refine sim_bind (sim_idx ht.d _) fun x x' hx => sim_bind (h.op _ _ _ _ hs hx) fun y y' hy => ?_
  rw [hg _ _ hy]
  refine sim_ite ?_ ?_
  · refine sim_bind (Q := SR RS) (sim_while ⟨rfl, hs⟩ ?_ ?_) ?_
    · rintro ⟨a, b⟩ ⟨a', b'⟩ ⟨e1, hb⟩
      simp only at e1
      subst e1
      exact sim_refl
    · rintro ⟨a, b⟩ ⟨a', b'⟩ ⟨e1, hb⟩
      simp only at e1 hb
      subst e1
      refine sim_bind (sim_idx ht.d _) fun x x' hx => sim_bind (h.op _ _ _ _ hb hx) fun y y' hy => ?_
      rw [hg _ _ hy]
      exact sim_ite (sim_ok ⟨rfl, hy⟩) (sim_ok ⟨rfl, hb⟩)
    · rintro ⟨a, b⟩ ⟨a', b'⟩ ⟨e1, hb⟩
      simp only at e1
      subst e1
      refine sim_bind sim_refl ?_
      rintro r _ rfl
      exact sim_ok rfl
  · refine sim_bind (sim_idx ht.d _) fun x x' hx => sim_bind (h.op _ _ _ _ hs hx) fun y y' hy => ?_
    exact sim_ite (sim_ok ⟨rfl, hy⟩) (sim_ok rfl)

theorem minLeft_sim (h : OpSim p q RS A B) (ht : TS RS t t') (r : Nat) {g : S → Bool} {g' : S' → Bool}
    (hg : ∀ x x', RS x x' → g x = g' x') : Sim p q Eq (t.minLeft A r g) (t'.minLeft B r g') := by
  unfold Segtree.minLeft
  simp only [ht.n, ht.size, hg _ _ h.e]
  refine sim_assert fun _ => sim_assert fun _ => sim_ite (sim_ok rfl) ?_
  refine sim_loop (Q := SR RS) ⟨rfl, h.e⟩ ?_
  rintro ⟨a, s⟩ ⟨a', s'⟩ ⟨e1, hs⟩
  simp only at e1 hs
  subst e1
  refine sim_bind sim_refl ?_
  rintro a _ rfl
  refine sim_bind sim_refl ?_
  rintro a _ rfl
  refine sim_bind (sim_idx ht.d _) fun x x' hx => sim_bind (h.op _ _ _ _ hx hs) fun y y' hy => ?_
  rw [hg _ _ hy]
  refine sim_ite ?_ ?_
  · refine sim_bind (Q := SR RS) (sim_while ⟨rfl, hs⟩ ?_ ?_) ?_
    · rintro ⟨a, b⟩ ⟨a', b'⟩ ⟨e1, hb⟩
      simp only at e1
      subst e1
      exact sim_refl
    · rintro ⟨a, b⟩ ⟨a', b'⟩ ⟨e1, hb⟩
      simp only at e1 hb
      subst e1
      refine sim_bind (sim_idx ht.d _) fun x x' hx => sim_bind (h.op _ _ _ _ hx hb) fun y y' hy => ?_
      rw [hg _ _ hy]
      refine sim_ite ?_ (sim_ok ⟨rfl, hb⟩)
      refine sim_bind sim_refl ?_
      rintro r _ rfl
      exact sim_ok ⟨rfl, hy⟩
    · rintro ⟨a, b⟩ ⟨a', b'⟩ ⟨e1, hb⟩
      simp only at e1
      subst e1
      refine sim_bind sim_refl ?_
      rintro r _ rfl
      exact sim_ok rfl
  · refine sim_bind (sim_idx ht.d _) fun x x' hx => sim_bind (h.op _ _ _ _ hx hs) fun y y' hy => ?_
    exact sim_ite (sim_ok ⟨rfl, hy⟩) (sim_ok rfl)

end Verif.SegSim
