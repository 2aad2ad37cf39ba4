import Verif.Proof.LazySim
/-! The heavy-light decomposition on related operations. -/
namespace Verif.LazySim
open Res Model

variable {p q : Prop} {S S' F F' : Type} {RS : S → S' → Prop} {RF : F → F' → Prop}
  {A : MapMonoidOps S F} {B : MapMonoidOps S' F'}

/-- Related decompositions: the same arrays, related values. -/
structure HR (RS : S → S' → Prop) (RF : F → F' → Prop) (h : HLD S F) (h' : HLD S' F') : Prop where
  data : TR RS RF h.data h'.data
  arr : h.arr = h'.arr

namespace H

theorem new_sim (o : OpsSim p q RS RF A B) (g : List (List Nat)) (root : Nat) :
    Sim p q (HR RS RF) (HLD.new A g root) (HLD.new B g root) := by
  unfold HLD.new
  refine sim_assert fun _ => sim_bind (LazySim.new_sim o _) fun d d' hd => ?_
  refine sim_bind sim_refl ?_
  rintro x _ rfl
  refine sim_bind sim_refl ?_
  rintro ⟨x, _⟩ _ rfl
  refine sim_bind sim_refl ?_
  rintro ⟨y, _⟩ _ rfl
  exact sim_ok ⟨hd, rfl⟩

theorem withInitValue_sim (o : OpsSim p q RS RF A B) (g : List (List Nat)) (root : Nat) {v : List S}
    {v' : List S'} (hv : ListRel RS v v') :
    Sim p q (HR RS RF) (HLD.withInitValue A g root v) (HLD.withInitValue B g root v') := by
  unfold HLD.withInitValue
  simp only [hv.1]
  refine sim_assert fun _ => sim_bind (new_sim o g root) fun h h' hh => ?_
  refine sim_bind (Q := ListRel RS) (sim_forRange hv fun i s t hst => ?_) fun a a' ha => ?_
  · refine sim_bind (sim_idx hv _) fun x x' hx => ?_
    rw [hh.arr]
    refine sim_bind sim_refl ?_
    rintro k _ rfl
    exact sim_upd hst _ hx
  · exact sim_bind (from_sim o ha) fun d d' hd => sim_ok ⟨hd, hh.arr⟩

variable {h : HLD S F} {h' : HLD S' F'}

theorem applyPath_sim (o : OpsSim p q RS RF A B) (hh : HR RS RF h h') (u v : Nat) {f : F} {f' : F'}
    (hf : RF f f') : Sim p q (HR RS RF) (h.applyPath A u v f) (h'.applyPath B u v f') := by
  unfold HLD.applyPath
  simp only [hh.arr]
  refine sim_bind (Q := fun a b => TR RS RF a.1 b.1 ∧ a.2 = b.2) (sim_while ⟨hh.data, rfl⟩ ?_ ?_) ?_
  · rintro ⟨a, u, v⟩ ⟨a', u', v'⟩ ⟨ha, e⟩
    cases e
    exact sim_refl
  · rintro ⟨a, u, v⟩ ⟨a', u', v'⟩ ⟨ha, e⟩
    cases e
    refine sim_bind sim_refl ?_
    rintro hu _ rfl
    refine sim_bind sim_refl ?_
    rintro du _ rfl
    refine sim_bind sim_refl ?_
    rintro hv _ rfl
    refine sim_bind sim_refl ?_
    rintro dv _ rfl
    simp only
    refine sim_bind sim_refl ?_
    rintro hu _ rfl
    refine sim_bind sim_refl ?_
    rintro l _ rfl
    refine sim_bind sim_refl ?_
    rintro r _ rfl
    refine sim_bind (applyRange_sim o ha _ _ hf) fun d d' hd => ?_
    refine sim_bind sim_refl ?_
    rintro u _ rfl
    exact sim_ok ⟨hd, rfl⟩
  · rintro ⟨a, u, v⟩ ⟨a', u', v'⟩ ⟨ha, e⟩
    cases e
    refine sim_bind sim_refl ?_
    rintro pu _ rfl
    refine sim_bind sim_refl ?_
    rintro pv _ rfl
    simp only
    refine sim_bind sim_refl ?_
    rintro l _ rfl
    refine sim_bind sim_refl ?_
    rintro r _ rfl
    exact sim_bind (applyRange_sim o ha _ _ hf) fun d d' hd => sim_ok ⟨hd, rfl⟩

theorem pathProd_sim (o : OpsSim p q RS RF A B) (hh : HR RS RF h h') (u v : Nat) :
    Sim p q (fun o o' => HR RS RF o.1 o'.1 ∧ RS o.2 o'.2) (h.pathProd A u v) (h'.pathProd B u v) := by
  unfold HLD.pathProd
  simp only [hh.arr]
  refine sim_bind (Q := fun a b => TR RS RF a.1 b.1 ∧ RS a.2.1 b.2.1 ∧ a.2.2 = b.2.2)
    (sim_while ⟨hh.data, o.e, rfl⟩ ?_ ?_) ?_
  · rintro ⟨a, s, u, v⟩ ⟨a', s', u', v'⟩ ⟨ha, hs, e⟩
    cases e
    exact sim_refl
  · rintro ⟨a, s, u, v⟩ ⟨a', s', u', v'⟩ ⟨ha, hs, e⟩
    cases e
    refine sim_bind sim_refl ?_
    rintro hu _ rfl
    refine sim_bind sim_refl ?_
    rintro du _ rfl
    refine sim_bind sim_refl ?_
    rintro hv _ rfl
    refine sim_bind sim_refl ?_
    rintro dv _ rfl
    simp only
    refine sim_bind sim_refl ?_
    rintro hu _ rfl
    refine sim_bind sim_refl ?_
    rintro l _ rfl
    refine sim_bind sim_refl ?_
    rintro r _ rfl
    refine sim_bind (prod_sim o ha _ _) ?_
    rintro ⟨d, x⟩ ⟨d', x'⟩ ⟨hd, hx⟩
    refine sim_bind (o.op _ _ _ _ hs hx) ?_
    intro y y' hy
    refine sim_bind sim_refl ?_
    rintro u _ rfl
    exact sim_ok ⟨hd, hy, rfl⟩
  · rintro ⟨a, s, u, v⟩ ⟨a', s', u', v'⟩ ⟨ha, hs, e⟩
    cases e
    refine sim_bind sim_refl ?_
    rintro pu _ rfl
    refine sim_bind sim_refl ?_
    rintro pv _ rfl
    simp only
    refine sim_bind sim_refl ?_
    rintro l _ rfl
    refine sim_bind sim_refl ?_
    rintro r _ rfl
    refine sim_bind (prod_sim o ha _ _) ?_
    rintro ⟨d, x⟩ ⟨d', x'⟩ ⟨hd, hx⟩
    exact sim_bind (o.op _ _ _ _ hs hx) fun y y' hy => sim_ok ⟨⟨hd, rfl⟩, hy⟩

theorem applySubtree_sim (o : OpsSim p q RS RF A B) (hh : HR RS RF h h') (u : Nat) {f : F} {f' : F'}
    (hf : RF f f') : Sim p q (HR RS RF) (h.applySubtree A u f) (h'.applySubtree B u f') := by
  unfold HLD.applySubtree
  simp only [hh.arr]
  refine sim_bind sim_refl ?_
  rintro l _ rfl
  refine sim_bind sim_refl ?_
  rintro r _ rfl
  exact sim_bind (applyRange_sim o hh.data _ _ hf) fun d d' hd => sim_ok ⟨hd, rfl⟩

theorem subtreeProd_sim (o : OpsSim p q RS RF A B) (hh : HR RS RF h h') (u : Nat) :
    Sim p q (fun o o' => HR RS RF o.1 o'.1 ∧ RS o.2 o'.2) (h.subtreeProd A u) (h'.subtreeProd B u) := by
  unfold HLD.subtreeProd
  simp only [hh.arr]
  refine sim_bind sim_refl ?_
  rintro l _ rfl
  refine sim_bind sim_refl ?_
  rintro r _ rfl
  refine sim_bind (prod_sim o hh.data _ _) ?_
  rintro ⟨d, x⟩ ⟨d', x'⟩ ⟨hd, hx⟩
  exact sim_ok ⟨⟨hd, rfl⟩, hx⟩

theorem get_sim (o : OpsSim p q RS RF A B) (hh : HR RS RF h h') (u : Nat) :
    Sim p q (fun o o' => HR RS RF o.1 o'.1 ∧ RS o.2 o'.2) (h.get A u) (h'.get B u) := by
  unfold HLD.get
  simp only [hh.arr]
  refine sim_bind sim_refl ?_
  rintro k _ rfl
  refine sim_bind (LazySim.get_sim o hh.data _) ?_
  rintro ⟨d, x⟩ ⟨d', x'⟩ ⟨hd, hx⟩
  exact sim_ok ⟨⟨hd, rfl⟩, hx⟩

theorem set_sim (o : OpsSim p q RS RF A B) (hh : HR RS RF h h') (u : Nat) {x : S} {x' : S'} (hx : RS x x') :
    Sim p q (HR RS RF) (h.set A u x) (h'.set B u x') := by
  unfold HLD.set
  simp only [hh.arr]
  refine sim_bind sim_refl ?_
  rintro k _ rfl
  exact sim_bind (LazySim.set_sim o hh.data _ hx) fun d d' hd => sim_ok ⟨hd, rfl⟩

end H
end Verif.LazySim
