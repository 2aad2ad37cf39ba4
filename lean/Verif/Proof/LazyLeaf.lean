import Mathlib.Algebra.FreeMonoid.Basic
import Verif.Spec.LazyLeaf
import Verif.Proof.LazySim
import Verif.Proof.LazySearch
import Verif.Prelude.SatOr
/-! The lazy segment tree next to one over words: the same control flow, and the leaves hold one-letter words. -/
namespace Verif.LeafP
open Res Model Spec LazyP
open SegP (leaf)

variable {S F : Type} {R : MapMonoidOps S F} {act : F → S → S}

/-- Words, with the maps acting letter by letter. -/
def wordOps (R : MapMonoidOps S F) (act : F → S → S) : MapOps (FreeMonoid S) F where
  e := 1
  op := (· * ·)
  idMap := R.idMap
  mapping f := FreeMonoid.map (act f)
  comp f g := match R.comp f g with
    | .ok h => h
    | _ => f

theorem comp_eq (h : ActsOnElements R act) (f g : F) :
    R.comp f g = ok ((wordOps R act).comp f g) ∧ ∀ x, act ((wordOps R act).comp f g) x = act f (act g x) := by
  obtain ⟨c, e, hc⟩ := h.comp f g
  have : (wordOps R act).comp f g = c := by simp [wordOps, e]
  rw [this]
  exact ⟨e, hc⟩

theorem word_lawful (h : ActsOnElements R act) : LawfulMap (wordOps R act) where
  e_eq := rfl
  op_eq _ _ := rfl
  id_map x := by
    have : act R.idMap = id := funext h.idMap
    show FreeMonoid.map (act R.idMap) x = x
    rw [this]; simp
  comp_map f g x := by
    have : act ((wordOps R act).comp f g) = act f ∘ act g := funext (comp_eq h f g).2
    show FreeMonoid.map (act ((wordOps R act).comp f g)) x = FreeMonoid.map (act f) (FreeMonoid.map (act g) x)
    rw [this, FreeMonoid.map_comp]; rfl
  map_op f x y := map_mul _ _ _

/-- The leaves agree. -/
structure LT (t : LazySegtree S F) (t' : LazySegtree (FreeMonoid S) F) : Prop where
  n : t.n = t'.n
  size : t.size = t'.size
  log : t.log = t'.log
  lz : t.lz = t'.lz
  dlen : t.d.length = t'.d.length
  leaf : ∀ i x, t.size ≤ i → i < t.size + t.n → t.d[i]? = some x → t'.d[i]? = some (FreeMonoid.of x)

variable {p : Prop} {t : LazySegtree S F} {t' : LazySegtree (FreeMonoid S) F}

theorem LT.set (h : LT t t') {k : Nat} {y : S} {y' : FreeMonoid S}
    (hy : t.size ≤ k → k < t.size + t.n → y' = FreeMonoid.of y) :
    LT { t with d := t.d.set k y } { t' with d := t'.d.set k y' } := by
  refine ⟨h.n, h.size, h.log, h.lz, by simp [h.dlen], fun i x h1 h2 e => ?_⟩
  simp only at h1 h2 e ⊢
  by_cases hk : k = i
  · subst hk
    have hlt : k < t.d.length := by simpa using (List.getElem?_eq_some_iff.1 e).1
    rw [List.getElem?_set_self hlt] at e
    cases e
    rw [List.getElem?_set_self (h.dlen ▸ hlt), hy h1 h2]
  · rw [List.getElem?_set_ne hk] at e ⊢
    exact h.leaf i x h1 h2 e

theorem upd_lt (h : LT t t') {k : Nat} {y : S} {y' : FreeMonoid S}
    (hy : t.size ≤ k → k < t.size + t.n → y' = FreeMonoid.of y) :
    Sim p False (fun d d' => LT { t with d := d } { t' with d := d' }) (upd t.d k y) (upd t'.d k y') := by
  by_cases hk : k < t.d.length
  · rw [upd_of_lt hk, upd_of_lt (h.dlen ▸ hk)]
    exact sim_ok (h.set hy)
  · rw [upd_panic (by omega), upd_panic (by rw [← h.dlen]; omega)]
    exact sim_panic

theorem idx_lt (h : LT t t') (k : Nat) :
    Sim p False (fun x x' => t.size ≤ k → k < t.size + t.n → x' = FreeMonoid.of x) (idx t.d k) (idx t'.d k) := by
  by_cases hk : k < t.d.length
  · rw [idx_of_lt hk, idx_of_lt (h.dlen ▸ hk)]
    refine sim_ok fun h1 h2 => ?_
    have := h.leaf k _ h1 h2 (List.getElem?_eq_getElem hk)
    rw [List.getElem?_eq_getElem (h.dlen ▸ hk)] at this
    exact Option.some.inj this
  · rw [idx_panic (by omega), idx_panic (by rw [← h.dlen]; omega)]
    exact sim_panic

theorem op_lt (hR : ActsOnElements R act) (x y : S) (z : FreeMonoid S) :
    Sim (OpPanics R) False (fun _ _ => True) (R.op x y) (ok z) := by
  cases e : R.op x y with
  | ok a => exact sim_ok trivial
  | panic => exact .inl ⟨⟨x, y, e⟩, rfl⟩
  | diverge => exact absurd e (hR.op x y)

/-- The two runs keep the dimensions of the tree. -/
def LTn (n N L : Nat) (t : LazySegtree S F) (t' : LazySegtree (FreeMonoid S) F) : Prop :=
  LT t t' ∧ t.n = n ∧ t.size = N ∧ t.log = L

variable {n N L : Nat}

theorem update_ltn (hR : ActsOnElements R act) (h : LTn n N L t t') {k : Nat} (hk : k < N) :
    Sim (OpPanics R) False (LTn n N L) (t.update R k) (t'.update (wordOps R act).ops k) := by
  obtain ⟨h, rfl, rfl, rfl⟩ := h
  refine sim_bind (idx_lt h _) fun x x' _ => sim_bind (idx_lt h _) fun y y' _ =>
    sim_bind (op_lt hR x y _) fun s s' _ => sim_bind (upd_lt h (fun h1 => by omega)) fun d d' hd => sim_ok ⟨hd, rfl, rfl, rfl⟩

theorem allApply_ltn (hR : ActsOnElements R act) (h : LTn n N L t t') (k : Nat) (f : F) :
    Sim (OpPanics R) False (LTn n N L) (t.allApply R k f) (t'.allApply (wordOps R act).ops k f) := by
  obtain ⟨h, rfl, rfl, rfl⟩ := h
  unfold LazySegtree.allApply
  refine sim_bind (idx_lt h k) fun x x' hx => ?_
  rw [hR.mapping, ok_bind, MapOps.ops_mapping, ok_bind]
  refine sim_bind (upd_lt h (y := act f x) (fun h1 h2 => ?_)) fun d d' hd => ?_
  · rw [hx h1 h2]; simp [wordOps]
  simp only [← h.size, ← h.lz]
  refine sim_ite ?_ (sim_ok ⟨⟨h.n, rfl, h.log, rfl, hd.dlen, hd.leaf⟩, rfl, rfl, rfl⟩)
  refine sim_bind sim_refl ?_
  rintro z _ rfl
  rw [(comp_eq hR f z).1, ok_bind, ok_bind]
  refine sim_bind sim_refl ?_
  rintro l _ rfl
  exact sim_ok ⟨⟨h.n, rfl, h.log, rfl, hd.dlen, hd.leaf⟩, rfl, rfl, rfl⟩

theorem push_ltn (hR : ActsOnElements R act) (h : LTn n N L t t') (k : Nat) :
    Sim (OpPanics R) False (LTn n N L) (t.push R k) (t'.push (wordOps R act).ops k) := by
  unfold LazySegtree.push
  rw [h.1.lz]
  refine sim_bind sim_refl ?_
  rintro z _ rfl
  refine sim_bind (allApply_ltn hR h _ _) fun t1 t1' h1 => ?_
  rw [h1.1.lz]
  refine sim_bind sim_refl ?_
  rintro y _ rfl
  refine sim_bind (allApply_ltn hR h1 _ _) fun t2 t2' h2 => ?_
  rw [h2.1.lz]
  refine sim_bind sim_refl ?_
  rintro l _ rfl
  exact sim_ok ⟨⟨h2.1.n, h2.1.size, h2.1.log, rfl, h2.1.dlen, h2.1.leaf⟩, h2.2⟩

theorem pushPath_ltn (hR : ActsOnElements R act) (h : LTn n N L t t') (k : Nat) :
    Sim (OpPanics R) False (LTn n N L) (t.pushPath R k) (t'.pushPath (wordOps R act).ops k) := by
  unfold LazySegtree.pushPath
  rw [h.1.log]
  exact sim_forRangeRev h fun i s t hst => push_ltn hR hst _

theorem updatePath_ltn (hR : ActsOnElements R act) (h : LTn n N L t t') {k : Nat} (hk : k < 2 * N) :
    Sim (OpPanics R) False (LTn n N L) (t.updatePath R k) (t'.updatePath (wordOps R act).ops k) := by
  unfold LazySegtree.updatePath
  rw [h.1.log]
  refine sim_forRangeI (Q := fun _ => LTn n N L) (by omega) h fun i s t h1 _ hst => update_ltn hR hst ?_
  rw [Nat.shiftRight_eq_div_pow]
  refine Nat.div_lt_of_lt_mul (hk.trans_le (Nat.mul_le_mul_right _ ?_))
  calc 2 = 2 ^ 1 := rfl
    _ ≤ 2 ^ i := Nat.pow_le_pow_right (by omega) h1

theorem get_ltn (hR : ActsOnElements R act) (h : LTn n N L t t') (k : Nat) :
    Sim (OpPanics R) False (fun o o' => LTn n N L o.1 o'.1 ∧ o'.2 = FreeMonoid.of o.2) (t.get R k)
      (t'.get (wordOps R act).ops k) := by
  unfold LazySegtree.get
  simp only [← h.1.n, ← h.1.size]
  refine sim_assert fun hk => sim_bind (pushPath_ltn hR h _) fun t1 t1' h1 => ?_
  refine sim_bind (idx_lt h1.1 _) fun x x' hx => sim_ok ⟨h1, hx ?_ ?_⟩
  · rw [h1.2.2.1, h.2.2.1]; omega
  · rw [h1.2.2.1, h.2.2.1, h1.2.1, ← h.2.1]; omega

theorem set_ltn (hR : ActsOnElements R act) (h : LTn n N L t t') (hn : n ≤ N) (k : Nat) (x : S) :
    Sim (OpPanics R) False (LTn n N L) (t.set R k x) (t'.set (wordOps R act).ops k (FreeMonoid.of x)) := by
  unfold LazySegtree.set
  simp only [← h.1.n, ← h.1.size]
  refine sim_assert fun hk => sim_bind (pushPath_ltn hR h _) fun t1 t1' h1 => ?_
  refine sim_bind (upd_lt h1.1 fun _ _ => rfl) fun d d' hd => updatePath_ltn hR ⟨hd, h1.2⟩ ?_
  rw [h.2.2.1]; rw [h.2.1] at hk; omega

theorem apply_ltn (hR : ActsOnElements R act) (h : LTn n N L t t') (hn : n ≤ N) (k : Nat) (f : F) :
    Sim (OpPanics R) False (LTn n N L) (t.apply R k f) (t'.apply (wordOps R act).ops k f) := by
  unfold LazySegtree.apply
  simp only [← h.1.n, ← h.1.size]
  refine sim_assert fun hk => sim_bind (pushPath_ltn hR h _) fun t1 t1' h1 => ?_
  refine sim_bind (idx_lt h1.1 _) fun x x' hx => ?_
  rw [hR.mapping, ok_bind, ok_bind]
  refine sim_bind (upd_lt h1.1 fun a b => ?_) fun d d' hd => updatePath_ltn hR ⟨hd, h1.2⟩ ?_
  · rw [hx a b]; simp [wordOps]
  · rw [h.2.2.1]; rw [h.2.1] at hk; omega

theorem from_ltn (hR : ActsOnElements R act) (v : List S) :
    Sim (OpPanics R) False LT (LazySegtree.from R v) (LazySegtree.from (wordOps R act).ops (v.map FreeMonoid.of)) := by
  unfold LazySegtree.from
  simp only [List.length_map]
  refine sim_bind sim_refl ?_
  rintro L _ rfl
  have hp : 0 < 1 <<< L := by rw [Nat.one_shiftLeft]; exact Nat.two_pow_pos L
  refine sim_bind (Q := fun d d' => LT (⟨v.length, 1 <<< L, L, d, List.replicate (1 <<< L) R.idMap⟩ : LazySegtree S F)
    ⟨v.length, 1 <<< L, L, d', List.replicate (1 <<< L) R.idMap⟩) ?_ fun d d' hd => ?_
  · unfold writeSlice
    simp only [List.length_replicate, List.length_map]
    by_cases hl : 1 <<< L + v.length ≤ 2 * 1 <<< L
    · rw [if_pos hl, if_pos hl]
      refine sim_ok ⟨rfl, rfl, rfl, rfl, by simp, fun i x h1 h2 e => ?_⟩
      simp only at h1 h2
      have hi : i - min (1 <<< L) (2 * 1 <<< L) < v.length := by omega
      simp only [List.append_assoc, List.getElem?_append, List.length_take, List.length_replicate, List.length_map] at e ⊢
      rw [if_neg (by omega), if_pos hi] at e ⊢
      rw [Nat.min_eq_left (by omega)] at e ⊢
      rw [List.getElem?_map, e]; rfl
    · rw [if_neg hl, if_neg hl]; exact sim_panic
  · refine Sim.mono (sim_forRangeRevI (Q := fun _ => LTn v.length (1 <<< L) L) (by omega) ⟨hd, rfl, rfl, rfl⟩
      fun i s t h1 h2 hst => update_ltn hR hst h2) fun a b h => h.1

theorem pushes_ltn (hR : ActsOnElements R act) (h : LTn n N L t t') (l r : Nat) (k : Nat → Nat) :
    Sim (OpPanics R) False (LTn n N L)
      (forRangeRev 1 (L + 1) t fun i t => do
        let t ← (if (l >>> i) <<< i ≠ l then t.push R (l >>> i) else ok t : Res (LazySegtree S F))
        (if (r >>> i) <<< i ≠ r then t.push R (k i) else ok t : Res (LazySegtree S F)))
      (forRangeRev 1 (L + 1) t' fun i t => do
        let t ← (if (l >>> i) <<< i ≠ l then t.push (wordOps R act).ops (l >>> i) else ok t : Res (LazySegtree _ F))
        (if (r >>> i) <<< i ≠ r then t.push (wordOps R act).ops (k i) else ok t : Res (LazySegtree _ F))) := by
  refine sim_forRangeRev h fun i s t hst => ?_
  refine sim_bind (sim_ite (push_ltn hR hst _) (sim_ok hst)) fun s s' hs => ?_
  exact sim_ite (push_ltn hR hs _) (sim_ok hs)

theorem prod_ltn (hR : ActsOnElements R act) (h : LTn n N L t t') (l r : Nat) :
    Sim (OpPanics R) False (fun o o' => LTn n N L o.1 o'.1) (t.prod R l r) (t'.prod (wordOps R act).ops l r) := by
  unfold LazySegtree.prod
  simp only [← h.1.n, ← h.1.size, ← h.1.log]
  refine sim_assert fun _ => sim_ite (sim_ok h) ?_
  rw [h.2.2.2]
  refine sim_bind (pushes_ltn hR h _ _ _) fun t1 t1' h1 => ?_
  refine sim_bind (Q := fun a b => a.1 = b.1 ∧ a.2.1 = b.2.1) (sim_while ⟨rfl, rfl⟩ ?_ ?_) ?_
  · rintro ⟨a, b, c, d⟩ ⟨a', b', c', d'⟩ ⟨e1, e2⟩
    simp only at e1 e2
    subst e1; subst e2
    exact sim_refl
  · rintro ⟨a, b, c, d⟩ ⟨a', b', c', d'⟩ ⟨e1, e2⟩
    simp only at e1 e2
    subst e1; subst e2
    refine sim_bind (Q := fun a b => a.1 = b.1) (sim_ite ?_ (sim_ok rfl)) ?_
    · exact sim_bind (idx_lt h1.1 _) fun x x' hx => sim_bind (op_lt hR _ _ _) fun y y' hy => sim_ok rfl
    rintro ⟨l1, c1⟩ ⟨l1', c1'⟩ e1
    simp only at e1
    subst e1
    refine sim_bind (Q := fun a b => a.1 = b.1) (sim_ite ?_ (sim_ok rfl)) ?_
    · exact sim_bind (idx_lt h1.1 _) fun x x' hx => sim_bind (op_lt hR _ _ _) fun y y' hy => sim_ok rfl
    rintro ⟨r1, d1⟩ ⟨r1', d1'⟩ e1
    simp only at e1
    subst e1
    exact sim_ok ⟨rfl, rfl⟩
  · rintro ⟨a, b, c, d⟩ ⟨a', b', c', d'⟩ ⟨e1, e2⟩
    exact sim_bind (op_lt hR _ _ _) fun s s' hs => sim_ok h1

theorem applyRange_ltn (hR : ActsOnElements R act) (h : LTn n N L t t') (hn : n ≤ N) (l r : Nat) (f : F) :
    Sim (OpPanics R) False (LTn n N L) (t.applyRange R l r f) (t'.applyRange (wordOps R act).ops l r f) := by
  unfold LazySegtree.applyRange
  simp only [← h.1.n, ← h.1.size, ← h.1.log]
  refine sim_assert fun hlr => ?_
  by_cases hne : l = r
  · rw [if_pos hne, if_pos hne]; exact sim_ok h
  rw [if_neg hne, if_neg hne]
  rw [h.2.2.2]
  refine sim_bind (pushes_ltn hR h _ _ _) fun t1 t1' h1 => ?_
  refine sim_bind (Q := fun a b => a.1 = b.1 ∧ a.2.1 = b.2.1 ∧ LTn n N L a.2.2 b.2.2) (sim_while ⟨rfl, rfl, h1⟩ ?_ ?_) ?_
  · rintro ⟨a, b, c⟩ ⟨a', b', c'⟩ ⟨e1, e2, hc⟩
    simp only at e1 e2
    subst e1; subst e2
    exact sim_refl
  · rintro ⟨a, b, c⟩ ⟨a', b', c'⟩ ⟨e1, e2, hc⟩
    simp only at e1 e2 hc
    subst e1; subst e2
    refine sim_bind (Q := fun a b => a.1 = b.1 ∧ LTn n N L a.2 b.2) (sim_ite ?_ (sim_ok ⟨rfl, hc⟩)) ?_
    · exact sim_bind (allApply_ltn hR hc _ _) fun y y' hy => sim_ok ⟨rfl, hy⟩
    rintro ⟨l1, c1⟩ ⟨l1', c1'⟩ ⟨e1, hc1⟩
    simp only at e1 hc1
    subst e1
    refine sim_bind (Q := fun a b => a.1 = b.1 ∧ LTn n N L a.2 b.2) (sim_ite ?_ (sim_ok ⟨rfl, hc1⟩)) ?_
    · exact sim_bind (allApply_ltn hR hc1 _ _) fun y y' hy => sim_ok ⟨rfl, hy⟩
    rintro ⟨r1, d1⟩ ⟨r1', d1'⟩ ⟨e1, hd1⟩
    simp only at e1 hd1
    subst e1
    exact sim_ok ⟨rfl, rfl, hd1⟩
  · rintro ⟨a, b, c⟩ ⟨a', b', c'⟩ ⟨e1, e2, hc⟩
    simp only at hc
    simp only [← hc.1.log, h.2.2.1]
    rw [h.2.1] at hlr
    refine sim_forRangeI (Q := fun _ => LTn n N L) (by omega) hc fun i s t hi _ hst => ?_
    have hsh : ∀ k, k < 2 * N → k >>> i < N := by
      intro k hk
      rw [Nat.shiftRight_eq_div_pow]
      refine Nat.div_lt_of_lt_mul (hk.trans_le (Nat.mul_le_mul_right _ ?_))
      calc 2 = 2 ^ 1 := rfl
        _ ≤ 2 ^ i := Nat.pow_le_pow_right (by omega) hi
    refine sim_bind (Q := LTn n N L) ?_ fun s s' hs => ?_
    · exact sim_ite (update_ltn hR hst (hsh _ (by omega))) (sim_ok hst)
    · exact sim_ite (update_ltn hR hs (hsh _ (by omega))) (sim_ok hs)

end Verif.LeafP
