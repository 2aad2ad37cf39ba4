import Verif.Proof.Eff
import Verif.Proof.EffCount2
import Verif.Proof.CostArith
import Verif.Props.HLD
/-! C81, C82: user operations with side effects (`Verif/Spec/Eff.lean`, `Verif/Model/Eff.lean`). -/
namespace Verif.Props
open Res Model Spec EffP

variable {σ S F T U : Type}

/-! ### C81 -/

/-- C81: a Fenwick tree whose `+`, `+=`, `-` and predicates have side effects returns what it returns without them. -/
theorem C81_fenwick (add sub : T → T → σ → Res (T × σ)) (add₀ sub₀ : T → T → Res T) (h : SameValues add add₀)
    (hs : SameValues sub sub₀) (g : T → σ → Res (Bool × σ)) (g₀ : T → Bool) (hg : SameAnswers g g₀) (zero : T)
    (w : σ) :
    (∀ a, (Fenwick.fromE add zero a w >>= fun o => ok o.1) = Fenwick.from add₀ zero a) ∧
    ∀ t : Fenwick T,
      (∀ i, (t.prefE add zero i w >>= fun o => ok o.1) = t.pref add₀ zero i) ∧
      (∀ i x, (t.addAtE add i x w >>= fun o => ok o.1) = t.addAt add₀ i x) ∧
      (∀ l r, (t.sumE add sub zero l r w >>= fun o => ok o.1) = t.sum add₀ sub₀ zero l r) ∧
      (t.partitionPointE add zero g w >>= fun o => ok o.1) = t.partitionPoint add₀ zero g₀ :=
  ⟨fun a => of_fst (fenwick_from h a w), fun t => ⟨fun i => of_fst (fenwick_pref h t i w),
    fun i x => of_fst (fenwick_addAt h t i x w), fun l r => of_fst (fenwick_sum h hs t l r w),
    of_fst (fenwick_partitionPoint h hg t w)⟩⟩

/-- C81: the same for a sparse table. -/
theorem C81_sparse_table (op : T → T → σ → Res (T × σ)) (op₀ : T → T → Res T) (h : SameValues op op₀) (w : σ) :
    (∀ v init, (SparseTable.fromE v init op w >>= fun o => ok o.1) = SparseTable.from v init op₀) ∧
    ∀ (t : SparseTable T) l r, (t.getE op l r w >>= fun o => ok o.1) = t.get op₀ l r :=
  ⟨fun v init => of_fst (sparse_from h v init w), fun t l r => of_fst (sparse_get h t l r w)⟩

/-- C81: the same for a segment tree. -/
theorem C81_segtree (E : MonoidEff σ S) (M : MonoidOps S) (h : SameMonoid E M) (g : S → σ → Res (Bool × σ))
    (g₀ : S → Bool) (hg : SameAnswers g g₀) (w : σ) :
    (∀ v, (Segtree.fromE E v w >>= fun o => ok o.1) = Segtree.from M v) ∧
    ∀ t : Segtree S,
      (∀ p x, (t.setE E p x w >>= fun o => ok o.1) = t.set M p x) ∧
      (∀ l r, (t.prodE E l r w >>= fun o => ok o.1) = t.prod M l r) ∧
      (∀ l, (t.maxRightE E l g w >>= fun o => ok o.1) = t.maxRight M l g₀) ∧
      (∀ r, (t.minLeftE E r g w >>= fun o => ok o.1) = t.minLeft M r g₀) :=
  ⟨fun v => of_fst (seg_from h v w), fun t => ⟨fun p x => of_fst (seg_set h t p x w),
    fun l r => of_fst (seg_prod h t l r w), fun l => of_fst (seg_maxRight h t hg l w),
    fun r => of_fst (seg_minLeft h t hg r w)⟩⟩

/-- C81: the same for a lazy segment tree. -/
theorem C81_lazy_segtree (E : MapEff σ S F) (M : MapMonoidOps S F) (h : SameMaps E M) (g : S → σ → Res (Bool × σ))
    (g₀ : S → Bool) (hg : SameAnswers g g₀) (w : σ) :
    (∀ v, (LazySegtree.fromE E v w >>= fun o => ok o.1) = LazySegtree.from M v) ∧
    ∀ t : LazySegtree S F,
      (∀ p x, (t.setE E p x w >>= fun o => ok o.1) = t.set M p x) ∧
      (∀ p, (t.getE E p w >>= fun o => ok o.1) = t.get M p) ∧
      (∀ l r, (t.prodE E l r w >>= fun o => ok o.1) = t.prod M l r) ∧
      (∀ p f, (t.applyE E p f w >>= fun o => ok o.1) = t.apply M p f) ∧
      (∀ l r f, (t.applyRangeE E l r f w >>= fun o => ok o.1) = t.applyRange M l r f) ∧
      (∀ l, (t.maxRightE E l g w >>= fun o => ok o.1) = t.maxRight M l g₀) ∧
      (∀ r, (t.minLeftE E r g w >>= fun o => ok o.1) = t.minLeft M r g₀) :=
  ⟨fun v => of_fst (lz_from h v w), fun t => ⟨fun p x => of_fst (lz_set h t p x w),
    fun p => of_fst (lz_get h t p w), fun l r => of_fst (lz_prod h t l r w),
    fun p f => of_fst (lz_apply h t p f w), fun l r f => of_fst (lz_applyRange h t l r f w),
    fun l => of_fst (lz_maxRight h t hg l w), fun r => of_fst (lz_minLeft h t hg r w)⟩⟩

/-- C81: the same for the heavy-light decomposition, of any graph. -/
theorem C81_hld (E : MapEff σ S F) (M : MapMonoidOps S F) (he : SameMaps E M) (w : σ) :
    (∀ g root, (HLD.newE E g root w >>= fun o => ok o.1) = HLD.new M g root) ∧
    (∀ g root v, (HLD.withInitValueE E g root v w >>= fun o => ok o.1) = HLD.withInitValue M g root v) ∧
    ∀ h : HLD S F,
      (∀ u v f, (h.applyPathE E u v f w >>= fun o => ok o.1) = h.applyPath M u v f) ∧
      (∀ u v, (h.pathProdE E u v w >>= fun o => ok o.1) = h.pathProd M u v) ∧
      (∀ u f, (h.applySubtreeE E u f w >>= fun o => ok o.1) = h.applySubtree M u f) ∧
      (∀ u, (h.subtreeProdE E u w >>= fun o => ok o.1) = h.subtreeProd M u) ∧
      (∀ u, (h.getE E u w >>= fun o => ok o.1) = h.get M u) ∧
      (∀ u x, (h.setE E u x w >>= fun o => ok o.1) = h.set M u x) :=
  ⟨fun g root => of_fst (hld_new he g root w), fun g root v => of_fst (hld_withInitValue he g root v w), fun h =>
    ⟨fun u v f => of_fst (hld_applyPath he h u v f w), fun u v => of_fst (hld_pathProd he h u v w),
    fun u f => of_fst (hld_applySubtree he h u f w), fun u => of_fst (hld_subtreeProd he h u w),
    fun u => of_fst (hld_get he h u w), fun u x => of_fst (hld_set he h u x w)⟩⟩

/-- Counting calls does not change the values. -/
theorem C81_counting (M : MonoidOps S) (M' : MapMonoidOps S F) (add : T → U → Res S) (g : S → Bool) :
    SameMonoid (countMonoid M) M ∧ SameMaps (countMaps M') M' ∧ SameValues (countAdd add) add ∧
      SameAnswers (countPred g) g := by
  have key : ∀ {A B C : Type} (x : Res C) (k : C → Calls),
      ((x >>= fun z => ok (z, k z)) >>= fun o => ok o.1) = x := by
    intro A B C x k; cases x <;> rfl
  exact ⟨⟨rfl, fun x y w => key (A := Nat) (B := Nat) _ _⟩,
    ⟨rfl, rfl, fun x y w => key (A := Nat) (B := Nat) _ _, fun x y w => key (A := Nat) (B := Nat) _ _,
      fun x y w => key (A := Nat) (B := Nat) _ _⟩, fun x y w => key (A := Nat) (B := Nat) _ _, fun x w => rfl⟩

-- a lawful operation that keeps a log of its arguments
example :
    let E : MonoidEff (List (Nat × Nat)) Nat := ⟨0, fun x y w => do let z ← addU 64 x y; ok (z, w ++ [(x, y)])⟩
    (do
      let (t, w) ← Segtree.fromE E [1, 2, 3] []
      let (x, w) ← t.prodE E 1 3 w
      ok (x, w) : Res _) = ok (5, [(3, 0), (1, 2), (3, 3), (0, 2), (3, 0), (2, 3)]) := by decide +kernel

/-! ### C82 -/

theorem count_of {α : Type} {x : Res (α × Calls)} {y : Res α} {P : α × Calls → Prop} (h : Fst x y) (hp : Post x P)
    {o : α} (e : y = ok o) : ∃ c, x = ok (o, c) ∧ P (o, c) := by
  rw [← of_fst h] at e
  obtain ⟨⟨a, c⟩, h1, h2⟩ := bind_eq_ok.1 e
  cases h2
  exact ⟨c, h1, hp _ h1⟩

/-- C82: the number of leaves is less than twice the number of elements. -/
theorem C82_balanced {n log size : Nat} (h : Balanced n log size) (h0 : 0 < n) : size < 2 * n ∧ 2 ^ log < 2 * n := by
  have key : 2 ^ log < 2 * n := by
    rcases Nat.eq_zero_or_pos log with rfl | hl
    · simp; omega
    · obtain ⟨k, rfl⟩ : ∃ k, log = k + 1 := ⟨log - 1, by omega⟩
      have : ¬ n ≤ 2 ^ k := fun hk => by have := h.least k hk; omega
      rw [Nat.pow_succ]; omega
  exact ⟨by rw [h.pow]; exact key, key⟩

/-- C82: calls of `+` and of the predicate by a Fenwick tree. -/
theorem C82_fenwick (add : T → T → Res T) (zero : T) :
    (∀ a t, Fenwick.from add zero a = ok t → ∃ c,
      Fenwick.fromE (countAdd add) zero a {} = ok (t, c) ∧ c.op + ones a.length = 2 * a.length) ∧
    ∀ t : Fenwick T,
      (∀ i x, t.pref add zero i = ok x → t.prefE (countAdd add) zero i {} = ok (x, { op := ones i })) ∧
      (∀ i v t', t.addAt add i v = ok t' → ∃ c, t.addAtE (countAdd add) i v {} = ok (t', c) ∧
        c.op = ((Finset.range (t.n + 1)).filter fun j => j &&& (j - 1) ≤ i ∧ i < j).card ∧
        (c.op = 0 ∨ 2 ^ (c.op - 1) ≤ t.n)) ∧
      (∀ (g : T → Bool) k, t.partitionPoint add zero g = ok k → ∃ c,
        t.partitionPointE (countAdd add) zero (countPred g) {} = ok (k, c) ∧
        c.op ≤ 2 * (Nat.log2 t.n + 1) ∧ c.pred ≤ Nat.log2 t.n + 1) := by
  have hc : SameValues (countAdd add) add := (C81_counting (⟨zero, add⟩ : MonoidOps T)
    (⟨zero, add, (), fun _ => ok, fun _ => ok⟩ : MapMonoidOps T Unit) add fun _ => true).2.2.1
  refine ⟨fun a t e => ?_, fun t => ⟨fun i x e => ?_, fun i v t' e => ?_, fun g k e => ?_⟩⟩
  · obtain ⟨c, h1, h2, h3⟩ := count_of (fenwick_from hc a {}) fenwick_from_post e
    exact ⟨c, h1, by simpa using h3⟩
  · rw [← CostP.prefCost_fst] at e
    obtain ⟨⟨x', k⟩, h1, h2⟩ := bind_eq_ok.1 e
    cases h2
    rw [fenwick_pref_count, h1, ok_bind, ← CostP.prefCost_eq h1]
    simp
  · rw [← CostP.addAtCost_fst] at e
    obtain ⟨⟨x', k⟩, h1, h2⟩ := bind_eq_ok.1 e
    cases h2
    rw [fenwick_addAt_count, h1, ok_bind]
    exact ⟨_, rfl, by simpa using CostP.addAtCost_eq h1, by simpa using CostP.addAtCost_le h1⟩
  · obtain ⟨c, h1, h2, h3⟩ := count_of (fenwick_partitionPoint hc (fun x w => rfl) t {})
      (fenwick_partitionPoint_post (g := g)) e
    exact ⟨c, h1, by simpa using h2, by simpa using h3⟩

/-- C82: calls of the operation by a sparse table. -/
theorem C82_sparse_table (op : T → T → Res T) :
    (∀ v init t, v.length < 2 ^ 64 → SparseTable.from v init op = ok t → ∃ c,
      SparseTable.fromE v init (countAdd op) {} = ok (t, c) ∧
      c.op + 2 ^ (Nat.log2 v.length + 1) = Nat.log2 v.length * (v.length + 1) + 2) ∧
    ∀ (t : SparseTable T) l r x, t.get op l r = ok x → t.getE (countAdd op) l r {} = ok (x, { op := 1 }) := by
  have hc : SameValues (countAdd op) op := by
    intro x y w; unfold countAdd; cases op x y <;> rfl
  refine ⟨fun v init t hl e => ?_, fun t l r x e => ?_⟩
  · obtain ⟨c, h1, h2⟩ := count_of (sparse_from hc v init {}) (sparse_from_post hl) e
    exact ⟨c, h1, by simpa using h2⟩
  · obtain ⟨c, h1, h2⟩ := count_of (sparse_get hc t l r {}) sparse_get_post e
    simp only at h2
    rw [h1, h2]

/-- C82: calls of the operation and of the predicate by a segment tree. Every tree that `from` builds is balanced, and
stays so. -/
theorem C82_segtree (M : MonoidOps S) :
    (∀ v t, Segtree.from M v = ok t → Balanced v.length t.log t.size ∧ t.n = v.length ∧
      Segtree.fromE (countMonoid M) v {} = ok (t, { op := t.size - 1 })) ∧
    ∀ t : Segtree S, Balanced t.n t.log t.size →
      (∀ p x t', t.set M p x = ok t' → Balanced t'.n t'.log t'.size ∧ t'.n = t.n ∧
        t.setE (countMonoid M) p x {} = ok (t', { op := t.log })) ∧
      (∀ l r x, t.prod M l r = ok x → ∃ c, t.prodE (countMonoid M) l r {} = ok (x, c) ∧
        1 ≤ c.op ∧ c.op ≤ max 2 (2 * t.log - 1) ∧ (l = r → c.op = 1)) ∧
      (∀ l (g : S → Bool) r, t.maxRight M l g = ok r → ∃ c,
        t.maxRightE (countMonoid M) l (countPred g) {} = ok (r, c) ∧
        c.op ≤ max 2 (3 * t.log - 2) ∧ c.pred ≤ max (t.log + 2) (2 * t.log)) ∧
      (∀ r (g : S → Bool) l, t.minLeft M r g = ok l → ∃ c,
        t.minLeftE (countMonoid M) r (countPred g) {} = ok (l, c) ∧
        c.op ≤ max 2 (3 * t.log - 2) ∧ c.pred ≤ max (t.log + 2) (2 * t.log)) := by
  have hc : SameMonoid (countMonoid M) M := (C81_counting M
    (⟨M.e, M.op, (), fun _ => ok, fun _ => ok⟩ : MapMonoidOps S Unit) M.op fun _ => true).1
  refine ⟨fun v t e => ?_, fun t hb => ⟨fun p x t' e => ?_, fun l r x e => ?_, fun l g r e => ?_, fun r g l e => ?_⟩⟩
  · obtain ⟨c, h1, h2, h3, h4⟩ := count_of (seg_from hc v {}) seg_from_post e
    simp only at h2 h3 h4
    rw [h1, h4, ← h3]
    exact ⟨h2, rfl, by simp⟩
  · obtain ⟨c, h1, h2, h3⟩ := count_of (seg_set hc t p x {}) seg_set_post e
    simp only at h2 h3
    rw [h1, h3, h2.n, h2.log, h2.size]
    exact ⟨hb, rfl, by simp⟩
  · obtain ⟨c, h1, h2, h3, h4, -⟩ := count_of (seg_prod hc t l r {}) (seg_prod_post hb.pow hb.le) e
    exact ⟨c, h1, by simpa using h2, by simpa using h3, by simpa using h4⟩
  · obtain ⟨c, h1, h2, h3⟩ := count_of (seg_maxRight hc t (g₀ := g) (fun x w => rfl) l {})
      (seg_maxRight_post (g := g) hb.pow hb.le hb.small) e
    exact ⟨c, h1, by simpa using h2, by simpa using h3⟩
  · obtain ⟨c, h1, h2, h3⟩ := count_of (seg_minLeft hc t (g₀ := g) (fun x w => rfl) r {})
      (seg_minLeft_post (g := g) hb.pow hb.le hb.small) e
    exact ⟨c, h1, by simpa using h2, by simpa using h3⟩

theorem SameShape.balanced {t t' : LazySegtree S F} (h : SameShape t t') (hb : Balanced t.n t.log t.size) :
    Balanced t'.n t'.log t'.size := by
  rw [h.n, h.log, h.size]; exact hb

/-- C82: calls of the operation, of `mapping`, of `composition` and of the predicate by a lazy segment tree. -/
theorem C82_lazy_segtree (M : MapMonoidOps S F) :
    (∀ v t, LazySegtree.from M v = ok t → Balanced v.length t.log t.size ∧ t.n = v.length ∧
      LazySegtree.fromE (countMaps M) v {} = ok (t, { op := t.size - 1 })) ∧
    ∀ t : LazySegtree S F, Balanced t.n t.log t.size →
      (∀ p t' x, t.get M p = ok (t', x) → Balanced t'.n t'.log t'.size ∧ t'.n = t.n ∧
        t.getE (countMaps M) p {} = ok ((t', x), { map := 2 * t.log, comp := 2 * (t.log - 1) })) ∧
      (∀ p x t', t.set M p x = ok t' → Balanced t'.n t'.log t'.size ∧ t'.n = t.n ∧
        t.setE (countMaps M) p x {} = ok (t', { op := t.log, map := 2 * t.log, comp := 2 * (t.log - 1) })) ∧
      (∀ p f t', t.apply M p f = ok t' → Balanced t'.n t'.log t'.size ∧ t'.n = t.n ∧
        t.applyE (countMaps M) p f {} = ok (t', { op := t.log, map := 2 * t.log + 1, comp := 2 * (t.log - 1) })) ∧
      (∀ l r t' x, t.prod M l r = ok (t', x) → Balanced t'.n t'.log t'.size ∧ t'.n = t.n ∧ ∃ c,
        t.prodE (countMaps M) l r {} = ok ((t', x), c) ∧ c.op ≤ max 2 (2 * t.log - 1) ∧ c.map ≤ 4 * t.log ∧
        c.comp ≤ 4 * (t.log - 1) ∧ (l = r → c = {})) ∧
      (∀ l r f t', t.applyRange M l r f = ok t' → Balanced t'.n t'.log t'.size ∧ t'.n = t.n ∧ ∃ c,
        t.applyRangeE (countMaps M) l r f {} = ok (t', c) ∧ c.op ≤ 2 * t.log ∧
        c.map ≤ 4 * t.log + max 1 (2 * (t.log - 1)) ∧ c.comp ≤ 4 * (t.log - 1) + max 1 (2 * (t.log - 1)) ∧
        (l = r → c = {})) ∧
      (∀ l (g : S → Bool) t' r, t.maxRight M l g = ok (t', r) → Balanced t'.n t'.log t'.size ∧ t'.n = t.n ∧ ∃ c,
        t.maxRightE (countMaps M) l (countPred g) {} = ok ((t', r), c) ∧
        c.op ≤ max 2 (3 * t.log - 2) ∧ c.map ≤ 4 * t.log ∧ c.comp ≤ 4 * (t.log - 1) ∧
        c.pred ≤ max (t.log + 2) (2 * t.log)) ∧
      (∀ r (g : S → Bool) t' l, t.minLeft M r g = ok (t', l) → Balanced t'.n t'.log t'.size ∧ t'.n = t.n ∧ ∃ c,
        t.minLeftE (countMaps M) r (countPred g) {} = ok ((t', l), c) ∧
        c.op ≤ max 2 (3 * t.log - 2) ∧ c.map ≤ 4 * t.log ∧ c.comp ≤ 4 * (t.log - 1) ∧
        c.pred ≤ max (t.log + 2) (2 * t.log)) := by
  have hc : SameMaps (countMaps M) M := (C81_counting ⟨M.e, M.op⟩ M M.op fun _ => true).2.1
  refine ⟨fun v t e => ?_, fun t hb => ⟨fun p t' x e => ?_, fun p x t' e => ?_, fun p f t' e => ?_,
    fun l r t' x e => ?_, fun l r f t' e => ?_, fun l g t' r e => ?_, fun r g t' l e => ?_⟩⟩
  · obtain ⟨c, h1, h2, h3, h4⟩ := count_of (lz_from hc v {}) lz_from_post e
    simp only at h2 h3 h4
    rw [h1, h4, ← h3]
    exact ⟨h2, rfl, by simp⟩
  · obtain ⟨c, h1, h2, h3⟩ := count_of (lz_get hc t p {}) (lz_get_post hb.pow hb.le) e
    exact ⟨SameShape.balanced h2 hb, h2.n, by simp only at h3; rw [h1, h3]; simp⟩
  · obtain ⟨c, h1, h2, h3⟩ := count_of (lz_set hc t p x {}) (lz_set_post hb.pow hb.le) e
    exact ⟨SameShape.balanced h2 hb, h2.n, by simp only at h3; rw [h1, h3]; simp⟩
  · obtain ⟨c, h1, h2, h3⟩ := count_of (lz_apply hc t p f {}) (lz_apply_post hb.pow hb.le) e
    exact ⟨SameShape.balanced h2 hb, h2.n, by simp only at h3; rw [h1, h3]; simp⟩
  · obtain ⟨c, h1, h2, h3, h4, h5, h6, h7⟩ := count_of (lz_prod hc t l r {}) (lz_prod_post hb.pow hb.le) e
    exact ⟨SameShape.balanced h2 hb, h2.n, c, h1, by simpa using h3, by simpa using h4, by simpa using h5, h7⟩
  · obtain ⟨c, h1, h2, h3, h4, h5, h6, h7⟩ := count_of (lz_applyRange hc t l r f {})
      (lz_applyRange_post hb.pow hb.le) e
    exact ⟨SameShape.balanced h2 hb, h2.n, c, h1, by simpa using h3, by simpa using h4, by simpa using h5, h7⟩
  · obtain ⟨c, h1, h2, h3⟩ := count_of (lz_maxRight hc t (g₀ := g) (fun x w => rfl) l {})
      (lz_maxRight_post (g := g) hb.pow hb.le hb.small) e
    exact ⟨SameShape.balanced h2 hb, h2.n, c, h1, by simpa using h3.op, by simpa using h3.map, by simpa using h3.comp,
      by simpa using h3.pred⟩
  · obtain ⟨c, h1, h2, h3⟩ := count_of (lz_minLeft hc t (g₀ := g) (fun x w => rfl) r {})
      (lz_minLeft_post (g := g) hb.pow hb.le hb.small) e
    exact ⟨SameShape.balanced h2 hb, h2.n, c, h1, by simpa using h3.op, by simpa using h3.map, by simpa using h3.comp,
      by simpa using h3.pred⟩

/-- A call on the decomposition keeps the shape of its tree. -/
theorem hStep_shape {M : MapMonoidOps S F} {h h' : HLD S F} {op : HldOp S F} {out : HldOut S}
    (hb : Balanced h.data.n h.data.log h.data.size) (e : hStep M h op = ok (h', out)) :
    SameShape h.data h'.data := by
  have hc : SameMaps (countMaps M) M := (C81_counting ⟨M.e, M.op⟩ M M.op fun _ => true).2.1
  cases op with
  | get u =>
    obtain ⟨⟨h1, x⟩, e1, e2⟩ := bind_eq_ok.1 e
    cases e2
    obtain ⟨c, -, h2, -⟩ := count_of (hld_get hc h u {}) (hld_get_post hb.pow hb.le) e1
    exact h2
  | set u x =>
    obtain ⟨h1, e1, e2⟩ := bind_eq_ok.1 e
    cases e2
    obtain ⟨c, -, h2, -⟩ := count_of (hld_set hc h u x {}) (hld_set_post hb.pow hb.le) e1
    exact h2
  | applyPath u v f =>
    obtain ⟨h1, e1, e2⟩ := bind_eq_ok.1 e
    cases e2
    obtain ⟨c, -, h2, -⟩ := count_of (hld_applyPath hc h u v f {})
      (hld_applyPath_post (R := fun _ _ _ => True) trivial (fun _ _ _ _ _ _ _ => trivial) hb.pow hb.le) e1
    exact h2
  | pathProd u v =>
    obtain ⟨⟨h1, x⟩, e1, e2⟩ := bind_eq_ok.1 e
    cases e2
    obtain ⟨c, -, h2, -⟩ := count_of (hld_pathProd hc h u v {})
      (hld_pathProd_post (R := fun _ _ _ => True) trivial (fun _ _ _ _ _ _ _ => trivial) hb.pow hb.le) e1
    exact h2
  | applySubtree u f =>
    obtain ⟨h1, e1, e2⟩ := bind_eq_ok.1 e
    cases e2
    obtain ⟨c, -, h2, -⟩ := count_of (hld_applySubtree hc h u f {}) (hld_applySubtree_post hb.pow hb.le) e1
    exact h2
  | subtreeProd u =>
    obtain ⟨⟨h1, x⟩, e1, e2⟩ := bind_eq_ok.1 e
    cases e2
    obtain ⟨c, -, h2, -⟩ := count_of (hld_subtreeProd hc h u {}) (hld_subtreeProd_post hb.pow hb.le) e1
    exact h2

theorem hRun_shape {M : MapMonoidOps S F} {ops : List (HldOp S F)} : ∀ {h h' : HLD S F} {outs : List (HldOut S)},
    Balanced h.data.n h.data.log h.data.size → hRun M h ops = ok (h', outs) → SameShape h.data h'.data := by
  induction ops with
  | nil => intro h h' outs _ e; cases e; exact .rfl'
  | cons op ops ih =>
    intro h h' outs hb e
    obtain ⟨⟨h1, o⟩, e1, e⟩ := bind_eq_ok.1 e
    obtain ⟨⟨h2, os⟩, e2, e⟩ := bind_eq_ok.1 e
    cases e
    have k := hStep_shape hb e1
    exact k.trans (ih (SameShape.balanced k hb) e2)

/-- C82: building a decomposition makes one pass (`new`) or two passes (`with_init_value`) over its tree, and the tree
of a decomposition reached by any calls stays balanced over the nodes. -/
theorem C82_hld_new (M : MapMonoidOps S F) (g : List (List Nat)) (root : Nat) :
    (∀ h, HLD.new M g root = ok h → Balanced g.length h.data.log h.data.size ∧
      HLD.newE (countMaps M) g root {} = ok (h, { op := h.data.size - 1 })) ∧
    ∀ v h, HLD.withInitValue M g root v = ok h → Balanced g.length h.data.log h.data.size ∧
      HLD.withInitValueE (countMaps M) g root v {} = ok (h, { op := 2 * (h.data.size - 1) }) ∧
      ∀ ops h' outs, hRun M h ops = ok (h', outs) → Balanced g.length h'.data.log h'.data.size ∧
        h'.data.n = g.length := by
  have hc : SameMaps (countMaps M) M := (C81_counting ⟨M.e, M.op⟩ M M.op fun _ => true).2.1
  refine ⟨fun h e => ?_, fun v h e => ?_⟩
  · obtain ⟨c, h1, h2, h3, h4⟩ := count_of (hld_new hc g root {}) hld_new_post e
    simp only at h2 h3 h4
    rw [h1, h4, ← h3]
    exact ⟨h2, by simp⟩
  · obtain ⟨c, h1, h2, h3, h4⟩ := count_of (hld_withInitValue hc g root v {}) hld_withInitValue_post e
    simp only at h2 h3 h4
    refine ⟨h3 ▸ h2, by rw [h1, h4]; simp, fun ops h' outs e' => ?_⟩
    have k := hRun_shape h2 e'
    have := SameShape.balanced k h2
    exact ⟨(k.n.trans h3) ▸ this, k.n.trans h3⟩

/-- C82: one call of the decomposition, for any graph: the calls that do not walk a path. -/
theorem C82_hld_calls (M : MapMonoidOps S F) (h : HLD S F) (hb : Balanced h.data.n h.data.log h.data.size) :
    (∀ u h' x, h.get M u = ok (h', x) →
      h.getE (countMaps M) u {} = ok ((h', x), { map := 2 * h.data.log, comp := 2 * (h.data.log - 1) })) ∧
    (∀ u x h', h.set M u x = ok h' → h.setE (countMaps M) u x {} =
      ok (h', { op := h.data.log, map := 2 * h.data.log, comp := 2 * (h.data.log - 1) })) ∧
    (∀ u h' x, h.subtreeProd M u = ok (h', x) → ∃ c, h.subtreeProdE (countMaps M) u {} = ok ((h', x), c) ∧
      c.op ≤ max 2 (2 * h.data.log - 1) ∧ c.map ≤ 4 * h.data.log ∧ c.comp ≤ 4 * (h.data.log - 1)) ∧
    (∀ u f h', h.applySubtree M u f = ok h' → ∃ c, h.applySubtreeE (countMaps M) u f {} = ok (h', c) ∧
      c.op ≤ 2 * h.data.log ∧ c.map ≤ 4 * h.data.log + max 1 (2 * (h.data.log - 1)) ∧
      c.comp ≤ 4 * (h.data.log - 1) + max 1 (2 * (h.data.log - 1))) := by
  have hc : SameMaps (countMaps M) M := (C81_counting ⟨M.e, M.op⟩ M M.op fun _ => true).2.1
  refine ⟨fun u h' x e => ?_, fun u x h' e => ?_, fun u h' x e => ?_, fun u f h' e => ?_⟩
  · obtain ⟨c, h1, -, -, h2⟩ := count_of (hld_get hc h u {}) (hld_get_post hb.pow hb.le) e
    simp only at h2; rw [h1, h2]; simp
  · obtain ⟨c, h1, -, -, h2⟩ := count_of (hld_set hc h u x {}) (hld_set_post hb.pow hb.le) e
    simp only at h2; rw [h1, h2]; simp
  · obtain ⟨c, h1, -, -, h2, h3, h4, -⟩ := count_of (hld_subtreeProd hc h u {})
      (hld_subtreeProd_post hb.pow hb.le) e
    exact ⟨c, h1, by simpa using h2, by simpa using h3, by simpa using h4⟩
  · obtain ⟨c, h1, -, -, h2, h3, h4, -⟩ := count_of (hld_applySubtree hc h u f {})
      (hld_applySubtree_post hb.pow hb.le) e
    exact ⟨c, h1, by simpa using h2, by simpa using h3, by simpa using h4⟩

/-- C82: the path calls on a tree, in any reachable state: at most one range operation for each chain that meets the
path (`K` chains, at most `2 * log2 n + 1` by C53), and for `path_prod` one more call of the operation each. -/
theorem C82_hld_paths [Monoid S] {M : MapOps S F} {g : List (List Nat)} {root : Nat} (hM : LawfulMap M) (T : IsTree g)
    (hr : root < g.length) (hgl : g.length < 2 ^ 32) (h : HLD S F) (hh : HReached M g root h) (u v : Nat)
    (p : List Nat) (hu : u < g.length) (hp : IsPath g u v p) (K : Nat)
    (hK : K = (p.map fun y => h.arr.head[y]?).toFinset.card) (f : F) :
    K ≤ 2 * Nat.log2 g.length + 1 ∧
    (∃ h' x c, h.pathProd M u v = ok (h', x) ∧ h.pathProdE (countMaps M.ops) u v {} = ok ((h', x), c) ∧
      c.op ≤ K * (max 2 (2 * h.data.log - 1) + 1) ∧ c.map ≤ K * (4 * h.data.log) ∧
      c.comp ≤ K * (4 * (h.data.log - 1))) ∧
    ∃ h' c, h.applyPath M u v f = ok h' ∧ h.applyPathE (countMaps M.ops) u v f {} = ok (h', c) ∧
      c.op ≤ K * (2 * h.data.log) ∧ c.map ≤ K * (4 * h.data.log + max 1 (2 * (h.data.log - 1))) ∧
      c.comp ≤ K * (4 * (h.data.log - 1) + max 1 (2 * (h.data.log - 1))) := by
  have hc : SameMaps (countMaps M.ops) M.ops := (C81_counting ⟨M.ops.e, M.ops.op⟩ M.ops M.ops.op fun _ => true).2.1
  obtain ⟨e1, e2, h1, o, k, e3, e4, e5, e6⟩ := C53_path_rounds hM T hr hgl h hh u v p hu hp f
  rw [e3, ok_bind] at e1
  rw [e4, ok_bind] at e2
  obtain ⟨c0, b, R⟩ := hh.rep hM T hr hgl
  have hb : Balanced h.data.n h.data.log h.data.size := by
    obtain ⟨v, h0, ops, outs, -, -, j1, j2⟩ := hh
    obtain ⟨-, k2⟩ := C82_hld_new M.ops g root
    obtain ⟨-, -, k3⟩ := k2 v h0 j1
    obtain ⟨k4, k5⟩ := k3 ops h outs j2
    rw [k5]; exact k4
  have hv : v < g.length := hp.lt T hu v (List.mem_of_getLast? hp.last)
  let RR : Nat → Nat → Nat → Prop := fun m x y => x < g.length ∧ y < g.length ∧
    ∃ q, IsPath g x y q ∧ HLDP.nheads h.arr p = HLDP.nheads h.arr q + m
  have hR : RR 0 u v := ⟨hu, hv, p, hp, rfl⟩
  have hstep : ∀ m u v q v', RR m u v → RoundReads h.arr u v q v' → RR (m + 1) q v' := by
    rintro m a b q _ ⟨i1, i2, q', i3, i4⟩ ⟨hu, hv, du, dv, hu', r1, r2, r3, r4, r5, r6, r7, rfl⟩
    obtain ⟨k1, k2, q'', k3, k4⟩ := HLDP.round_heads T hr (by omega) R.arr i1 i2 r1 r2 r3 r4 r5 r6 r7 i3
    exact ⟨k1, k2, q'', k3, by rw [i4, k4, Nat.add_assoc, Nat.add_comm 1]⟩
  have hend : ∀ m x y, RR m x y → m + 1 ≤ K := by
    rintro m x y ⟨-, -, q, i1, i2⟩
    have : 1 ≤ HLDP.nheads h.arr q := by
      refine Finset.card_pos.2 ⟨h.arr.head[y]?, ?_⟩
      rw [List.mem_toFinset, List.mem_map]
      exact ⟨y, List.mem_of_getLast? i1.last, rfl⟩
    have : K = HLDP.nheads h.arr p := hK
    omega
  refine ⟨by omega, ?_, ?_⟩
  · obtain ⟨h', x⟩ := o
    obtain ⟨c, j1, -, -, m, x', y', j2, j3, j4, j5, -⟩ := count_of (hld_pathProd hc h u v {})
      (hld_pathProd_post hR hstep hb.pow hb.le) e2.symm
    have hm := hend m x' y' j2
    simp only [Nat.zero_add] at j3 j4 j5
    exact ⟨h', x, c, e2.symm, j1, j3.trans (Nat.mul_le_mul_right _ hm), j4.trans (Nat.mul_le_mul_right _ hm),
      j5.trans (Nat.mul_le_mul_right _ hm)⟩
  · obtain ⟨c, j1, -, -, m, x', y', j2, j3, j4, j5, -⟩ := count_of (hld_applyPath hc h u v f {})
      (hld_applyPath_post hR hstep hb.pow hb.le) e1.symm
    have hm := hend m x' y' j2
    simp only [Nat.zero_add] at j3 j4 j5
    exact ⟨h1, c, e1.symm, j1, j3.trans (Nat.mul_le_mul_right _ hm), j4.trans (Nat.mul_le_mul_right _ hm),
      j5.trans (Nat.mul_le_mul_right _ hm)⟩

/-! Concrete cases: the bounds are attained. -/

/-- Sums and additions to all elements (the length is not tracked; only the calls matter here). -/
def plainSums : MapMonoidOps Nat Nat := ⟨0, fun x y => addU 64 x y, 0, fun f x => addU 64 f x, fun f g => addU 64 f g⟩

-- eight elements: `Balanced 8 3 8`; 2 * 3 - 1 = 5 calls, 3 * 3 - 2 = 7 calls with 2 * 3 = 6 tests
example : Balanced 8 3 8 := ⟨rfl, by decide, fun k hk => by
  by_contra h
  have : 2 ^ k ≤ 2 ^ 2 := Nat.pow_le_pow_right (by omega) (by omega)
  omega, by decide⟩

example : (do
    let (t, c) ← Segtree.fromE (countMonoid ⟨0, addU 64⟩) [1, 1, 1, 1, 1, 1, 1, 1] {}
    let (_, c1) ← t.setE (countMonoid ⟨0, addU 64⟩) 3 1 {}
    let (x, c2) ← t.prodE (countMonoid ⟨0, addU 64⟩) 1 7 {}
    let (y, c3) ← t.maxRightE (countMonoid ⟨0, addU 64⟩) 1 (countPred (· < 7)) {}
    let (z, c4) ← t.minLeftE (countMonoid ⟨0, addU 64⟩) 7 (countPred (· < 7)) {}
    ok ((c, c1, c2), (x, y, z), c3, c4) : Res _) =
    ok (({ op := 7 }, { op := 3 }, { op := 5 }), (6, 7, 1), { op := 7, pred := 6 }, { op := 7, pred := 6 }) := by
  decide +kernel

example : (do
    let (t, c) ← LazySegtree.fromE (countMaps plainSums) [1, 1, 1, 1, 1, 1, 1, 1] {}
    let (_, c1) ← t.setE (countMaps plainSums) 3 1 {}
    let (_, c2) ← t.prodE (countMaps plainSums) 1 7 {}
    let (_, c3) ← t.applyRangeE (countMaps plainSums) 1 7 1 {}
    let (_, c4) ← t.maxRightE (countMaps plainSums) 1 (countPred (· < 7)) {}
    let (_, c5) ← t.applyE (countMaps plainSums) 3 1 {}
    ok (c, c1, c2, c3, c4, c5) : Res _) =
    ok ({ op := 7 }, { op := 3, map := 6, comp := 4 }, { op := 5, map := 12, comp := 8 },
      { op := 6, map := 16, comp := 10 }, { op := 7, map := 10, comp := 6, pred := 6 },
      { op := 3, map := 7, comp := 4 }) := by decide +kernel

example : (do
    let (t, c) ← Fenwick.fromE (countAdd (addU 64)) 0 [1, 1, 1, 1, 1, 1, 1, 1] {}
    let (x, c1) ← t.prefE (countAdd (addU 64)) 0 7 {}
    let (_, c2) ← t.addAtE (countAdd (addU 64)) 0 5 {}
    let (k, c3) ← t.partitionPointE (countAdd (addU 64)) 0 (countPred (· < 20)) {}
    let (k', c4) ← t.partitionPointE (countAdd (addU 64)) 0 (countPred (· < 8)) {}
    ok ((c, x, c1, c2), (k, c3, k', c4)) : Res _) =
    ok (({ op := 15 }, 7, { op := 3 }, { op := 4 }), (8, { op := 2, pred := 1 }, 7, { op := 7, pred := 4 })) := by
  decide +kernel

-- five elements: 2 * 6 + 2 - 8 = 6 calls
example : (do
    let (s, c) ← SparseTable.fromE [1, 5, 2, 4, 3] 0 (countAdd fun x y : Nat => ok (min x y)) {}
    let (m, c1) ← s.getE (countAdd fun x y : Nat => ok (min x y)) 1 4 {}
    ok (c, m, c1) : Res (Calls × Nat × Calls)) = ok ({ op := 6 }, 2, { op := 1 }) := by decide +kernel

-- two chains meet the path from 1 to 3
example : (do
    let h ← HLD.withInitValue plainSums [[1, 2], [0], [0, 3], [2]] 0 [1, 2, 3, 4]
    let ((_, x), c) ← h.pathProdE (countMaps plainSums) 1 3 {}
    let (_, c1) ← h.applyPathE (countMaps plainSums) 1 3 1 {}
    ok (h.arr.head, h.data.log, x, c, c1) : Res _) =
    ok ([0, 1, 0, 0], 2, 10, { op := 7, map := 8, comp := 4 }, { op := 4, map := 11, comp := 5 }) := by
  decide +kernel

end Verif.Props
