import Verif.Prelude.Sim
import Verif.Proof.CostDinic
import Verif.Spec.Eff
/-! Operations with side effects: forgetting the state gives the functions without effects. -/
namespace Verif.EffP
open Res Model Spec

variable {σ S F T U α : Type}

/-- Same outcome, the state forgotten. -/
abbrev Fst (x : Res (α × σ)) (y : Res α) : Prop := Sim False False (fun a b => a.1 = b) x y

theorem fst_of {x : Res (α × σ)} {y : Res α} (h : (x >>= fun o => ok o.1) = y) : Fst x y := by
  subst h
  cases x
  · exact sim_ok rfl
  · exact sim_panic
  · exact sim_diverge

theorem of_fst {x : Res (α × σ)} {y : Res α} (h : Fst x y) : (x >>= fun o => ok o.1) = y := DinicP.sim_fst h

theorem fst_op {f : T → U → σ → Res (S × σ)} {f₀ : T → U → Res S} (h : SameValues f f₀) (x : T) (y : U) (w : σ) :
    Fst (f x y w) (f₀ x y) := fst_of (h x y w)

theorem pred_eq {g : S → σ → Res (Bool × σ)} {g₀ : S → Bool} (h : SameAnswers g g₀) (x : S) (w : σ) :
    ∃ w', g x w = ok (g₀ x, w') := by
  have := h x w
  cases e : g x w with
  | ok o =>
    rw [e] at this
    obtain ⟨b, w'⟩ := o
    cases this
    exact ⟨w', rfl⟩
  | panic => rw [e] at this; cases this
  | diverge => rw [e] at this; cases this

theorem sim_same {γ δ : Type} {P : γ → δ → Prop} {x : Res α} {f : α → Res γ} {g : α → Res δ}
    (h : ∀ a, Sim False False P (f a) (g a)) : Sim False False P (x >>= f) (x >>= g) :=
  sim_bind sim_refl fun a b e => by cases e; exact h a

theorem sim_eff {γ δ : Type} {P : γ → δ → Prop} {x : Res (α × σ)} {y : Res α} {f : α × σ → Res γ} {g : α → Res δ}
    (hx : Fst x y) (h : ∀ a w, Sim False False P (f (a, w)) (g a)) : Sim False False P (x >>= f) (y >>= g) :=
  sim_bind hx fun a b e => by cases e; exact h a.1 a.2

/-- The next step is the same in both. -/
macro "st" : tactic => `(tactic| (refine sim_same fun _ => ?_))
/-- The next step is a call with effects. -/
macro "sf " t:term : tactic => `(tactic| (refine sim_eff $t fun _ _ => ?_; try dsimp only))

/-! ### Fenwick tree -/

section
variable {add : T → T → σ → Res (T × σ)} {add₀ : T → T → Res T} {zero : T}

theorem fenwick_from (h : SameValues add add₀) (a : List T) (w : σ) :
    Fst (Fenwick.fromE add zero a w) (Fenwick.from add₀ zero a) := by
  unfold Fenwick.fromE Fenwick.from
  simp only
  refine sim_bind (Q := fun a b => a.1 = b) (sim_forRange rfl ?_) ?_
  · rintro i ⟨ary, w⟩ _ rfl
    simp only
    st; st
    sf fst_op h _ _ _
    st; st
    refine sim_ite ?_ (sim_ok rfl)
    st; st
    sf fst_op h _ _ _
    unfold upd
    split
    · exact sim_ok rfl
    · exact sim_panic
  · rintro ⟨ary, w⟩ _ rfl
    exact sim_ok rfl

theorem fenwick_pref (h : SameValues add add₀) (t : Fenwick T) (i : Nat) (w : σ) :
    Fst (t.prefE add zero i w) (t.pref add₀ zero i) := by
  unfold Fenwick.prefE Fenwick.pref
  refine sim_bind (Q := fun a b => (a.1, a.2.1) = b) (sim_while rfl ?_ ?_) ?_
  · rintro ⟨i, s, w⟩ _ rfl
    exact sim_refl
  · rintro ⟨i, s, w⟩ _ rfl
    simp only
    st
    sf fst_op h _ _ _
    exact sim_ok rfl
  · rintro ⟨i, s, w⟩ _ rfl
    exact sim_ok rfl

theorem fenwick_addAt {add : T → U → σ → Res (T × σ)} {add₀ : T → U → Res T} (h : SameValues add add₀)
    (t : Fenwick T) (i : Nat) (x : U) (w : σ) : Fst (t.addAtE add i x w) (t.addAt add₀ i x) := by
  unfold Fenwick.addAtE Fenwick.addAt
  simp only
  st
  refine sim_bind (Q := fun a b => (a.1, a.2.1) = b) (sim_while rfl ?_ ?_) ?_
  · rintro ⟨i, s, w⟩ _ rfl
    exact sim_refl
  · rintro ⟨i, s, w⟩ _ rfl
    simp only
    st
    sf fst_op h _ _ _
    st; st
    exact sim_ok rfl
  · rintro ⟨i, s, w⟩ _ rfl
    exact sim_ok rfl

theorem fenwick_sum {sub : T → T → σ → Res (T × σ)} {sub₀ : T → T → Res T} (h : SameValues add add₀)
    (h' : SameValues sub sub₀) (t : Fenwick T) (l r : Nat) (w : σ) :
    Fst (t.sumE add sub zero l r w) (t.sum add₀ sub₀ zero l r) := by
  unfold Fenwick.sumE Fenwick.sum
  sf fenwick_pref h _ _ _
  sf fenwick_pref h _ _ _
  exact fst_op h' _ _ _

theorem fenwick_partitionPoint (h : SameValues add add₀) {g : T → σ → Res (Bool × σ)} {g₀ : T → Bool}
    (hg : SameAnswers g g₀) (t : Fenwick T) (w : σ) :
    Fst (t.partitionPointE add zero g w) (t.partitionPoint add₀ zero g₀) := by
  unfold Fenwick.partitionPointE Fenwick.partitionPoint
  st
  refine sim_bind (Q := fun a b => (a.1, a.2.1) = b) (sim_forRangeRev rfl ?_) ?_
  · rintro i ⟨p, s, w⟩ _ rfl
    simp only
    st
    refine sim_bind (Q := fun a b => a.1 = b) (sim_ite ?_ (sim_ok rfl)) ?_
    · st
      sf fst_op h _ _ _
      exact fst_of (hg _ _)
    rintro ⟨b, w⟩ _ rfl
    simp only
    refine sim_ite ?_ (sim_ok rfl)
    st
    sf fst_op h _ _ _
    exact sim_ok rfl
  · rintro ⟨p, s, w⟩ _ rfl
    exact sim_ok rfl

end

/-! ### Sparse table -/

section
variable {op : T → T → σ → Res (T × σ)} {op₀ : T → T → Res T}

theorem sparse_from (h : SameValues op op₀) (v : List T) (init : T) (w : σ) :
    Fst (SparseTable.fromE v init op w) (SparseTable.from v init op₀) := by
  unfold SparseTable.fromE SparseTable.from
  simp only
  st; st
  refine sim_bind (Q := fun a b => a.1 = b) (sim_forRange rfl ?_) ?_
  · rintro c ⟨data, w⟩ _ rfl
    dsimp only
    st
    refine sim_forRange rfl ?_
    rintro i ⟨data, w⟩ _ rfl
    dsimp only
    st; st; st
    sf fst_op h _ _ _
    st; st
    unfold upd
    split
    · exact sim_ok rfl
    · exact sim_panic
  · rintro ⟨data, w⟩ _ rfl
    exact sim_ok rfl

theorem sparse_get (h : SameValues op op₀) (t : SparseTable T) (l r : Nat) (w : σ) :
    Fst (t.getE op l r w) (t.get op₀ l r) := by
  unfold SparseTable.getE SparseTable.get
  st; st; st; st; st; st
  exact fst_op h _ _ _

end

/-! ### Segment tree -/

section
variable {E : MonoidEff σ S} {M : MonoidOps S} (h : SameMonoid E M) (t : Segtree S)
include h

theorem seg_update (k : Nat) (w : σ) : Fst (t.updateE E k w) (t.update M k) := by
  unfold Segtree.updateE Segtree.update
  st; st
  sf fst_op h.op _ _ _
  st
  exact sim_ok rfl

theorem seg_from (v : List S) (w : σ) : Fst (Segtree.fromE E v w) (Segtree.from M v) := by
  unfold Segtree.fromE Segtree.from
  simp only [h.e]
  st; st
  refine sim_forRangeRev rfl ?_
  rintro i ⟨t, w⟩ _ rfl
  exact seg_update h _ _ _

theorem seg_set (k : Nat) (x : S) (w : σ) : Fst (t.setE E k x w) (t.set M k x) := by
  unfold Segtree.setE Segtree.set
  simp only
  st; st
  refine sim_forRange rfl ?_
  rintro i ⟨t, w⟩ _ rfl
  exact seg_update h _ _ _

theorem seg_prod (l r : Nat) (w : σ) : Fst (t.prodE E l r w) (t.prod M l r) := by
  unfold Segtree.prodE Segtree.prod
  simp only [h.e]
  st
  refine sim_bind (Q := fun a b => (a.1, a.2.1, a.2.2.1, a.2.2.2.1) = b) (sim_while rfl ?_ ?_) ?_
  · rintro ⟨l, r, a, b, w⟩ _ rfl
    exact sim_refl
  · rintro ⟨l, r, a, b, w⟩ _ rfl
    simp only
    refine sim_bind (Q := fun a b => (a.1, a.2.1) = b) (sim_ite ?_ (sim_ok rfl)) ?_
    · st
      sf fst_op h.op _ _ _
      exact sim_ok rfl
    rintro ⟨l, a, w⟩ _ rfl
    simp only
    refine sim_bind (Q := fun a b => (a.1, a.2.1) = b) (sim_ite ?_ (sim_ok rfl)) ?_
    · st
      sf fst_op h.op _ _ _
      exact sim_ok rfl
    rintro ⟨r, b, w⟩ _ rfl
    exact sim_ok rfl
  · rintro ⟨l, r, a, b, w⟩ _ rfl
    exact fst_op h.op _ _ _

variable {g : S → σ → Res (Bool × σ)} {g₀ : S → Bool} (hg : SameAnswers g g₀)
include hg

theorem seg_maxRight (l : Nat) (w : σ) : Fst (t.maxRightE E l g w) (t.maxRight M l g₀) := by
  unfold Segtree.maxRightE Segtree.maxRight
  simp only [h.e]
  st
  obtain ⟨w, e⟩ := pred_eq hg M.e w
  rw [e]
  simp only [ok_bind]
  st
  refine sim_ite (sim_ok rfl) ?_
  refine sim_loop (Q := fun a b => (a.1, a.2.1) = b) rfl ?_
  rintro ⟨l, s, w⟩ _ rfl
  simp only
  st; st
  refine sim_bind (fst_op h.op _ _ _) ?_
  rintro ⟨y, w⟩ _ rfl
  simp only
  obtain ⟨w, e⟩ := pred_eq hg y w
  rw [e]
  simp only [ok_bind]
  refine sim_ite ?_ ?_
  · refine sim_bind (Q := fun a b => (a.1, a.2.1) = b) (sim_while rfl ?_ ?_) ?_
    · rintro ⟨l, s, w⟩ _ rfl
      exact sim_refl
    · rintro ⟨l, s, w⟩ _ rfl
      simp only
      st
      refine sim_bind (fst_op h.op _ _ _) ?_
      rintro ⟨y, w⟩ _ rfl
      simp only
      obtain ⟨w, e⟩ := pred_eq hg y w
      rw [e]
      simp only [ok_bind]
      exact sim_ite (sim_ok rfl) (sim_ok rfl)
    · rintro ⟨l, s, w⟩ _ rfl
      simp only
      st
      exact sim_ok rfl
  · st
    sf fst_op h.op _ _ _
    exact sim_ite (sim_ok rfl) (sim_ok rfl)

theorem seg_minLeft (r : Nat) (w : σ) : Fst (t.minLeftE E r g w) (t.minLeft M r g₀) := by
  unfold Segtree.minLeftE Segtree.minLeft
  simp only [h.e]
  st
  obtain ⟨w, e⟩ := pred_eq hg M.e w
  rw [e]
  simp only [ok_bind]
  st
  refine sim_ite (sim_ok rfl) ?_
  refine sim_loop (Q := fun a b => (a.1, a.2.1) = b) rfl ?_
  rintro ⟨l, s, w⟩ _ rfl
  simp only
  st; st; st
  refine sim_bind (fst_op h.op _ _ _) ?_
  rintro ⟨y, w⟩ _ rfl
  simp only
  obtain ⟨w, e⟩ := pred_eq hg y w
  rw [e]
  simp only [ok_bind]
  refine sim_ite ?_ ?_
  · refine sim_bind (Q := fun a b => (a.1, a.2.1) = b) (sim_while rfl ?_ ?_) ?_
    · rintro ⟨l, s, w⟩ _ rfl
      exact sim_refl
    · rintro ⟨l, s, w⟩ _ rfl
      simp only
      st
      refine sim_bind (fst_op h.op _ _ _) ?_
      rintro ⟨y, w⟩ _ rfl
      simp only
      obtain ⟨w, e⟩ := pred_eq hg y w
      rw [e]
      simp only [ok_bind]
      refine sim_ite ?_ (sim_ok rfl)
      st
      exact sim_ok rfl
    · rintro ⟨l, s, w⟩ _ rfl
      simp only
      st
      exact sim_ok rfl
  · st
    sf fst_op h.op _ _ _
    exact sim_ite (sim_ok rfl) (sim_ok rfl)

end

/-! ### Lazy segment tree -/

section
variable {E : MapEff σ S F} {M : MapMonoidOps S F} (h : SameMaps E M) (t : LazySegtree S F)
include h

theorem lz_update (k : Nat) (w : σ) : Fst (t.updateE E k w) (t.update M k) := by
  unfold LazySegtree.updateE LazySegtree.update
  st; st
  sf fst_op h.op _ _ _
  st
  exact sim_ok rfl

theorem lz_allApply (k : Nat) (f : F) (w : σ) : Fst (t.allApplyE E k f w) (t.allApply M k f) := by
  unfold LazySegtree.allApplyE LazySegtree.allApply
  st
  sf fst_op h.mapping _ _ _
  st
  refine sim_ite ?_ (sim_ok rfl)
  st
  sf fst_op h.comp _ _ _
  st
  exact sim_ok rfl

theorem lz_push (k : Nat) (w : σ) : Fst (t.pushE E k w) (t.push M k) := by
  unfold LazySegtree.pushE LazySegtree.push
  simp only [h.idMap]
  st
  sf lz_allApply h _ _ _ _
  st
  sf lz_allApply h _ _ _ _
  st
  exact sim_ok rfl

theorem lz_from (v : List S) (w : σ) : Fst (LazySegtree.fromE E v w) (LazySegtree.from M v) := by
  unfold LazySegtree.fromE LazySegtree.from
  simp only [h.e, h.idMap]
  st; st
  refine sim_forRangeRev rfl ?_
  rintro i ⟨t, w⟩ _ rfl
  exact lz_update h _ _ _

theorem lz_pushPath (k : Nat) (w : σ) : Fst (t.pushPathE E k w) (t.pushPath M k) := by
  unfold LazySegtree.pushPathE LazySegtree.pushPath
  refine sim_forRangeRev rfl ?_
  rintro i ⟨t, w⟩ _ rfl
  exact lz_push h _ _ _

theorem lz_updatePath (k : Nat) (w : σ) : Fst (t.updatePathE E k w) (t.updatePath M k) := by
  unfold LazySegtree.updatePathE LazySegtree.updatePath
  refine sim_forRange rfl ?_
  rintro i ⟨t, w⟩ _ rfl
  exact lz_update h _ _ _

theorem lz_set (k : Nat) (x : S) (w : σ) : Fst (t.setE E k x w) (t.set M k x) := by
  unfold LazySegtree.setE LazySegtree.set
  simp only
  st
  sf lz_pushPath h _ _ _
  st
  exact lz_updatePath h _ _ _

theorem lz_get (k : Nat) (w : σ) : Fst (t.getE E k w) (t.get M k) := by
  unfold LazySegtree.getE LazySegtree.get
  simp only
  st
  sf lz_pushPath h _ _ _
  st
  exact sim_ok rfl

theorem lz_prod (l r : Nat) (w : σ) : Fst (t.prodE E l r w) (t.prod M l r) := by
  unfold LazySegtree.prodE LazySegtree.prod
  simp only [h.e]
  st
  refine sim_ite (sim_ok rfl) ?_
  refine sim_bind (Q := fun a b => a.1 = b) (sim_forRangeRev rfl ?_) ?_
  · rintro i ⟨t, w⟩ _ rfl
    simp only
    refine sim_bind (Q := fun a b => a.1 = b) (sim_ite (lz_push h _ _ _) (sim_ok rfl)) ?_
    rintro ⟨t, w⟩ _ rfl
    exact sim_ite (lz_push h _ _ _) (sim_ok rfl)
  rintro ⟨t, w⟩ _ rfl
  simp only
  refine sim_bind (Q := fun a b => (a.1, a.2.1, a.2.2.1, a.2.2.2.1) = b) (sim_while rfl ?_ ?_) ?_
  · rintro ⟨l, r, a, b, w⟩ _ rfl
    exact sim_refl
  · rintro ⟨l, r, a, b, w⟩ _ rfl
    simp only
    refine sim_bind (Q := fun a b => (a.1, a.2.1) = b) (sim_ite ?_ (sim_ok rfl)) ?_
    · st
      sf fst_op h.op _ _ _
      exact sim_ok rfl
    rintro ⟨l, a, w⟩ _ rfl
    simp only
    refine sim_bind (Q := fun a b => (a.1, a.2.1) = b) (sim_ite ?_ (sim_ok rfl)) ?_
    · st
      sf fst_op h.op _ _ _
      exact sim_ok rfl
    rintro ⟨r, b, w⟩ _ rfl
    exact sim_ok rfl
  · rintro ⟨l, r, a, b, w⟩ _ rfl
    simp only
    sf fst_op h.op _ _ _
    exact sim_ok rfl

theorem lz_apply (k : Nat) (f : F) (w : σ) : Fst (t.applyE E k f w) (t.apply M k f) := by
  unfold LazySegtree.applyE LazySegtree.apply
  simp only
  st
  sf lz_pushPath h _ _ _
  st
  sf fst_op h.mapping _ _ _
  st
  exact lz_updatePath h _ _ _

theorem lz_applyRange (l r : Nat) (f : F) (w : σ) : Fst (t.applyRangeE E l r f w) (t.applyRange M l r f) := by
  unfold LazySegtree.applyRangeE LazySegtree.applyRange
  simp only
  st
  refine sim_ite (sim_ok rfl) ?_
  refine sim_bind (Q := fun a b => a.1 = b) (sim_forRangeRev rfl ?_) ?_
  · rintro i ⟨t, w⟩ _ rfl
    simp only
    refine sim_bind (Q := fun a b => a.1 = b) (sim_ite (lz_push h _ _ _) (sim_ok rfl)) ?_
    rintro ⟨t, w⟩ _ rfl
    exact sim_ite (lz_push h _ _ _) (sim_ok rfl)
  rintro ⟨t, w⟩ _ rfl
  simp only
  refine sim_bind (Q := fun a b => (a.1, a.2.1, a.2.2.1) = b) (sim_while rfl ?_ ?_) ?_
  · rintro ⟨l, r, t, w⟩ _ rfl
    exact sim_refl
  · rintro ⟨l, r, t, w⟩ _ rfl
    simp only
    refine sim_bind (Q := fun a b => (a.1, a.2.1) = b) (sim_ite ?_ (sim_ok rfl)) ?_
    · sf lz_allApply h _ _ _ _
      exact sim_ok rfl
    rintro ⟨l, t, w⟩ _ rfl
    simp only
    refine sim_bind (Q := fun a b => (a.1, a.2.1) = b) (sim_ite ?_ (sim_ok rfl)) ?_
    · sf lz_allApply h _ _ _ _
      exact sim_ok rfl
    rintro ⟨r, t, w⟩ _ rfl
    exact sim_ok rfl
  · rintro ⟨l, r, t, w⟩ _ rfl
    simp only
    refine sim_forRange rfl ?_
    rintro i ⟨t, w⟩ _ rfl
    simp only
    refine sim_bind (Q := fun a b => a.1 = b) (sim_ite (lz_update h _ _ _) (sim_ok rfl)) ?_
    rintro ⟨t, w⟩ _ rfl
    exact sim_ite (lz_update h _ _ _) (sim_ok rfl)

section
variable {g : S → σ → Res (Bool × σ)} {g₀ : S → Bool} (hg : SameAnswers g g₀)
include hg

theorem lz_maxRight (l : Nat) (w : σ) : Fst (t.maxRightE E l g w) (t.maxRight M l g₀) := by
  unfold LazySegtree.maxRightE LazySegtree.maxRight
  simp only [h.e]
  st
  obtain ⟨w, e⟩ := pred_eq hg M.e w
  rw [e]
  simp only [ok_bind]
  st
  refine sim_ite (sim_ok rfl) ?_
  refine sim_bind (lz_pushPath h _ _ _) ?_
  rintro ⟨t, w⟩ _ rfl
  simp only
  refine sim_loop (Q := fun a b => (a.1, a.2.1) = b) rfl ?_
  rintro ⟨l, s, w⟩ _ rfl
  simp only
  st; st
  refine sim_bind (fst_op h.op _ _ _) ?_
  rintro ⟨y, w⟩ _ rfl
  simp only
  obtain ⟨w, e⟩ := pred_eq hg y w
  rw [e]
  simp only [ok_bind]
  refine sim_ite ?_ ?_
  · refine sim_bind (Q := fun a b => (a.1, a.2.1, a.2.2.1) = b) (sim_while rfl ?_ ?_) ?_
    · rintro ⟨l, s, t, w⟩ _ rfl
      exact sim_refl
    · rintro ⟨l, s, t, w⟩ _ rfl
      simp only
      refine sim_bind (lz_push h _ _ _) ?_
      rintro ⟨t, w⟩ _ rfl
      simp only
      st
      refine sim_bind (fst_op h.op _ _ _) ?_
      rintro ⟨y, w⟩ _ rfl
      simp only
      obtain ⟨w, e⟩ := pred_eq hg y w
      rw [e]
      simp only [ok_bind]
      exact sim_ite (sim_ok rfl) (sim_ok rfl)
    · rintro ⟨l, s, t, w⟩ _ rfl
      simp only
      st
      exact sim_ok rfl
  · st
    sf fst_op h.op _ _ _
    exact sim_ite (sim_ok rfl) (sim_ok rfl)

theorem lz_minLeft (r : Nat) (w : σ) : Fst (t.minLeftE E r g w) (t.minLeft M r g₀) := by
  unfold LazySegtree.minLeftE LazySegtree.minLeft
  simp only [h.e]
  st
  obtain ⟨w, e⟩ := pred_eq hg M.e w
  rw [e]
  simp only [ok_bind]
  st
  refine sim_ite (sim_ok rfl) ?_
  refine sim_bind (lz_pushPath h _ _ _) ?_
  rintro ⟨t, w⟩ _ rfl
  simp only
  refine sim_loop (Q := fun a b => (a.1, a.2.1) = b) rfl ?_
  rintro ⟨l, s, w⟩ _ rfl
  simp only
  st; st; st
  refine sim_bind (fst_op h.op _ _ _) ?_
  rintro ⟨y, w⟩ _ rfl
  simp only
  obtain ⟨w, e⟩ := pred_eq hg y w
  rw [e]
  simp only [ok_bind]
  refine sim_ite ?_ ?_
  · refine sim_bind (Q := fun a b => (a.1, a.2.1, a.2.2.1) = b) (sim_while rfl ?_ ?_) ?_
    · rintro ⟨l, s, t, w⟩ _ rfl
      exact sim_refl
    · rintro ⟨l, s, t, w⟩ _ rfl
      simp only
      refine sim_bind (lz_push h _ _ _) ?_
      rintro ⟨t, w⟩ _ rfl
      simp only
      st
      refine sim_bind (fst_op h.op _ _ _) ?_
      rintro ⟨y, w⟩ _ rfl
      simp only
      obtain ⟨w, e⟩ := pred_eq hg y w
      rw [e]
      simp only [ok_bind]
      refine sim_ite ?_ (sim_ok rfl)
      st
      exact sim_ok rfl
    · rintro ⟨l, s, t, w⟩ _ rfl
      simp only
      st
      exact sim_ok rfl
  · st
    sf fst_op h.op _ _ _
    exact sim_ite (sim_ok rfl) (sim_ok rfl)

end
end

/-! ### Heavy-light decomposition -/

section
variable {E : MapEff σ S F} {M : MapMonoidOps S F} (he : SameMaps E M) (h : HLD S F)
include he

theorem hld_applyPath (u v : Nat) (f : F) (w : σ) : Fst (h.applyPathE E u v f w) (h.applyPath M u v f) := by
  unfold HLD.applyPathE HLD.applyPath
  refine sim_bind (Q := fun a b => (a.1, a.2.1, a.2.2.1) = b) (sim_while rfl ?_ ?_) ?_
  · rintro ⟨d, u, v, w⟩ _ rfl
    exact sim_refl
  · rintro ⟨d, u, v, w⟩ _ rfl
    simp only
    st; st; st; st; st; st; st
    sf lz_applyRange he _ _ _ _ _
    st
    exact sim_ok rfl
  · rintro ⟨d, u, v, w⟩ _ rfl
    simp only
    st; st; st; st
    sf lz_applyRange he _ _ _ _ _
    exact sim_ok rfl

theorem hld_pathProd (u v : Nat) (w : σ) : Fst (h.pathProdE E u v w) (h.pathProd M u v) := by
  unfold HLD.pathProdE HLD.pathProd
  simp only [he.e]
  refine sim_bind (Q := fun a b => (a.1, a.2.1, a.2.2.1, a.2.2.2.1) = b) (sim_while rfl ?_ ?_) ?_
  · rintro ⟨d, z, u, v, w⟩ _ rfl
    exact sim_refl
  · rintro ⟨d, z, u, v, w⟩ _ rfl
    simp only
    st; st; st; st; st; st; st
    refine sim_bind (lz_prod he _ _ _ _) ?_
    rintro ⟨⟨d, x⟩, w⟩ _ rfl
    simp only
    sf fst_op he.op _ _ _
    st
    exact sim_ok rfl
  · rintro ⟨d, z, u, v, w⟩ _ rfl
    simp only
    st; st; st; st
    refine sim_bind (lz_prod he _ _ _ _) ?_
    rintro ⟨⟨d, x⟩, w⟩ _ rfl
    simp only
    sf fst_op he.op _ _ _
    exact sim_ok rfl

theorem hld_applySubtree (u : Nat) (f : F) (w : σ) : Fst (h.applySubtreeE E u f w) (h.applySubtree M u f) := by
  unfold HLD.applySubtreeE HLD.applySubtree
  st; st
  sf lz_applyRange he _ _ _ _ _
  exact sim_ok rfl

theorem hld_subtreeProd (u : Nat) (w : σ) : Fst (h.subtreeProdE E u w) (h.subtreeProd M u) := by
  unfold HLD.subtreeProdE HLD.subtreeProd
  st; st
  refine sim_bind (lz_prod he _ _ _ _) ?_
  rintro ⟨⟨d, x⟩, w⟩ _ rfl
  exact sim_ok rfl

theorem hld_get (u : Nat) (w : σ) : Fst (h.getE E u w) (h.get M u) := by
  unfold HLD.getE HLD.get
  st
  refine sim_bind (lz_get he _ _ _) ?_
  rintro ⟨⟨d, x⟩, w⟩ _ rfl
  exact sim_ok rfl

theorem hld_set (u : Nat) (x : S) (w : σ) : Fst (h.setE E u x w) (h.set M u x) := by
  unfold HLD.setE HLD.set
  st
  sf lz_set he _ _ _ _
  exact sim_ok rfl

theorem hld_new (g : List (List Nat)) (root : Nat) (w : σ) : Fst (HLD.newE E g root w) (HLD.new M g root) := by
  unfold HLD.newE HLD.new LazySegtree.new
  simp only [he.e]
  st
  sf lz_from he _ _
  st; st; st
  exact sim_ok rfl

theorem hld_withInitValue (g : List (List Nat)) (root : Nat) (v : List S) (w : σ) :
    Fst (HLD.withInitValueE E g root v w) (HLD.withInitValue M g root v) := by
  unfold HLD.withInitValueE HLD.withInitValue
  st
  sf hld_new he _ _ _
  st
  sf lz_from he _ _
  exact sim_ok rfl

end
end Verif.EffP
