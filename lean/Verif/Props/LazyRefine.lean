import Mathlib.Algebra.Group.Prod
import Verif.Spec.LazyRefine
import Verif.Proof.HLDSim
import Verif.Props.HLD
/-! C64: the lazy segment tree and the heavy-light decomposition with operations that may panic. -/
namespace Verif.Props
open Res Model Spec LazySim

variable {S F A G : Type} {RS : S → A → Prop} {RF : F → G → Prop} {R : MapMonoidOps S F} {M : MapOps A G}

theorem gives_sim {x : Res S} {a : A} (h : Gives RS x a) : Sim True False RS x (ok a) := by
  rcases h with h | ⟨s, h, hs⟩
  · exact .inl ⟨trivial, h⟩
  · rw [h]; exact sim_ok hs

theorem represents_sim (h : Represents RS RF R M) : OpsSim True False RS RF R M.ops :=
  ⟨h.e, h.idMap, fun a b a' b' h1 h2 => gives_sim (h.op _ _ _ _ h1 h2),
    fun f x f' x' h1 h2 => gives_sim (h.mapping _ _ _ _ h1 h2),
    fun f x f' x' h1 h2 => gives_sim (h.comp _ _ _ _ h1 h2)⟩

theorem listRel_of {R : S → A → Prop} {l : List S} {m : List A} (h : List.Forall₂ R l m) : ListRel R l m := by
  induction h with
  | nil => exact ⟨rfl, fun i a b h => by simp at h⟩
  | cons h _ ih =>
    refine ⟨by simp [ih.1], ?_⟩
    intro i a b ha hb
    cases i with
    | zero => simp at ha hb; subst ha; subst hb; exact h
    | succ i => simp at ha hb; exact ih.2 i a b ha hb

theorem forall₂_of {R : S → A → Prop} {l : List S} {m : List A} (h : ListRel R l m) : List.Forall₂ R l m := by
  induction l generalizing m with
  | nil =>
    cases m with
    | nil => exact .nil
    | cons _ _ => exact absurd h.1 (by simp)
  | cons x l ih =>
    cases m with
    | nil => exact absurd h.1 (by simp)
    | cons y m =>
      refine .cons (h.2 0 x y (by simp) (by simp)) (ih ⟨by simpa using h.1, ?_⟩)
      intro i a b ha hb
      exact h.2 (i + 1) a b (by simpa using ha) (by simpa using hb)

theorem lStep_sim {p q : Prop} {B : MapMonoidOps A G} (h : OpsSim p q RS RF R B) {t : LazySegtree S F} {t' : LazySegtree A G} (ht : TR RS RF t t') {op : LOp S F}
    {op' : LOp A G} (ho : op.Like RS RF op') :
    Sim p q (fun o o' => TR RS RF o.1 o'.1 ∧ LOut.Like RS o.2 o'.2) (lStep R t op) (lStep B t' op') := by
  cases op <;> cases op' <;> try exact ho.elim
  · obtain ⟨rfl, hx⟩ := ho
    exact sim_bind (set_sim h ht _ hx) fun _ _ k => sim_ok ⟨k, trivial⟩
  · cases ho
    exact sim_bind (LazySim.get_sim h ht _) fun _ _ k => sim_ok k
  · obtain ⟨rfl, rfl⟩ := ho
    exact sim_bind (prod_sim h ht _ _) fun _ _ k => sim_ok k
  · exact sim_bind (allProd_sim ht) fun _ _ k => sim_ok ⟨ht, k⟩
  · obtain ⟨rfl, hf⟩ := ho
    exact sim_bind (apply_sim h ht _ hf) fun _ _ k => sim_ok ⟨k, trivial⟩
  · obtain ⟨rfl, rfl, hf⟩ := ho
    exact sim_bind (applyRange_sim h ht _ _ hf) fun _ _ k => sim_ok ⟨k, trivial⟩
  · obtain ⟨rfl, hg⟩ := ho
    exact sim_bind (maxRight_sim h ht _ hg) fun _ _ k => sim_ok k
  · obtain ⟨rfl, hg⟩ := ho
    exact sim_bind (minLeft_sim h ht _ hg) fun _ _ k => sim_ok k

theorem lRun_sim {p q : Prop} {B : MapMonoidOps A G} (h : OpsSim p q RS RF R B) {ops : List (LOp S F)} {ops' : List (LOp A G)}
    (ho : List.Forall₂ (LOp.Like RS RF) ops ops') {t : LazySegtree S F} {t' : LazySegtree A G} (ht : TR RS RF t t') :
    Sim p q (fun o o' => TR RS RF o.1 o'.1 ∧ List.Forall₂ (LOut.Like RS) o.2 o'.2) (lRun R t ops) (lRun B t' ops') := by
  induction ho generalizing t t' with
  | nil => exact sim_ok ⟨ht, .nil⟩
  | cons hop _ ih =>
    refine sim_bind (lStep_sim h ht hop) ?_
    rintro ⟨t1, o⟩ ⟨t1', o'⟩ ⟨h1, h2⟩
    refine sim_bind (ih h1) ?_
    rintro ⟨t2, os⟩ ⟨t2', os'⟩ ⟨h3, h4⟩
    exact sim_ok ⟨h3, .cons h2 h4⟩

/-- C64: with operations that may panic, every history of calls on the lazy segment tree either panics
or returns representatives of admissible results. -/
theorem C64_lazy [Monoid A] (hM : LawfulMap M) (hR : Represents RS RF R M) (v : List S) (a : List A)
    (hv : List.Forall₂ RS v a) (ha : a.length < 2 ^ 32) (ops : List (LOp S F)) (ops' : List (LOp A G))
    (ho : List.Forall₂ (LOp.Like RS RF) ops ops') (hops : ∀ op ∈ ops', op.Pre a.length) :
    (do let t ← LazySegtree.from R v; Prod.snd <$> lRun R t ops : Res _) = Res.panic ∨
    ∃ outs outs', (do let t ← LazySegtree.from R v; Prod.snd <$> lRun R t ops : Res _) = ok outs ∧
      List.Forall₂ (LOut.Like RS) outs outs' ∧ LRunOk M a ops' outs' := by
  obtain ⟨t0, t, outs, e0, e1, h⟩ := C07_history hM a ha ops' hops
  have hs := represents_sim hR
  rcases from_sim hs (listRel_of hv) with ⟨-, e⟩ | ⟨h, -⟩ | ⟨-, e⟩ | ⟨-, e⟩ | ⟨t1, t1', e2, e3, k⟩
  · left; rw [e]; rfl
  · exact h.elim
  · rw [e0] at e; cases e
  · rw [e0] at e; cases e
  rw [e0] at e3; cases e3
  rcases lRun_sim hs ho k with ⟨-, e⟩ | ⟨h, -⟩ | ⟨-, e⟩ | ⟨-, e⟩ | ⟨o, o', e4, e5, k1, k2⟩
  · left; rw [e2, ok_bind, e]; rfl
  · exact h.elim
  · rw [e1] at e; cases e
  · rw [e1] at e; cases e
  rw [e1] at e5; cases e5
  exact .inr ⟨o.2, outs, by rw [e2, ok_bind, e4]; rfl, k2, h⟩

theorem hStep_sim {p q : Prop} {B : MapMonoidOps A G} (o : OpsSim p q RS RF R B) {h : HLD S F} {h' : HLD A G}
    (hh : HR RS RF h h') {op : HldOp S F} {op' : HldOp A G} (ho : op.Like RS RF op') :
    Sim p q (fun o o' => HR RS RF o.1 o'.1 ∧ HldOut.Like RS o.2 o'.2) (hStep R h op) (hStep B h' op') := by
  cases op <;> cases op' <;> try exact ho.elim
  · cases ho
    exact sim_bind (H.get_sim o hh _) fun _ _ k => sim_ok k
  · obtain ⟨rfl, hx⟩ := ho
    exact sim_bind (H.set_sim o hh _ hx) fun _ _ k => sim_ok ⟨k, trivial⟩
  · obtain ⟨rfl, rfl, hf⟩ := ho
    exact sim_bind (H.applyPath_sim o hh _ _ hf) fun _ _ k => sim_ok ⟨k, trivial⟩
  · obtain ⟨rfl, rfl⟩ := ho
    exact sim_bind (H.pathProd_sim o hh _ _) fun _ _ k => sim_ok k
  · obtain ⟨rfl, hf⟩ := ho
    exact sim_bind (H.applySubtree_sim o hh _ hf) fun _ _ k => sim_ok ⟨k, trivial⟩
  · cases ho
    exact sim_bind (H.subtreeProd_sim o hh _) fun _ _ k => sim_ok k

theorem hRun_sim {p q : Prop} {B : MapMonoidOps A G} (o : OpsSim p q RS RF R B) {ops : List (HldOp S F)}
    {ops' : List (HldOp A G)} (ho : List.Forall₂ (HldOp.Like RS RF) ops ops') {h : HLD S F} {h' : HLD A G}
    (hh : HR RS RF h h') :
    Sim p q (fun o o' => HR RS RF o.1 o'.1 ∧ List.Forall₂ (HldOut.Like RS) o.2 o'.2) (hRun R h ops) (hRun B h' ops') := by
  induction ho generalizing h h' with
  | nil => exact sim_ok ⟨hh, .nil⟩
  | cons hop _ ih =>
    refine sim_bind (hStep_sim o hh hop) ?_
    rintro ⟨t1, o⟩ ⟨t1', o'⟩ ⟨h1, h2⟩
    refine sim_bind (ih h1) ?_
    rintro ⟨t2, os⟩ ⟨t2', os'⟩ ⟨h3, h4⟩
    exact sim_ok ⟨h3, .cons h2 h4⟩

/-- C64: the same for the heavy-light decomposition built by `with_init_value`. -/
theorem C64_hld [Monoid A] (hM : LawfulMap M) (hR : Represents RS RF R M) (g : List (List Nat)) (root : Nat)
    (T : IsTree g) (hr : root < g.length) (hgl : g.length < 2 ^ 32) (v : List S) (a : List A)
    (hv : List.Forall₂ RS v a) (ha : a.length = g.length) (ops : List (HldOp S F)) (ops' : List (HldOp A G))
    (ho : List.Forall₂ (HldOp.Like RS RF) ops ops') (hops : ∀ op ∈ ops', op.Pre g.length) :
    (do let h ← HLD.withInitValue R g root v; Prod.snd <$> hRun R h ops : Res _) = Res.panic ∨
    ∃ outs outs' ord, (do let h ← HLD.withInitValue R g root v; Prod.snd <$> hRun R h ops : Res _) = ok outs ∧
      List.Forall₂ (HldOut.Like RS) outs outs' ∧ ord.Perm (List.range g.length) ∧
      HldRunOk M g root ord a ops' outs' := by
  obtain ⟨t0, t, outs, ord, e0, e1, -, h1, -, h⟩ := C23_history hM T hr hgl a ha ops' hops
  have hs := represents_sim hR
  rcases H.withInitValue_sim hs g root (listRel_of hv) with ⟨-, e⟩ | ⟨h, -⟩ | ⟨-, e⟩ | ⟨-, e⟩ | ⟨t1, t1', e2, e3, k⟩
  · left; rw [e]; rfl
  · exact h.elim
  · rw [e0] at e; cases e
  · rw [e0] at e; cases e
  rw [e0] at e3; cases e3
  rcases hRun_sim hs ho k with ⟨-, e⟩ | ⟨h, -⟩ | ⟨-, e⟩ | ⟨-, e⟩ | ⟨o, o', e4, e5, k1, k2⟩
  · left; rw [e2, ok_bind, e]; rfl
  · exact h.elim
  · rw [e1] at e; cases e
  · rw [e1] at e; cases e
  rw [e1] at e5; cases e5
  exact .inr ⟨o.2, outs, ord, by rw [e2, ok_bind, e4]; rfl, k2, h1, h⟩

/-- Sums of `i32` values with their number; a map adds a number to every value. Each step is checked. -/
def sumI32 : MapMonoidOps (Int × Int) Int where
  e := (0, 0)
  op x y := do
    let s ← ckI 32 (x.1 + y.1)
    let n ← ckI 32 (x.2 + y.2)
    ok (s, n)
  idMap := 0
  mapping f x := do
    let c ← ckI 32 (f * x.2)
    let s ← ckI 32 (x.1 + c)
    ok (s, x.2)
  comp f g := ckI 32 (f + g)

/-- The same without bounds. -/
def sumZ : MapOps (Multiplicative (Int × Int)) Int where
  e := 1
  op x y := x * y
  idMap := 0
  mapping f x := .ofAdd (x.toAdd.1 + f * x.toAdd.2, x.toAdd.2)
  comp f g := f + g

theorem sumZ_lawful : LawfulMap sumZ where
  e_eq := rfl
  op_eq _ _ := rfl
  id_map x := by
    show Multiplicative.ofAdd (x.toAdd.1 + 0 * x.toAdd.2, x.toAdd.2) = x
    rw [Int.zero_mul, Int.add_zero]; rfl
  comp_map f g x := by
    show Multiplicative.ofAdd (x.toAdd.1 + (f + g) * x.toAdd.2, x.toAdd.2) =
      Multiplicative.ofAdd (x.toAdd.1 + g * x.toAdd.2 + f * x.toAdd.2, x.toAdd.2)
    rw [Int.add_mul, Int.add_assoc, Int.add_comm (g * _)]
  map_op f x y := by
    show Multiplicative.ofAdd (x.toAdd.1 + y.toAdd.1 + f * (x.toAdd.2 + y.toAdd.2), x.toAdd.2 + y.toAdd.2) =
      Multiplicative.ofAdd ((x.toAdd.1 + f * x.toAdd.2) + (y.toAdd.1 + f * y.toAdd.2), x.toAdd.2 + y.toAdd.2)
    rw [Int.mul_add]
    congr 2
    omega

theorem ckI_cases (w : Nat) (x : Int) : ckI w x = .panic ∨ ckI w x = ok x := by
  unfold ckI; split <;> simp

/-- A concrete representation for C64: the hypotheses hold of checked `i32` sums. -/
theorem sumI32_represents : Represents (fun x a => a = Multiplicative.ofAdd x) (fun f φ => φ = f) sumI32 sumZ := by
  refine ⟨rfl, rfl, ?_, ?_, ?_⟩
  · intro x y a b h1 h2
    rw [show a = _ from h1, show b = _ from h2]
    simp only [sumI32]
    rcases ckI_cases 32 (x.1 + y.1) with e | e <;> rw [e]
    · exact .inl rfl
    rcases ckI_cases 32 (x.2 + y.2) with e | e <;> rw [ok_bind, e]
    · exact .inl rfl
    · exact .inr ⟨_, rfl, rfl⟩
  · intro f x φ a h1 h2
    rw [show φ = f from h1, show a = _ from h2]
    simp only [sumI32]
    rcases ckI_cases 32 (f * x.2) with e | e <;> rw [e]
    · exact .inl rfl
    rcases ckI_cases 32 (x.1 + f * x.2) with e | e <;> rw [ok_bind, e]
    · exact .inl rfl
    · exact .inr ⟨_, rfl, rfl⟩
  · intro f g φ γ h1 h2
    rw [show φ = f from h1, show γ = g from h2]
    simp only [sumI32]
    rcases ckI_cases 32 (f + g) with e | e <;> rw [e]
    · exact .inl rfl
    · exact .inr ⟨_, rfl, rfl⟩

/-- Both outcomes occur: here the sum of the first three values fits, the sum of all four does not. -/
example : (do
    let t ← LazySegtree.from sumI32 [(1, 1), (2, 1), (3, 1)]
    let t ← t.applyRange sumI32 0 3 700000000
    Prod.snd <$> t.prod sumI32 0 3 : Res _) = ok (2100000006, 3) ∧
  (do
    let t ← LazySegtree.from sumI32 [(1, 1), (2, 1), (3, 1), (4, 1)]
    let t ← t.applyRange sumI32 0 4 700000000
    Prod.snd <$> t.prod sumI32 0 3 : Res _) = Res.panic := by decide +kernel

example : (do
    let h ← HLD.withInitValue sumI32 [[1, 2], [0, 3], [0], [1]] 0 [(1, 1), (2, 1), (3, 1), (4, 1)]
    let h ← h.applyPath sumI32 3 2 400000000
    Prod.snd <$> h.pathProd sumI32 2 1 : Res _) = ok (1200000006, 3) ∧
  (do
    let h ← HLD.withInitValue sumI32 [[1, 2], [0, 3], [0], [1]] 0 [(1, 1), (2, 1), (3, 1), (4, 1)]
    let h ← h.applyPath sumI32 3 2 900000000
    Prod.snd <$> h.pathProd sumI32 2 1 : Res _) = Res.panic := by decide +kernel

end Verif.Props
