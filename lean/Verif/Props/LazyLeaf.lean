import Verif.Spec.LazyLeaf
import Verif.Proof.HLDLeaf
import Verif.Props.HLD
/-! C94: single elements of a lazy segment tree and node values of a heavy-light decomposition need no law of the
binary operation (`Verif/Spec/LazyLeaf.lean`). -/
namespace Verif.Props
open Res Model Spec LeafP

variable {S F : Type} {R : MapMonoidOps S F} {act : F → S → S}

theorem actOn_length (op : LOp S F) (a : List S) : (op.actOn act a).length = a.length := by
  cases op <;> simp [LOp.actOn, mapRange]

theorem lStep_holds (hR : ActsOnElements R act) {t : LazySegtree S F} {a : List S} (h : Holds R act t a)
    {op : LOp S F} (hp : op.PreE R.e a.length) :
    SatOr (OpPanics R) (lStep R t op) (fun o => Holds R act o.1 (op.actOn act a) ∧ op.PointOk a o.2) := by
  cases op with
  | set p x => exact satOr_bind ((set_holds hR h hp x).mono fun t ht => satOr_ok.2 ⟨ht, rfl⟩)
  | get p =>
    exact satOr_bind ((get_holds hR h hp).mono fun o ho =>
      satOr_ok.2 ⟨ho.1, _, List.getElem?_eq_getElem hp, by rw [ho.2]⟩)
  | prod l r => exact satOr_bind ((prod_holds hR h hp.1 hp.2).mono fun o ho => satOr_ok.2 ⟨ho, _, rfl⟩)
  | allProd =>
    obtain ⟨-, -, -, -, -, d6⟩ := h.dims
    have := Nat.two_pow_pos (bitLen (a.length - 1))
    exact satOr_bind ((idx_satOr (by omega)).mono fun x _ => satOr_ok.2 ⟨h, _, rfl⟩)
  | apply p f => exact satOr_bind ((apply_holds hR h hp f).mono fun t ht => satOr_ok.2 ⟨ht, rfl⟩)
  | applyRange l r f => exact satOr_bind ((applyRange_holds hR h hp.1 hp.2 f).mono fun t ht => satOr_ok.2 ⟨ht, rfl⟩)
  | maxRight l g =>
    exact satOr_bind ((maxRight_holds hR h hp.1 hp.2).mono fun o ho => satOr_ok.2 ⟨ho.1, _, rfl, ho.2⟩)
  | minLeft r g =>
    exact satOr_bind ((minLeft_holds hR h hp.1 hp.2).mono fun o ho => satOr_ok.2 ⟨ho.1, _, rfl, ho.2⟩)

theorem lRun_holds (hR : ActsOnElements R act) {ops : List (LOp S F)} {t : LazySegtree S F} {a : List S}
    (h : Holds R act t a) (hp : ∀ op ∈ ops, op.PreE R.e a.length) :
    SatOr (OpPanics R) (lRun R t ops) (fun o => PointRunOk act a ops o.2) := by
  induction ops generalizing t a with
  | nil => exact satOr_ok.2 trivial
  | cons op ops ih =>
    refine satOr_bind ((lStep_holds hR h (hp op (by simp))).mono ?_)
    rintro ⟨t1, o⟩ ⟨h1, h2⟩
    refine satOr_bind ((ih h1 fun op' h' => by rw [actOn_length]; exact hp op' (List.mem_cons_of_mem _ h')).mono ?_)
    rintro ⟨t2, os⟩ h3
    exact satOr_ok.2 ⟨h2, h3⟩

/-- C94: the maps act on the elements; nothing is assumed about the binary operation, except that it ends. For every
initial array and every history of calls within the preconditions, the run panics only in the binary operation, and
otherwise every `get` returns what it returns on a plain array. -/
theorem C94_history (hR : ActsOnElements R act) (a : List S) (ha : a.length < 2 ^ 32) (ops : List (LOp S F))
    (hops : ∀ op ∈ ops, op.PreE R.e a.length) :
    (∃ t0 t outs, LazySegtree.from R a = ok t0 ∧ lRun R t0 ops = ok (t, outs) ∧ PointRunOk act a ops outs) ∨
      (OpPanics R ∧ (LazySegtree.from R a >>= fun t => lRun R t ops) = .panic) := by
  rcases from_holds hR ha with ⟨t0, e0, h0⟩ | ⟨hb, e⟩
  · rw [e0]
    rcases lRun_holds hR h0 hops with ⟨⟨t, outs⟩, e1, h1⟩ | ⟨hb, e⟩
    · exact .inl ⟨t0, t, outs, rfl, e1, h1⟩
    · exact .inr ⟨hb, e⟩
  · exact .inr ⟨hb, by rw [e]; rfl⟩

/-- C94: the same from `new(n)`: the elements start as the identity element. -/
theorem C94_new (hR : ActsOnElements R act) (n : Nat) (hn : n < 2 ^ 32) (ops : List (LOp S F))
    (hops : ∀ op ∈ ops, op.PreE R.e n) :
    (∃ t0 t outs, LazySegtree.new R n = ok t0 ∧ lRun R t0 ops = ok (t, outs) ∧
        PointRunOk act (List.replicate n R.e) ops outs) ∨
      (OpPanics R ∧ (LazySegtree.new R n >>= fun t => lRun R t ops) = .panic) :=
  C94_history hR (List.replicate n R.e) (by simpa using hn) ops (by simpa using hops)

variable {g : List (List Nat)} {root : Nat}

theorem hStep_holds (hR : ActsOnElements R act) (T : IsTree g) (hr : root < g.length) (hgl : g.length < 2 ^ 32)
    {c : TreeP.Forest} {h : HLD S F} {a : List S} (k : HHolds R act g root c h a) {op : HldOp S F}
    (hp : op.Pre g.length) :
    SatOr (OpPanics R) (hStep R h op) (fun o => ∃ b, op.ActNext act g root a b ∧ HHolds R act g root c o.1 b ∧
      op.PointOk a o.2) := by
  cases op with
  | get u =>
    exact satOr_bind ((hget_holds hR k hp).mono fun o ho => satOr_ok.2 ⟨a, rfl, ho.1, _, ho.2.2, rfl⟩)
  | set u x => exact satOr_bind ((hset_holds hR k hp x).mono fun o ho => satOr_ok.2 ⟨_, rfl, ho.1, rfl⟩)
  | applyPath u v f =>
    obtain ⟨p, hpath⟩ := (T.path u v hp.1 hp.2).exists
    exact satOr_bind ((applyPath_holds hR k T hr (by omega) hp.1 hp.2 f hpath).mono fun o ho =>
      satOr_ok.2 ⟨_, ⟨p, hpath, rfl⟩, ho.1, rfl⟩)
  | pathProd u v =>
    exact satOr_bind ((pathProd_holds hR k T hr (by omega) hp.1 hp.2).mono fun o ho => satOr_ok.2 ⟨a, rfl, ho.1, _, rfl⟩)
  | applySubtree u f =>
    refine satOr_bind ((applySubtree_holds hR k T hr hp f).mono ?_)
    rintro o ⟨-, s, k2, k3⟩
    exact satOr_ok.2 ⟨_, ⟨s, k2, rfl⟩, k3, rfl⟩
  | subtreeProd u =>
    exact satOr_bind ((subtreeProd_holds hR k T hr hp).mono fun o ho => satOr_ok.2 ⟨a, rfl, ho.1, _, rfl⟩)

theorem hRun_holds (hR : ActsOnElements R act) (T : IsTree g) (hr : root < g.length) (hgl : g.length < 2 ^ 32)
    {c : TreeP.Forest} {ops : List (HldOp S F)} {h : HLD S F} {a : List S} (k : HHolds R act g root c h a)
    (hp : ∀ op ∈ ops, op.Pre g.length) :
    SatOr (OpPanics R) (hRun R h ops) (fun o => HldPointRunOk act g root a ops o.2) := by
  induction ops generalizing h a with
  | nil => exact satOr_ok.2 trivial
  | cons op ops ih =>
    refine satOr_bind ((hStep_holds hR T hr hgl k (hp op (by simp))).mono ?_)
    rintro ⟨h1, o⟩ ⟨b, k1, k2, k3⟩
    refine satOr_bind ((ih k2 fun op' h' => hp op' (List.mem_cons_of_mem _ h')).mono ?_)
    rintro ⟨h2, os⟩ k5
    exact satOr_ok.2 ⟨k3, b, k1, k5⟩

/-- C94: the same for the node values of a heavy-light decomposition, on every tree: every `get` returns what the calls
of `set`, `apply_path` and `apply_subtree` before it say. -/
theorem C94_tree (hR : ActsOnElements R act) (T : IsTree g) (hr : root < g.length) (hgl : g.length < 2 ^ 32)
    (v : List S) (hv : v.length = g.length) (ops : List (HldOp S F)) (hops : ∀ op ∈ ops, op.Pre g.length) :
    (∃ h0 h outs, HLD.withInitValue R g root v = ok h0 ∧ hRun R h0 ops = ok (h, outs) ∧
        HldPointRunOk act g root v ops outs) ∨
      (OpPanics R ∧ (HLD.withInitValue R g root v >>= fun h => hRun R h ops) = .panic) := by
  rcases withInit_holds hR T hr hgl hv with ⟨h0, e0, c, k0⟩ | ⟨hb, e⟩
  · rw [e0]
    rcases hRun_holds hR T hr hgl k0 hops with ⟨⟨h, outs⟩, e1, h1⟩ | ⟨hb, e⟩
    · exact .inl ⟨h0, h, outs, rfl, e1, h1⟩
    · exact .inr ⟨hb, e⟩
  · exact .inr ⟨hb, by rw [e]; rfl⟩

/-- C94: and from `new`, where every node starts with the identity element. -/
theorem C94_tree_new (hR : ActsOnElements R act) (T : IsTree g) (hr : root < g.length) (hgl : g.length < 2 ^ 32)
    (ops : List (HldOp S F)) (hops : ∀ op ∈ ops, op.Pre g.length) :
    (∃ h0 h outs, HLD.new R g root = ok h0 ∧ hRun R h0 ops = ok (h, outs) ∧
        HldPointRunOk act g root (List.replicate g.length R.e) ops outs) ∨
      (OpPanics R ∧ (HLD.new R g root >>= fun h => hRun R h ops) = .panic) := by
  rcases hnew_holds hR T hr hgl with ⟨h0, e0, c, k0⟩ | ⟨hb, e⟩
  · rw [e0]
    rcases hRun_holds hR T hr hgl k0 hops with ⟨⟨h, outs⟩, e1, h1⟩ | ⟨hb, e⟩
    · exact .inl ⟨h0, h, outs, rfl, e1, h1⟩
    · exact .inr ⟨hb, e⟩
  · exact .inr ⟨hb, by rw [e]; rfl⟩

/-! Sum of naturals with "replace by the minimum": the map does not distribute over the sum. -/

deriving instance DecidableEq for LOut

/-- `chmin` under sum: `none` is the identity map. -/
def chminSum : MapMonoidOps Nat (Option Nat) where
  e := 0
  op x y := ok (x + y)
  idMap := none
  mapping f x := ok (match f with | none => x | some m => min m x)
  comp f g := ok (match f, g with | none, g => g | f, none => f | some a, some b => some (min a b))

/-- The action of `chminSum`. -/
def chminAct : Option Nat → Nat → Nat
  | none, x => x
  | some m, x => min m x

theorem chminSum_acts : ActsOnElements chminSum chminAct where
  mapping f x := by cases f <;> rfl
  idMap x := rfl
  comp f g := by
    cases f <;> cases g <;> exact ⟨_, rfl, fun x => by simp [chminAct, Nat.min_assoc]⟩
  op x y := by simp [chminSum]

/-- Values up to 5 under a sum that panics beyond 100. -/
def chminSumSmall : MapMonoidOps Nat (Option Nat) :=
  { chminSum with op := fun x y => if x + y ≤ 100 then ok (x + y) else .panic }

theorem chminSumSmall_acts : ActsOnElements chminSumSmall chminAct :=
  ⟨chminSum_acts.mapping, chminSum_acts.idMap, chminSum_acts.comp, fun x y => by
    simp only [chminSumSmall]; split <;> simp⟩

/-- C94: the elements are right although the product is not: after "minimum with 3" on all of `[5, 1, 7, 2]` the
elements are `[3, 1, 3, 2]` with sum 9, but `prod(0, 4)` and `all_prod` return 3. -/
theorem C94_product_differs : ActsOnElements chminSum chminAct ∧
    (do
      let t ← LazySegtree.from chminSum [5, 1, 7, 2]
      let (_, outs) ← lRun chminSum t [.applyRange 0 4 (some 3), .prod 0 4, .allProd, .get 0, .get 1, .get 2, .get 3]
      ok outs) = ok [.unit, .val 3, .val 3, .val 3, .val 1, .val 3, .val 2] ∧
    ([5, 1, 7, 2].map (chminAct (some 3))).sum = 9 :=
  ⟨chminSum_acts, by decide +kernel, by decide⟩

/-- `x + y + 1`, for which 0 is not neutral. -/
def plusOne : MapMonoidOps Nat Unit where
  e := 0
  op x y := ok (x + y + 1)
  idMap := ()
  mapping _ x := ok x
  comp _ _ := ok ()

/-- C94: when `e()` is not neutral, `max_right` may return a position beyond the end of the array: here `7` on an array
of length 5. -/
theorem C94_search_past_end : ActsOnElements plusOne (fun _ x => x) ∧
    (do
      let t ← LazySegtree.from plusOne (List.replicate 5 0)
      let (_, outs) ← lRun plusOne t [.maxRight 0 (fun s => decide (s ≤ 7)), .get 4]
      ok outs) = ok [.num 7, .val 0] :=
  ⟨⟨fun _ _ => rfl, fun _ => rfl, fun _ _ => ⟨(), rfl, fun _ => rfl⟩, fun _ _ => by simp [plusOne]⟩,
    by decide +kernel⟩

example : ActsOnElements chminSumSmall chminAct ∧ OpPanics chminSumSmall ∧ ¬ OpPanics chminSum ∧
    (LazySegtree.from chminSumSmall [60, 30, 20] >>= fun t => lRun chminSumSmall t [.get 0]) = .panic ∧
    (∀ op ∈ ([.applyRange 0 3 (some 3), .maxRight 1 (fun s => decide (s < 4)), .set 1 9, .get 1, .get 2] :
      List (LOp Nat (Option Nat))), op.PreE chminSum.e 3) := by
  refine ⟨chminSumSmall_acts, ⟨60, 60, by decide⟩, ?_, by decide +kernel, ?_⟩
  · rintro ⟨x, y, e⟩; cases e
  · intro op h
    simp only [List.mem_cons, List.not_mem_nil, or_false] at h
    rcases h with rfl | rfl | rfl | rfl | rfl <;> simp [LOp.PreE, chminSum]

example : IsTree treeExample ∧ (∀ op ∈ ([.applyPath 2 5 (some 4), .pathProd 2 5, .applySubtree 3 (some 2), .get 3, .get 0] :
      List (HldOp Nat (Option Nat))), op.Pre treeExample.length) ∧
    (do
      let h ← HLD.withInitValue chminSum treeExample 1 [9, 8, 7, 6, 5, 3]
      let (_, outs) ← hRun chminSum h [.applyPath 2 5 (some 4), .pathProd 2 5, .applySubtree 3 (some 2), .get 3, .get 0]
      ok (outs.map fun o => match o with
        | .unit => none
        | .val x => some x)) = ok [none, some 11, none, some 2, some 4] := by
  refine ⟨treeExample_isTree, ?_, by decide +kernel⟩
  intro op h
  simp only [List.mem_cons, List.not_mem_nil, or_false] at h
  rcases h with rfl | rfl | rfl | rfl | rfl <;> simp [HldOp.Pre, treeExample]

end Verif.Props
