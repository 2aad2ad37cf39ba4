import Verif.Proof.TwoTrees
import Verif.Spec.TwoTrees
import Verif.Props.LazySegtree
import Verif.Props.SegtreeAny
import Verif.Props.LazyLeaf
/-! C95: a lazy segment tree on which no range is mapped is a segment tree. -/
namespace Verif.Props
open Res Model Spec TwoP

variable {S F : Type} {M : MapMonoidOps S F}

/-- The calls of the lazy tree on the plain one: mapping a position is reading it, mapping the value and writing it
back. Mapping a range is not there. -/
def pStep (M : MapMonoidOps S F) (s : Segtree S) : LOp S F → Res (Segtree S × LOut S)
  | .set p x => sStep ⟨M.e, M.op⟩ s (.set p x)
  | .get p => sStep ⟨M.e, M.op⟩ s (.get p)
  | .prod l r => sStep ⟨M.e, M.op⟩ s (.prod l r)
  | .allProd => sStep ⟨M.e, M.op⟩ s .allProd
  | .maxRight l g => sStep ⟨M.e, M.op⟩ s (.maxRight l g)
  | .minLeft r g => sStep ⟨M.e, M.op⟩ s (.minLeft r g)
  | .apply p f => do
    let x ← s.get p
    let y ← M.mapping f x
    let s ← s.set ⟨M.e, M.op⟩ p y
    ok (s, .unit)
  | .applyRange _ _ _ => Res.panic

/-- A history of calls with its results. -/
def pRun (M : MapMonoidOps S F) (s : Segtree S) : List (LOp S F) → Res (Segtree S × List (LOut S))
  | [] => ok (s, [])
  | op :: ops => do
    let (s, o) ← pStep M s op
    let (s, os) ← pRun M s ops
    ok (s, o :: os)

theorem bind_unit_sim {t : Res (LazySegtree S F)} {s : Res (Segtree S)} {o : LOut S}
    (h : Sim False False (fun t s => t = lazy M s ∧ Dim s) t s) :
    Sim False False (fun a b => (a.1 = lazy M b.1 ∧ Dim b.1) ∧ a.2 = b.2) (t >>= fun t => ok (t, o))
      (s >>= fun s => ok (s, o)) :=
  sim_bind h fun _ _ h => sim_ok ⟨h, rfl⟩

theorem lStep_plain (hI : IdOk M) {s : Segtree S} (hd : Dim s) {op : LOp S F} (hr : op.NoRangeMap)
    (he : op.EmptyProd → M.op M.e M.e = ok M.e) :
    Sim False False (fun a b => (a.1 = lazy M b.1 ∧ Dim b.1) ∧ a.2 = b.2) (lStep M (lazy M s) op) (pStep M s op) := by
  cases op with
  | set p x => exact bind_unit_sim (set_tl hI hd p x)
  | get p => exact sim_bind (get_tl hI hd p) fun o x e => by subst e; exact sim_ok ⟨⟨rfl, hd⟩, rfl⟩
  | prod l r => exact sim_bind (prod_tl hI hd l r he) fun o x e => by subst e; exact sim_ok ⟨⟨rfl, hd⟩, rfl⟩
  | allProd => exact sim_bind (sim_refl (x := idx s.d 1)) fun o x e => by subst e; exact sim_ok ⟨⟨rfl, hd⟩, rfl⟩
  | maxRight l g => exact sim_bind (maxRight_tl hI hd l g) fun o x e => by subst e; exact sim_ok ⟨⟨rfl, hd⟩, rfl⟩
  | minLeft r g => exact sim_bind (minLeft_tl hI hd r g) fun o x e => by subst e; exact sim_ok ⟨⟨rfl, hd⟩, rfl⟩
  | apply p f =>
    have := bind_unit_sim (o := .unit) (apply_tl hI hd p f)
    unfold mapAt at this
    rw [Res.bind_assoc] at this
    simp only [Res.bind_assoc] at this
    exact this
  | applyRange l r f => exact hr.elim

theorem lRun_plain (hI : IdOk M) {s : Segtree S} (hd : Dim s) {ops : List (LOp S F)} (hr : ∀ op ∈ ops, op.NoRangeMap)
    (he : ∀ op ∈ ops, op.EmptyProd → M.op M.e M.e = ok M.e) :
    Sim False False (fun a b => (a.1 = lazy M b.1 ∧ Dim b.1) ∧ a.2 = b.2) (lRun M (lazy M s) ops) (pRun M s ops) := by
  induction ops generalizing s with
  | nil => exact sim_ok ⟨⟨rfl, hd⟩, rfl⟩
  | cons op ops ih =>
    refine sim_bind (lStep_plain hI hd (hr op (by simp)) (he op (by simp))) ?_
    rintro ⟨t, r⟩ ⟨s, o⟩ ⟨⟨h1, hd⟩, h2⟩
    cases (show t = lazy M s from h1)
    cases (show r = o from h2)
    refine sim_bind (ih hd (fun op h => hr op (by simp [h])) (fun op h => he op (by simp [h]))) ?_
    rintro ⟨t, r⟩ ⟨s, os⟩ ⟨⟨h1, hd⟩, h2⟩
    cases (show t = lazy M s from h1)
    cases (show r = os from h2)
    exact sim_ok ⟨⟨rfl, hd⟩, rfl⟩

/-- All of a lazy tree. -/
def lazyParts (t : LazySegtree S F) : Nat × Nat × Nat × List S × List F := (t.n, t.size, t.log, t.d, t.lz)

/-- All of a plain tree, and as many identity maps as it has inner positions. -/
def plainParts (f : F) (s : Segtree S) : Nat × Nat × Nat × List S × List F :=
  (s.n, s.size, s.log, s.d, List.replicate s.size f)

theorem from_plain (hI : IdOk M) (a : List S) {ops : List (LOp S F)} (hr : ∀ op ∈ ops, op.NoRangeMap)
    (he : ∀ op ∈ ops, op.EmptyProd → M.op M.e M.e = ok M.e) :
    (do let t ← LazySegtree.from M a; let (t, os) ← lRun M t ops; ok (lazyParts t, os)) =
      (do let s ← Segtree.from ⟨M.e, M.op⟩ a; let (s, os) ← pRun M s ops; ok (plainParts M.idMap s, os)) := by
  have : Sim False False Eq
      (do let t ← LazySegtree.from M a; let (t, os) ← lRun M t ops; ok (lazyParts t, os))
      (do let s ← Segtree.from ⟨M.e, M.op⟩ a; let (s, os) ← pRun M s ops; ok (plainParts M.idMap s, os)) := by
    refine sim_bind (from_tl a) ?_
    rintro _ s ⟨rfl, hd⟩
    refine sim_bind (lRun_plain hI hd hr he) ?_
    rintro ⟨t, r⟩ ⟨s, os⟩ ⟨⟨h1, hd⟩, h2⟩
    cases (show t = lazy M s from h1)
    cases (show r = os from h2)
    exact sim_ok rfl
  rcases this with h | h | ⟨h, h'⟩ | ⟨h, h'⟩ | ⟨_, _, h, h', rfl⟩
  · exact h.1.elim
  · exact h.1.elim
  · rw [h, h']
  · rw [h, h']
  · rw [h, h']

/-- **C95**: a lazy segment tree made from a list, through any calls except those that map a range, returns the same
results as a segment tree made from that list with the same identity and operation, holds the same table, and has only
identity maps pending; a position is mapped by reading, mapping and writing. It panics exactly when the plain tree does
(also where arguments are out of range, or the operation, a map or a predicate panics). No law is asked of the operation;
if it does not satisfy `e·e = e`, no product of an empty range may be asked for. -/
theorem C95_history (hM : IdentityMap M) (a : List S) {ops : List (LOp S F)} (hr : ∀ op ∈ ops, op.NoRangeMap)
    (he : M.op M.e M.e = ok M.e ∨ ∀ op ∈ ops, ¬ op.EmptyProd) :
    (do let t ← LazySegtree.from M a; let (t, os) ← lRun M t ops; ok (lazyParts t, os)) =
      (do let s ← Segtree.from ⟨M.e, M.op⟩ a; let (s, os) ← pRun M s ops; ok (plainParts M.idMap s, os)) :=
  from_plain ⟨hM.mapping, hM.comp⟩ a hr fun op h h' => he.elim id fun he => (he op h h').elim

/-- The same from a tree made by `new`. -/
theorem C95_new (hM : IdentityMap M) (n : Nat) {ops : List (LOp S F)} (hr : ∀ op ∈ ops, op.NoRangeMap)
    (he : M.op M.e M.e = ok M.e ∨ ∀ op ∈ ops, ¬ op.EmptyProd) :
    (do let t ← LazySegtree.new M n; let (t, os) ← lRun M t ops; ok (lazyParts t, os)) =
      (do let s ← Segtree.new ⟨M.e, M.op⟩ n; let (s, os) ← pRun M s ops; ok (plainParts M.idMap s, os)) :=
  C95_history hM _ hr he

/-- The product of an empty range: the lazy tree returns the identity, the plain tree combines it with itself. -/
theorem C95_empty (t : LazySegtree S F) (s : Segtree S) {l l' : Nat} (h : l ≤ t.n) (h' : l' ≤ s.n) :
    t.prod M l l = ok (t, M.e) ∧ s.prod ⟨M.e, M.op⟩ l' l' = M.op M.e M.e := by
  constructor
  · unfold LazySegtree.prod
    rw [assert_true ⟨Nat.le_refl _, h⟩, ok_bind, if_pos rfl]
  · unfold Segtree.prod
    rw [assert_true ⟨Nat.le_refl _, h'⟩, ok_bind]
    simp [whileLoop, ok_bind]

/-- Subtraction with identity 7, maps multiply. No law holds, except that multiplying by one does nothing. -/
def subOps : MapMonoidOps Int Int := ⟨7, fun a b => ok (a - b), 1, fun f x => ok (f * x), fun f g => ok (f * g)⟩

theorem subOps_id : IdentityMap subOps := ⟨fun x => by simp [subOps], rfl⟩

/-- So without `e·e = e` the two trees differ on an empty product. -/
theorem C95_empty_differs :
    (do let t ← LazySegtree.from subOps [3, 5]; let (_, os) ← lRun subOps t [.prod 1 1]; ok os) = ok [.val 7] ∧
    (do let s ← Segtree.from ⟨subOps.e, subOps.op⟩ [3, 5]; let (_, os) ← pRun subOps s [.prod 1 1]; ok os) = ok [.val 0] := by
  decide

/-- An operation without laws; the last call is out of range and both trees panic. -/
example :
    let ops : List (LOp Int Int) := [.set 1 10, .prod 0 3, .apply 2 (-1), .prod 1 3, .get 2, .allProd,
      .maxRight 0 (fun x => decide (0 < x ∧ x < 20)), .minLeft 3 (fun x => decide (x ≠ 9))]
    (∀ op ∈ ops, op.NoRangeMap) ∧ (∀ op ∈ ops, ¬ op.EmptyProd) ∧
    (do let t ← LazySegtree.from subOps [3, 5, 9]; let (_, os) ← lRun subOps t ops; ok os) =
      (do let s ← Segtree.from ⟨subOps.e, subOps.op⟩ [3, 5, 9]; let (_, os) ← pRun subOps s ops; ok os) ∧
    (do let t ← LazySegtree.from subOps [3, 5, 9]; let (_, os) ← lRun subOps t ops; ok os) =
      ok [.unit, .val 16, .unit, .val 13, .val (-9), .val 9, .num 2, .num 1] ∧
    (do let t ← LazySegtree.from subOps [3, 5, 9]; let (_, os) ← lRun subOps t [.get 3]; ok os) = Res.panic := by
  refine ⟨?_, ?_, ?_⟩
  · simp [LOp.NoRangeMap]
  · simp [LOp.EmptyProd]
  · decide

end Verif.Props
