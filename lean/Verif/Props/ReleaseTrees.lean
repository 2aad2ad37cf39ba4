import Verif.Proof.ReleaseWrap
import Verif.Props.Fenwick
import Verif.Props.SegtreeAny
import Verif.Props.LazyRefine
/-! C89: range structures in a release build. -/
namespace Verif.Props
open Model Spec Res ReleaseP LazySim

/-! ### Fenwick tree -/

/-- A history of `add(i, v)` calls in a release build. -/
def fenwickRunR {A : Type} (add : A → A → Res A) (t : Fenwick A) : List (Nat × A) → Res (Fenwick A)
  | [] => .ok t
  | (i, v) :: ops => do let t ← Release.Fenwick.addAt add t i v; fenwickRunR add t ops

theorem fenwickRunR_rls {A : Type} (add : A → A → Res A) (t : Fenwick A) (ops : List (Nat × A)) :
    Rls (fenwickRun add t ops) (fenwickRunR add t ops) := by
  induction ops generalizing t with
  | nil => exact rls_refl
  | cons o ops ih => exact rls_bind (fenwickAddAt_rls ..) fun t => ih t

/-- Addition and subtraction of a primitive integer type in a release build. -/
def addR (ty : IntTy) (a b : Val ty) : Res (Val ty) := ok (Release.wr ty (a.1 + b.1))
@[inherit_doc addR] def subR (ty : IntTy) (a b : Val ty) : Res (Val ty) := ok (Release.wr ty (a.1 - b.1))

theorem val_ext {ty : IntTy} {x y : Val ty} (h : x.1 = y.1) : x = y := by
  cases x; cases y; cases h; rfl

theorem map_addTo {A B : Type} [AddCommMonoid A] [AddCommMonoid B] (φ : A →+ B) (a : List A) (i : Nat) (v : A) :
    (addTo a i v).map φ = addTo (a.map φ) i (φ v) := by
  unfold addTo
  apply List.ext_getElem?
  intro k
  rw [List.getElem?_map, List.getElem?_modify, List.getElem?_modify, List.getElem?_map]
  cases a[k]? with
  | none => rfl
  | some x => by_cases h : i = k <;> simp [h]

theorem map_addAll {A B : Type} [AddCommMonoid A] [AddCommMonoid B] (φ : A →+ B) (a : List A) (ops : List (Nat × A)) :
    (addAll a ops).map φ = addAll (a.map φ) (ops.map fun o => (o.1, φ o.2)) := by
  induction ops generalizing a with
  | nil => rfl
  | cons o ops ih =>
    obtain ⟨i, v⟩ := o
    rw [addAll, ih, map_addTo]
    rfl

/-- **C89.** A Fenwick tree of primitive integers in a release build, for every list of integers and every history of
additions, without any bound on the sums: prefix sums and range sums are those of the plain integers, reduced to the
type. So an answer is right whenever it fits, even if sums on the way overflow. -/
theorem C89_fenwick (ty : IntTy) (a : List Int) (ha : a.length < 2 ^ 63) (ops : List (Nat × Int))
    (hi : ∀ o ∈ ops, o.1 + 1 < 2 ^ 64) :
    ∃ t0 t, Release.Fenwick.from (addR ty) (Release.wr ty 0) (a.map (Release.wr ty)) = ok t0 ∧
      fenwickRunR (addR ty) t0 (ops.map fun o => (o.1, Release.wr ty o.2)) = ok t ∧
      (∀ i, i ≤ a.length → t.pref (addR ty) (Release.wr ty 0) i = ok (Release.wr ty ((addAll a ops).take i).sum)) ∧
      (∀ l r, l ≤ r → r ≤ a.length → t.sum (addR ty) (subR ty) (Release.wr ty 0) l r =
        ok (Release.wr ty (((addAll a ops).take r).drop l).sum)) := by
  let _ := wrapMonoid ty
  have hz : (0 : Val ty) = Release.wr ty 0 := ((wrapHom ty).map_zero).symm
  have hc : CheckedAdd (addR ty) (subR ty) (fun _ => True) := by
    refine ⟨fun _ _ _ => rfl, fun a b _ _ _ => congrArg ok (val_ext ?_)⟩
    show Release.wrap ty (Release.wrap ty (a.1 + b.1) - a.1) = b.1
    rw [Int.sub_eq_add_neg, wrap_add_left, show a.1 + b.1 + -a.1 = b.1 by omega]
    exact congrArg (·.1) (wr_val b)
  obtain ⟨t, ⟨t0, e0, e1⟩, h1, h2, -⟩ := C02_history (add := addR ty) (sub := subR ty) (Fits := fun _ => True)
    (a.map (wrapHom ty)) (ops.map fun o => (o.1, wrapHom ty o.2))
    ⟨hc, by simpa using ha, by
      intro p hp
      obtain ⟨o, ho, rfl⟩ := List.mem_map.1 hp
      exact hi o ho, fun _ _ _ _ => trivial⟩
  rw [hz] at e0
  refine ⟨t0, t, (fenwickFrom_rls ..).run e0, (fenwickRunR_rls ..).run e1, fun i hi' => ?_, fun l r hlr hr => ?_⟩
  · have := h1 i (by simpa using hi')
    rw [← map_addAll, ← List.map_take, ← map_list_sum, hz] at this
    exact this
  · have := h2 l r hlr (by simpa using hr)
    rw [← map_addAll, ← List.map_take, ← List.map_drop, ← map_list_sum, hz] at this
    exact this

/-- C89: `partition_point` and `search` on an empty tree: the release build returns `0`, the debug build panics. -/
theorem C89_fenwick_empty {T : Type} (add : T → T → Res T) (zero : T) (pred : T → Bool) :
    Release.Fenwick.partitionPoint add zero (Fenwick.new zero 0) pred = ok 0 ∧
    Fenwick.partitionPoint add zero (Fenwick.new zero 0) pred = .panic := by
  constructor
  · unfold Release.Fenwick.partitionPoint Release.subU
    rw [ok_bind]
    generalize (if leadingZeros usizeBits (Fenwick.new zero 0).n ≤ usizeBits - 1 then _ else _ : Nat) = hi
    obtain ⟨⟨pos, s⟩, e, h⟩ := forRangeRev_sat (lo := 0) (hi := hi + 1) (s := ((0, zero) : Nat × T))
      (f := fun i (pos, sum) => do
        let next ← Release.addU 64 pos (1 <<< (i % 64))
        let b ← (if next ≤ (Fenwick.new zero 0).n then do
          let x ← idx (Fenwick.new zero 0).ary (Release.dec next)
          let s ← add sum x
          ok (pred s)
        else ok false)
        if b then do
          let x ← idx (Fenwick.new zero 0).ary (Release.dec next)
          let sum ← add sum x
          ok (next, sum)
        else ok (pos, sum)) (fun _ s => s.1 = 0) (by omega) rfl (by
          rintro j ⟨pos, sum⟩ - - h
          cases (show pos = 0 from h)
          have hlt : (1 : Nat) <<< (j % 64) < 2 ^ 64 := by
            rw [Nat.one_shiftLeft]
            exact Nat.pow_lt_pow_right (by decide) (Nat.mod_lt _ (by decide))
          have hpos : 0 < (1 : Nat) <<< (j % 64) := by rw [Nat.one_shiftLeft]; exact Nat.two_pow_pos _
          have hn : ¬ waddU 64 0 (1 <<< (j % 64)) ≤ (Fenwick.new zero 0).n := by
            show ¬ (0 + 1 <<< (j % 64)) % 2 ^ 64 ≤ 0
            rw [Nat.zero_add, Nat.mod_eq_of_lt hlt]
            omega
          simp only [Release.addU, ok_bind, if_neg hn]
          exact ⟨_, rfl, rfl⟩)
    rw [e, ok_bind]
    cases (show pos = 0 from h)
    rfl
  · rfl

/-- C89: in the debug build the same tree panics while it is built, although every element and the sum of all of them
is an `i8`; the release build answers `100`. -/
example : (do
    let t ← Release.Fenwick.from (addR ⟨true, 8⟩) (Release.wr ⟨true, 8⟩ 0) ([100, 100, -100].map (Release.wr ⟨true, 8⟩))
    let x ← t.sum (addR ⟨true, 8⟩) (subR ⟨true, 8⟩) (Release.wr ⟨true, 8⟩ 0) 0 3
    ok x.1 : Res _) = ok 100 ∧
  Fenwick.from (fun a b => ckI 8 (a + b)) 0 [100, 100, -100] = .panic := by decide +kernel

/-! ### Segment trees -/

section trees
variable {S F A G : Type} {RS : S → A → Prop} {RF : F → G → Prop}

/-- One call on a segment tree in a release build. -/
def sStepR (M : MonoidOps S) (t : Segtree S) : SOp S → Res (Segtree S × LOut S)
  | .maxRight l g => do let k ← Release.Segtree.maxRight M t l g; ok (t, .num k)
  | .minLeft r g => do let k ← Release.Segtree.minLeft M t r g; ok (t, .num k)
  | op => sStep M t op

/-- A history of calls with its results. -/
def sRunR (M : MonoidOps S) (t : Segtree S) : List (SOp S) → Res (Segtree S × List (LOut S))
  | [] => ok (t, [])
  | op :: ops => do
    let (t, o) ← sStepR M t op
    let (t, os) ← sRunR M t ops
    ok (t, o :: os)

theorem sRunR_rls (M : MonoidOps S) (t : Segtree S) (ops : List (SOp S)) : Rls (sRun M t ops) (sRunR M t ops) := by
  induction ops generalizing t with
  | nil => exact rls_refl
  | cons op ops ih =>
    refine rls_bind ?_ ?_
    · cases op <;> first | exact rls_refl | exact rls_bind (segMaxRight_rls ..) fun _ => rls_refl |
        exact rls_bind (segMinLeft_rls ..) fun _ => rls_refl
    · rintro ⟨t, o⟩
      exact rls_bind (ih t) fun _ => rls_refl

/-- One call on a lazy segment tree in a release build. -/
def lStepR (M : MapMonoidOps S F) (t : LazySegtree S F) : LOp S F → Res (LazySegtree S F × LOut S)
  | .maxRight l g => do let (t, r) ← Release.LazySegtree.maxRight M t l g; ok (t, .num r)
  | .minLeft r g => do let (t, l) ← Release.LazySegtree.minLeft M t r g; ok (t, .num l)
  | op => lStep M t op

/-- A history of calls with its results. -/
def lRunR (M : MapMonoidOps S F) (t : LazySegtree S F) : List (LOp S F) → Res (LazySegtree S F × List (LOut S))
  | [] => ok (t, [])
  | op :: ops => do
    let (t, o) ← lStepR M t op
    let (t, os) ← lRunR M t ops
    ok (t, o :: os)

theorem lRunR_rls (M : MapMonoidOps S F) (t : LazySegtree S F) (ops : List (LOp S F)) :
    Rls (lRun M t ops) (lRunR M t ops) := by
  induction ops generalizing t with
  | nil => exact rls_refl
  | cons op ops ih =>
    refine rls_bind ?_ ?_
    · cases op <;> first | exact rls_refl | exact rls_bind (lazyMaxRight_rls ..) fun _ => rls_refl |
        exact rls_bind (lazyMinLeft_rls ..) fun _ => rls_refl
    · rintro ⟨t, o⟩
      exact rls_bind (ih t) fun _ => rls_refl

theorem gives_simD {RS : S → A → Prop} {x : Res S} {a : A} (h : Gives RS x a) (hx : x ≠ .panic) :
    Sim False False RS x (ok a) := by
  rcases h with h | ⟨s, h, hs⟩
  · exact absurd h hx
  · rw [h]; exact sim_ok hs

theorem sim_right {Q : S → A → Prop} {x : Res S} {b : A} (h : Sim False False Q x (ok b)) : ∃ a, x = ok a ∧ Q a b := by
  rcases h with ⟨h, -⟩ | ⟨h, -⟩ | ⟨-, e⟩ | ⟨-, e⟩ | ⟨a, b', e, e', k⟩
  · exact h.elim
  · exact h.elim
  · cases e
  · cases e
  · cases e'; exact ⟨a, e, k⟩

/-- **C89.** A segment tree in a release build whose operation does not panic and represents a monoid: every history of
calls, searches included, returns representatives of admissible results. -/
theorem C89_segtree [Monoid A] {R : MonoidOps S} (hR : RepresentsOp RS R) (hp : ∀ x y, R.op x y ≠ .panic)
    (v : List S) (a : List A) (hv : List.Forall₂ RS v a) (ha : a.length < 2 ^ 32) (ops : List (SOp S))
    (ops' : List (SOp A)) (ho : List.Forall₂ (SOp.Like RS) ops ops') (hops : ∀ op ∈ ops', op.Pre a.length) :
    ∃ t0 t outs outs', Segtree.from R v = ok t0 ∧ sRunR R t0 ops = ok (t, outs) ∧
      List.Forall₂ (LOut.Like RS) outs outs' ∧ SRunOk a ops' outs' := by
  obtain ⟨t0, e0, h0⟩ := SegP.from_sat (pureOps_lawful (A := A)) (fun _ _ => trivial) ha
  obtain ⟨t, outs', e1, h⟩ := sRun_sat h0 ops' hops
  have hs : SegSim.OpSim False False RS R (pureOps A) :=
    ⟨hR.e, fun x y a b h1 h2 => gives_simD (hR.op _ _ _ _ h1 h2) (hp _ _)⟩
  have k0 := SegSim.from_sim hs (listRel_of hv)
  rw [e0] at k0
  obtain ⟨t1, e2, k⟩ := sim_right k0
  have k1 := sRun_sim hs ho k
  rw [e1] at k1
  obtain ⟨⟨t2, outs⟩, e3, -, k2⟩ := sim_right k1
  exact ⟨t1, t2, outs, outs', e2, (sRunR_rls ..).run e3, k2, h⟩

variable {R : MapMonoidOps S F} {M : MapOps A G}

theorem representsD (h : Represents RS RF R M) (h1 : ∀ x y, R.op x y ≠ .panic) (h2 : ∀ f x, R.mapping f x ≠ .panic)
    (h3 : ∀ f g, R.comp f g ≠ .panic) : OpsSim False False RS RF R M.ops :=
  ⟨h.e, h.idMap, fun _ _ _ _ k1 k2 => gives_simD (h.op _ _ _ _ k1 k2) (h1 _ _),
    fun _ _ _ _ k1 k2 => gives_simD (h.mapping _ _ _ _ k1 k2) (h2 _ _),
    fun _ _ _ _ k1 k2 => gives_simD (h.comp _ _ _ _ k1 k2) (h3 _ _)⟩

/-- C89: the same for the lazy segment tree. -/
theorem C89_lazy [Monoid A] (hM : LawfulMap M) (hR : Represents RS RF R M) (hp : ∀ x y, R.op x y ≠ .panic)
    (hp' : ∀ f x, R.mapping f x ≠ .panic) (hp'' : ∀ f g, R.comp f g ≠ .panic) (v : List S) (a : List A)
    (hv : List.Forall₂ RS v a) (ha : a.length < 2 ^ 32) (ops : List (LOp S F)) (ops' : List (LOp A G))
    (ho : List.Forall₂ (LOp.Like RS RF) ops ops') (hops : ∀ op ∈ ops', op.Pre a.length) :
    ∃ t0 t outs outs', LazySegtree.from R v = ok t0 ∧ lRunR R t0 ops = ok (t, outs) ∧
      List.Forall₂ (LOut.Like RS) outs outs' ∧ LRunOk M a ops' outs' := by
  obtain ⟨t0, t, outs', e0, e1, h⟩ := C07_history hM a ha ops' hops
  have hs := representsD hR hp hp' hp''
  have k0 := from_sim hs (listRel_of hv)
  rw [e0] at k0
  obtain ⟨t1, e2, k⟩ := sim_right k0
  have k1 := lRun_sim hs ho k
  rw [e1] at k1
  obtain ⟨⟨t2, outs⟩, e3, -, k2⟩ := sim_right k1
  exact ⟨t1, t2, outs, outs', e2, (lRunR_rls ..).run e3, k2, h⟩

/-- C89: the same for the heavy-light decomposition. -/
theorem C89_hld [Monoid A] (hM : LawfulMap M) (hR : Represents RS RF R M) (hp : ∀ x y, R.op x y ≠ .panic)
    (hp' : ∀ f x, R.mapping f x ≠ .panic) (hp'' : ∀ f g, R.comp f g ≠ .panic) (g : List (List Nat)) (root : Nat)
    (T : IsTree g) (hr : root < g.length) (hgl : g.length < 2 ^ 32) (v : List S) (a : List A)
    (hv : List.Forall₂ RS v a) (ha : a.length = g.length) (ops : List (HldOp S F)) (ops' : List (HldOp A G))
    (ho : List.Forall₂ (HldOp.Like RS RF) ops ops') (hops : ∀ op ∈ ops', op.Pre g.length) :
    ∃ t0 t outs outs' ord, Release.HLD.withInitValue R g root v = ok t0 ∧ hRun R t0 ops = ok (t, outs) ∧
      List.Forall₂ (HldOut.Like RS) outs outs' ∧ ord.Perm (List.range g.length) ∧
      HldRunOk M g root ord a ops' outs' := by
  obtain ⟨t0, t, outs', ord, e0, e1, -, h1, -, h⟩ := C23_history hM T hr hgl a ha ops' hops
  have hs := representsD hR hp hp' hp''
  have k0 := H.withInitValue_sim hs g root (listRel_of hv)
  rw [e0] at k0
  obtain ⟨t1, e2, k⟩ := sim_right k0
  have k1 := hRun_sim hs ho k
  rw [e1] at k1
  obtain ⟨⟨t2, outs⟩, e3, -, k2⟩ := sim_right k1
  exact ⟨t1, t2, outs, outs', ord, (hldWith_rls ..).run e2, e3, k2, h1, h⟩

end trees

/-! ### Wrapping operations meet the hypotheses -/

/-- C89: `Additive` of `/repo/src/misc/monoids.rs` in a release build computes sums of plain integers, reduced. -/
theorem C89_additive (ty : IntTy) :
    RepresentsOp (A := Multiplicative Int) (fun x n => x = Release.wr ty n.toAdd) (Release.additiveOps ty) ∧
    ∀ x y, (Release.additiveOps ty).op x y ≠ .panic := by
  refine ⟨⟨?_, ?_⟩, fun x y h => by cases h⟩
  · exact (wr_val (ty := ty) ⟨0, _⟩).symm
  · rintro x y a b rfl rfl
    exact .inr ⟨_, rfl, val_ext (wrap_add ty a.toAdd b.toAdd)⟩

/-- C89: `Multiplicative` in a release build computes products of plain integers, reduced. -/
theorem C89_multiplicative (ty : IntTy) (h1 : ty.In 1) :
    RepresentsOp (A := Int) (fun x n => x = Release.wr ty n) (Release.multiplicativeOps ty h1) ∧
    ∀ x y, (Release.multiplicativeOps ty h1).op x y ≠ .panic := by
  refine ⟨⟨?_, ?_⟩, fun x y h => by cases h⟩
  · exact (wr_val (ty := ty) ⟨1, h1⟩).symm
  · rintro x y a b rfl rfl
    exact .inr ⟨_, rfl, val_ext (wrap_mul ty a b)⟩

/-- Sums of `ty` values with their number; a map adds a number to every value. Every step wraps around. -/
def sumW (ty : IntTy) : MapMonoidOps (Int × Int) Int where
  e := (0, 0)
  op x y := do
    let s ← Release.ck ty (x.1 + y.1)
    let n ← Release.ck ty (x.2 + y.2)
    ok (s, n)
  idMap := 0
  mapping f x := do
    let c ← Release.ck ty (f * x.2)
    let s ← Release.ck ty (x.1 + c)
    ok (s, x.2)
  comp f g := Release.ck ty (f + g)

theorem wrap_zero (ty : IntTy) : Release.wrap ty 0 = 0 :=
  congrArg (·.1) (wr_val (ty := ty) ⟨0, IntTy.in_of_nonneg (Int.le_refl _) ty.mx_nonneg⟩)

/-- C89: range addition with range sums in a release build computes in plain integers, reduced. With `C89_lazy` and
`C89_hld`, no bound on the sums is needed. -/
theorem C89_range_add (ty : IntTy) :
    Represents (fun x a => x = (Release.wrap ty a.toAdd.1, Release.wrap ty a.toAdd.2)) (fun f φ => f = Release.wrap ty φ)
      (sumW ty) sumZ ∧
    (∀ x y, (sumW ty).op x y ≠ .panic) ∧ (∀ f x, (sumW ty).mapping f x ≠ .panic) ∧
    ∀ f g, (sumW ty).comp f g ≠ .panic := by
  refine ⟨⟨?_, ?_, ?_, ?_, ?_⟩, fun x y h => (by cases h), fun f x h => (by cases h), fun f g h => (by cases h)⟩
  · show ((0 : Int), (0 : Int)) = (Release.wrap ty 0, Release.wrap ty 0)
    rw [wrap_zero]
  · exact (wrap_zero ty).symm
  · rintro x y a b rfl rfl
    refine .inr ⟨_, rfl, ?_⟩
    show (Release.wrap ty (_ + _), Release.wrap ty (_ + _)) = _
    rw [wrap_add, wrap_add]
    rfl
  · rintro f x φ a rfl rfl
    refine .inr ⟨_, rfl, ?_⟩
    show (Release.wrap ty (Release.wrap ty _ + Release.wrap ty (_ * _)), _) = _
    rw [wrap_mul, wrap_add]
    rfl
  · rintro f g φ γ rfl rfl
    exact .inr ⟨_, rfl, wrap_add ty φ γ⟩

/-- Sums pass the end of `i8` on the way, the answers are the reduced ones, and exact where the sum fits. -/
example : (do
    let t ← LazySegtree.from (sumW ⟨true, 8⟩) [(1, 1), (2, 1), (3, 1), (4, 1)]
    let (_, os) ← lRunR (sumW ⟨true, 8⟩) t [.applyRange 0 4 60, .applyRange 0 3 (-50), .allProd, .prod 0 3]
    ok (os.map fun | .val x => x.1 | _ => 0) : Res _) = ok [0, 0, 100, 36] := by decide +kernel

example : (do
    let h ← Release.HLD.withInitValue (sumW ⟨true, 32⟩) [[1, 2], [0, 3], [0], [1]] 0 [(1, 1), (2, 1), (3, 1), (4, 1)]
    let (_, os) ← hRun (sumW ⟨true, 32⟩) h [.applyPath 3 2 900000000, .pathProd 2 1]
    ok (os.map fun | .val x => x.1 | _ => 0) : Res _) = ok [0, 2700000006 - 2 ^ 32] := by decide +kernel

end Verif.Props
