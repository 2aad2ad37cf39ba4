import Verif.Proof.SegtreeSim
import Verif.Proof.SegtreeChecked
import Verif.Props.Segtree
import Verif.Props.LazyRefine
/-! C76: the segment tree with any operation. -/
namespace Verif.Props
open Res Model Spec SegAny

section any
variable {S : Type} {M : MonoidOps S}

/-- `from(a)` and then the calls `set(p, x)` of `ops`. -/
def segWrites (M : MonoidOps S) (a : List S) (ops : List (Nat × S)) : Res (Segtree S) := do
  let t ← Segtree.from M a
  forList ops t fun o t => t.set M o.1 o.2

theorem written_length (a : List S) (ops : List (Nat × S)) : (written a ops).length = a.length := by
  induction ops generalizing a with
  | nil => rfl
  | cons o ops ih => unfold written at *; rw [List.foldl_cons, ih, List.length_set]

theorem segWrites_holds (hnd : ∀ x y, M.op x y ≠ .diverge) {a : List S} (hn : a.length < 2 ^ 32) {L : Nat}
    (hL : CeilLog a.length L) {ops : List (Nat × S)} {t : Segtree S} (ht : segWrites M a ops = ok t) :
    Holds M t (written a ops) L := by
  unfold segWrites at ht
  have h0 := from_satOr hnd hn hL
  cases e : Segtree.from M a with
  | diverge => rw [e] at ht; cases ht
  | panic => rw [e] at ht; cases ht
  | ok t0 =>
    rw [e, satOr_ok] at h0
    rw [e, ok_bind] at ht
    clear e
    induction ops generalizing t0 a with
    | nil => rw [forList_nil] at ht; cases ht; exact h0
    | cons o ops ih =>
      rw [forList_cons] at ht
      by_cases hp : o.1 < a.length
      · have h1 := set_satOr hnd h0 (x := o.2) hp
        cases e : t0.set M o.1 o.2 with
        | diverge => rw [e] at ht; cases ht
        | panic => rw [e] at ht; cases ht
        | ok t1 =>
          rw [e, satOr_ok] at h1
          rw [e, ok_bind] at ht
          have := ih (a := a.set o.1 o.2) (by rw [List.length_set]; exact hn) (by rw [List.length_set]; exact hL) t1 ht h1
          exact this
      · have : t0.set M o.1 o.2 = .panic := by
          unfold Segtree.set
          rw [assert_false (by rw [h0.n]; exact hp)]; rfl
        rw [this] at ht
        cases ht

/-- C76: `from` of fewer than `2 ^ 32` elements panics if the product of some aligned block of a power of two of
elements, formed by halves, panics; otherwise it returns. -/
theorem C76_from (hnd : ∀ x y, M.op x y ≠ .diverge) (a : List S) (hn : a.length < 2 ^ 32) (L : Nat)
    (hL : CeilLog a.length L) :
    ((∃ j q, (q + 1) * 2 ^ j ≤ 2 ^ L ∧ aligned M.op M.e a j q = .panic) → Segtree.from M a = .panic) ∧
    ((¬ ∃ j q, (q + 1) * 2 ^ j ≤ 2 ^ L ∧ aligned M.op M.e a j q = .panic) → ∃ t, Segtree.from M a = ok t) := by
  have h := from_satOr hnd hn hL
  refine ⟨fun hb => h.panic ?_, fun hb => ?_⟩
  · rintro t ht
    obtain ⟨j, q, h1, h2⟩ := hb
    have hj : j ≤ L := by
      have hp := Nat.two_pow_pos j
      have : 2 ^ j ≤ (q + 1) * 2 ^ j := Nat.le_mul_of_pos_left _ (by omega)
      exact (Nat.pow_le_pow_iff_right (a := 2) (by omega)).1 (by omega)
    obtain ⟨x, -, f⟩ := ht.block hj h1
    rw [h2] at f
    cases f
  · obtain ⟨t, e, -⟩ := h.sat hb
    exact ⟨t, e⟩

/-- C76: `from` of `2 ^ 32` or more elements panics, for both segment trees and whatever the operation is: the length is
truncated to 32 bits when the size is computed. -/
theorem C76_too_long {F : Type} (N : MapMonoidOps S F) (a : List S) (h : 2 ^ 32 ≤ a.length) :
    Segtree.from M a = .panic ∧ LazySegtree.from N a = .panic := by
  refine ⟨from_too_long h, ?_⟩
  have h1 := from_too_long (M := M) h
  have hm : a.length % 2 ^ 32 < 2 ^ 32 := Nat.mod_lt _ (by omega)
  have hb : bitLen (a.length % 2 ^ 32 - 1) ≤ 32 := bitLen_le_iff.2 (by omega)
  have h2 : (2 : Nat) ^ bitLen (a.length % 2 ^ 32 - 1) < a.length := size_lt h
  unfold LazySegtree.from
  simp only [ceilLg_eq hm, ok_bind, Nat.one_shiftLeft]
  unfold writeSlice
  rw [if_neg (by rw [List.length_replicate]; omega)]
  rfl

/-- C76: after any writes that returned, what each call does: `set` panics if a product of an aligned block that contains
the position panics, and returns otherwise; `get` returns the element; `all_prod` is the product formed by halves, `prod`
the product of aligned blocks in the bracketing `treeProd`. Arguments out of range panic. -/
theorem C76_state (hnd : ∀ x y, M.op x y ≠ .diverge) (a : List S) (hn : a.length < 2 ^ 32) (L : Nat)
    (hL : CeilLog a.length L) (ops : List (Nat × S)) (t : Segtree S) (ht : segWrites M a ops = ok t) :
    (∀ p x, p < a.length →
      ((∃ j, j ≤ L ∧ aligned M.op M.e ((written a ops).set p x) j (p / 2 ^ j) = .panic) → t.set M p x = .panic) ∧
      ((¬ ∃ j, j ≤ L ∧ aligned M.op M.e ((written a ops).set p x) j (p / 2 ^ j) = .panic) → ∃ t', t.set M p x = ok t')) ∧
    (∀ p x, a.length ≤ p → t.set M p x = .panic ∧ t.get p = .panic) ∧
    (∀ p (hp : p < (written a ops).length), t.get p = ok (written a ops)[p]) ∧
    t.allProd = aligned M.op M.e (written a ops) L 0 ∧
    ∀ l r, t.prod M l r = if l ≤ r ∧ r ≤ a.length then treeProd M.op M.e (written a ops) L l r else .panic := by
  have h := segWrites_holds hnd hn hL ht
  have hlen := written_length a ops
  have hn' := h.n
  rw [hlen] at hn'
  refine ⟨fun p x hp => ?_, fun p x hp => ?_, fun p hp => h.get hp, h.allProd, fun l r => ?_⟩
  · have hs := set_satOr hnd h (x := x) (by rw [hlen]; exact hp)
    refine ⟨fun hb => hs.panic ?_, fun hb => ?_⟩
    · rintro t' ht'
      obtain ⟨j, h1, h2⟩ := hb
      have hle := h.le
      have hlt : p / 2 ^ j < 2 ^ (L - j) := by
        refine (Nat.div_lt_iff_lt_mul (Nat.two_pow_pos _)).2 ?_
        rw [← Nat.pow_add, show L - j + j = L by omega]
        omega
      obtain ⟨y, -, f⟩ := ht'.block h1 (q := p / 2 ^ j) (by
        have e : 2 ^ L = 2 ^ (L - j) * 2 ^ j := by rw [← Nat.pow_add]; congr 1; omega
        rw [e]
        exact Nat.mul_le_mul_right _ hlt)
      rw [h2] at f
      cases f
    · obtain ⟨t', e, -⟩ := hs.sat hb
      exact ⟨t', e⟩
  · unfold Segtree.set Segtree.get
    rw [assert_false (by omega)]
    exact ⟨rfl, rfl⟩
  · by_cases hlr : l ≤ r ∧ r ≤ a.length
    · rw [if_pos hlr, prod_eq hnd h hlr.1 (by rw [hlen]; exact hlr.2)]
    · rw [if_neg hlr]
      unfold Segtree.prod
      rw [assert_false (by rw [hn']; exact hlr)]; rfl

/-- C76: `default()` is a tree without elements; the operation is not called. -/
theorem C76_default : ∃ t, Segtree.new M 0 = ok t ∧ t.allProd = ok M.e ∧ t.prod M 0 0 = M.op M.e M.e :=
  ⟨⟨0, 1, 0, [M.e, M.e]⟩, rfl, rfl, rfl⟩

end any

section checked
variable {S : Type} [Monoid S] {M : MonoidOps S} {Fits : S → Prop}

/-- C76: checked arithmetic, exactly when `from` panics: when the product of some aligned block of at least two elements
does not fit. -/
theorem C76_checked_from (hM : CheckedOps M Fits) (a : List S) (hn : a.length < 2 ^ 32) (L : Nat)
    (hL : CeilLog a.length L) :
    ((∃ j q, 0 < j ∧ (q + 1) * 2 ^ j ≤ 2 ^ L ∧ ¬ Fits (rangeProd a (q * 2 ^ j) ((q + 1) * 2 ^ j))) →
      Segtree.from M a = .panic) ∧
    ((¬ ∃ j q, 0 < j ∧ (q + 1) * 2 ^ j ≤ 2 ^ L ∧ ¬ Fits (rangeProd a (q * 2 ^ j) ((q + 1) * 2 ^ j))) →
      ∃ t, Segtree.from M a = ok t) := by
  have h := C76_from (CheckedOps.nd hM) a hn L hL
  have hb := badBlock_iff hM (a := a) (L := L)
  exact ⟨fun h1 => h.1 (hb.2 h1), fun h1 => h.2 fun h2 => h1 (hb.1 h2)⟩

/-- C76: checked arithmetic, exactly when the calls panic after any writes that returned. `set` panics when the product of
an aligned block that contains the position would not fit. `prod(l, r)` panics when the product of `l..r` does not fit, or,
for some size `2 ^ j` with a multiple between `l` and `r`, the product from `l` to the first or from the last such multiple
to `r`; otherwise it returns the product. -/
theorem C76_checked (hM : CheckedOps M Fits) (a : List S) (hn : a.length < 2 ^ 32) (L : Nat)
    (hL : CeilLog a.length L) (ops : List (Nat × S)) (t : Segtree S) (ht : segWrites M a ops = ok t) :
    (∀ p x, p < a.length →
      ((∃ j, 0 < j ∧ j ≤ L ∧
        ¬ Fits (rangeProd ((written a ops).set p x) (p / 2 ^ j * 2 ^ j) ((p / 2 ^ j + 1) * 2 ^ j))) → t.set M p x = .panic) ∧
      ((¬ ∃ j, 0 < j ∧ j ≤ L ∧
        ¬ Fits (rangeProd ((written a ops).set p x) (p / 2 ^ j * 2 ^ j) ((p / 2 ^ j + 1) * 2 ^ j))) →
          ∃ t', t.set M p x = ok t')) ∧
    t.allProd = ok (written a ops).prod ∧
    ∀ l r, l ≤ r → r ≤ a.length →
      (((∀ j, j ≤ L → firstBlk l j ≤ endBlk r j → Fits (rangeProd (written a ops) l (firstBlk l j * 2 ^ j)) ∧
          Fits (rangeProd (written a ops) (endBlk r j * 2 ^ j) r)) ∧ Fits (rangeProd (written a ops) l r)) →
        t.prod M l r = ok (rangeProd (written a ops) l r)) ∧
      (¬ ((∀ j, j ≤ L → firstBlk l j ≤ endBlk r j → Fits (rangeProd (written a ops) l (firstBlk l j * 2 ^ j)) ∧
          Fits (rangeProd (written a ops) (endBlk r j * 2 ^ j) r)) ∧ Fits (rangeProd (written a ops) l r)) →
        t.prod M l r = .panic) := by
  have hnd := CheckedOps.nd hM
  have h := segWrites_holds hnd hn hL ht
  have hlen := written_length a ops
  obtain ⟨h1, -, -, h4, h5⟩ := C76_state hnd a hn L hL ops t ht
  refine ⟨fun p x hp => ?_, ?_, fun l r hlr hr => ?_⟩
  · have hb := path_panic_iff hM h (p := p) (by rw [hlen]; exact hp) x
    exact ⟨fun k => (h1 p x hp).1 (hb.2 k), fun k => (h1 p x hp).2 fun k' => k (hb.1 k')⟩
  · rw [h4, block_ok hM h (Nat.le_refl _) (by omega)]
    unfold blkProd rangeProd
    rw [Nat.zero_mul, Nat.zero_add, Nat.one_mul, List.take_of_length_le h.le, List.drop_zero]
  · rw [h5, if_pos ⟨hlr, hr⟩]
    exact treeProd_checked hM h hlr (by rw [hlen]; exact hr)

end checked

section represents
variable {S A : Type} {RS : S → A → Prop} {R : MonoidOps S}

/-- One call. -/
def sStep (M : MonoidOps S) (t : Segtree S) : SOp S → Res (Segtree S × LOut S)
  | .set p x => do let t ← t.set M p x; ok (t, .unit)
  | .get p => do let x ← t.get p; ok (t, .val x)
  | .prod l r => do let x ← t.prod M l r; ok (t, .val x)
  | .allProd => do let x ← t.allProd; ok (t, .val x)
  | .maxRight l g => do let k ← t.maxRight M l g; ok (t, .num k)
  | .minLeft r g => do let k ← t.minLeft M r g; ok (t, .num k)

/-- A history of calls with its results. -/
def sRun (M : MonoidOps S) (t : Segtree S) : List (SOp S) → Res (Segtree S × List (LOut S))
  | [] => ok (t, [])
  | op :: ops => do
    let (t, o) ← sStep M t op
    let (t, os) ← sRun M t ops
    ok (t, o :: os)

/-- The operation of the monoid itself. -/
def pureOps (A : Type) [Monoid A] : MonoidOps A := ⟨1, fun a b => ok (a * b)⟩

theorem pureOps_lawful [Monoid A] : LawfulOps (pureOps A) (fun _ => True) := ⟨rfl, fun _ _ _ => rfl⟩

theorem sStep_sat [Monoid A] {t : Segtree A} {a : List A} (hr : SegP.Rep t a) {op : SOp A} (hop : op.Pre a.length) :
    Sat (sStep (pureOps A) t op) (fun o => SegP.Rep o.1 (op.next a) ∧ op.OutOk a o.2) := by
  have hM := pureOps_lawful (A := A)
  have hf : ∀ a : List A, ProdsFit (fun _ => True) a := fun _ _ _ => trivial
  cases op with
  | set p x =>
    obtain ⟨t', e, h⟩ := SegP.set_sat hM hr (x := x) hop (hf _)
    simp only [sStep, e, ok_bind, sat_ok]
    exact ⟨h, rfl⟩
  | get p =>
    have hp : p < a.length := hop
    simp only [sStep, SegP.get_sat hr hp, ok_bind, sat_ok]
    exact ⟨hr, a[p], by simp [hp], rfl⟩
  | prod l r =>
    simp only [sStep, SegP.prod_sat hM hr (hf _) hop.1 hop.2, ok_bind, sat_ok]
    exact ⟨hr, rfl⟩
  | allProd =>
    simp only [sStep, SegP.allProd_sat hr, ok_bind, sat_ok]
    exact ⟨hr, rfl⟩
  | maxRight l g =>
    obtain ⟨r, e, h⟩ := SegP.maxRight_sat hM hr (hf _) hop.1 hop.2
    simp only [sStep, e, ok_bind, sat_ok]
    exact ⟨hr, r, rfl, h⟩
  | minLeft r g =>
    obtain ⟨l, e, h⟩ := SegP.minLeft_sat hM hr (hf _) hop.1 hop.2
    simp only [sStep, e, ok_bind, sat_ok]
    exact ⟨hr, l, rfl, h⟩

theorem SOp.next_length (a : List A) (op : SOp A) : (op.next a).length = a.length := by
  cases op <;> simp [SOp.next]

theorem sRun_sat [Monoid A] {t : Segtree A} {a : List A} (hr : SegP.Rep t a) (ops : List (SOp A))
    (hops : ∀ op ∈ ops, op.Pre a.length) : ∃ t' outs, sRun (pureOps A) t ops = ok (t', outs) ∧ SRunOk a ops outs := by
  induction ops generalizing t a with
  | nil => exact ⟨t, [], rfl, trivial⟩
  | cons op ops ih =>
    obtain ⟨⟨t1, o⟩, e1, h1, h2⟩ := sStep_sat hr (hops op (by simp))
    obtain ⟨t2, os, e2, h3⟩ := ih h1 fun op' h' => by rw [SOp.next_length]; exact hops op' (by simp [h'])
    exact ⟨t2, o :: os, by simp [sRun, e1, e2], h2, h3⟩

theorem sStep_sim {p q : Prop} {B : MonoidOps A} (h : SegSim.OpSim p q RS R B) {t : Segtree S} {t' : Segtree A}
    (ht : SegSim.TS RS t t') {op : SOp S} {op' : SOp A} (ho : op.Like RS op') :
    Sim p q (fun o o' => SegSim.TS RS o.1 o'.1 ∧ LOut.Like RS o.2 o'.2) (sStep R t op) (sStep B t' op') := by
  cases op <;> cases op' <;> try exact ho.elim
  · obtain ⟨rfl, hx⟩ := ho
    exact sim_bind (SegSim.set_sim h ht _ hx) fun _ _ k => sim_ok ⟨k, trivial⟩
  · cases ho
    exact sim_bind (SegSim.get_sim ht _) fun _ _ k => sim_ok ⟨ht, k⟩
  · obtain ⟨rfl, rfl⟩ := ho
    exact sim_bind (SegSim.prod_sim h ht _ _) fun _ _ k => sim_ok ⟨ht, k⟩
  · exact sim_bind (SegSim.allProd_sim ht) fun _ _ k => sim_ok ⟨ht, k⟩
  · obtain ⟨rfl, hg⟩ := ho
    exact sim_bind (SegSim.maxRight_sim h ht _ hg) fun _ _ k => sim_ok ⟨ht, k⟩
  · obtain ⟨rfl, hg⟩ := ho
    exact sim_bind (SegSim.minLeft_sim h ht _ hg) fun _ _ k => sim_ok ⟨ht, k⟩

theorem sRun_sim {p q : Prop} {B : MonoidOps A} (h : SegSim.OpSim p q RS R B) {ops : List (SOp S)} {ops' : List (SOp A)}
    (ho : List.Forall₂ (SOp.Like RS) ops ops') {t : Segtree S} {t' : Segtree A} (ht : SegSim.TS RS t t') :
    Sim p q (fun o o' => SegSim.TS RS o.1 o'.1 ∧ List.Forall₂ (LOut.Like RS) o.2 o'.2) (sRun R t ops) (sRun B t' ops') := by
  induction ho generalizing t t' with
  | nil => exact sim_ok ⟨ht, .nil⟩
  | cons hop _ ih =>
    refine sim_bind (sStep_sim h ht hop) ?_
    rintro ⟨t1, o⟩ ⟨t1', o'⟩ ⟨h1, h2⟩
    refine sim_bind (ih h1) ?_
    rintro ⟨t2, os⟩ ⟨t2', os'⟩ ⟨h3, h4⟩
    exact sim_ok ⟨h3, .cons h2 h4⟩

/-- C76: let the operation panic at will, but be right whenever it returns: its values represent those of a monoid. Then
every history of calls, searches included, either panics or returns representatives of admissible results. -/
theorem C76_represents [Monoid A] (hR : RepresentsOp RS R) (v : List S) (a : List A) (hv : List.Forall₂ RS v a)
    (ha : a.length < 2 ^ 32) (ops : List (SOp S)) (ops' : List (SOp A)) (ho : List.Forall₂ (SOp.Like RS) ops ops')
    (hops : ∀ op ∈ ops', op.Pre a.length) :
    (do let t ← Segtree.from R v; Prod.snd <$> sRun R t ops : Res _) = Res.panic ∨
    ∃ outs outs', (do let t ← Segtree.from R v; Prod.snd <$> sRun R t ops : Res _) = ok outs ∧
      List.Forall₂ (LOut.Like RS) outs outs' ∧ SRunOk a ops' outs' := by
  obtain ⟨t0, e0, h0⟩ := SegP.from_sat (pureOps_lawful (A := A)) (fun _ _ => trivial) ha
  obtain ⟨t, outs, e1, h⟩ := sRun_sat h0 ops' hops
  have hs : SegSim.OpSim True False RS R (pureOps A) :=
    ⟨hR.e, fun x y a b h1 h2 => gives_sim (hR.op _ _ _ _ h1 h2)⟩
  rcases SegSim.from_sim hs (listRel_of hv) with ⟨-, e⟩ | ⟨h, -⟩ | ⟨-, e⟩ | ⟨-, e⟩ | ⟨t1, t1', e2, e3, k⟩
  · left; rw [e]; rfl
  · exact h.elim
  · rw [e0] at e; cases e
  · rw [e0] at e; cases e
  rw [e0] at e3; cases e3
  rcases sRun_sim hs ho k with ⟨-, e⟩ | ⟨h, -⟩ | ⟨-, e⟩ | ⟨-, e⟩ | ⟨o, o', e4, e5, k1, k2⟩
  · left; rw [e2, ok_bind, e]; rfl
  · exact h.elim
  · rw [e1] at e; cases e
  · rw [e1] at e; cases e
  rw [e1] at e5; cases e5
  exact .inr ⟨o.2, outs, by rw [e2, ok_bind, e4]; rfl, k2, h⟩

end represents

section right
variable {S : Type}

/-- Left fold of a list, `e` for the empty one. -/
def foldOr (op : S → S → S) (e : S) : List S → S
  | [] => e
  | x :: xs => xs.foldl op x

/-- Every tree with this operation and identity answers every query by the fold of the range. -/
def TreeRight (op : S → S → S) (e : S) : Prop :=
  ∀ a : List S, a.length < 2 ^ 32 → ∃ t, Segtree.from ⟨e, fun x y => ok (op x y)⟩ a = ok t ∧
    ∀ l r, l ≤ r → r ≤ a.length → t.prod ⟨e, fun x y => ok (op x y)⟩ l r = ok (foldOr op e ((a.drop l).take (r - l)))

theorem TreeRight.tree {op : S → S → S} {e : S} (h : TreeRight op e) (a : List S) (L l r : Nat) (hn : a.length < 2 ^ 32)
    (hL : CeilLog a.length L) (hlr : l ≤ r) (hr : r ≤ a.length) :
    treeProd (fun x y => ok (op x y)) e a L l r = ok (foldOr op e ((a.drop l).take (r - l))) := by
  obtain ⟨t, e1, h1⟩ := h a hn
  have h2 := (C76_state (M := ⟨e, fun x y => ok (op x y)⟩) (fun _ _ => by simp) a hn L hL [] t
    (by unfold segWrites; rw [e1, ok_bind, forList_nil])).2.2.2.2 l r
  rw [if_pos ⟨hlr, hr⟩, h1 l r hlr hr] at h2
  exact h2.symm

/-- C76: the segment tree is right for an operation exactly if it forms a monoid with the identity. -/
theorem C76_right_iff (op : S → S → S) (e : S) :
    TreeRight op e ↔ (∀ x y z, op (op x y) z = op x (op y z)) ∧ ∀ x, op e x = x ∧ op x e = x := by
  constructor
  · intro h
    have key := h.tree
    have h0 : op e e = e := by
      have := key [] 0 0 0 (by simp) (ceilLog_bitLen (n := 0)) (by simp) (by simp)
      exact Res.ok.inj this
    have h2 : ∀ y, op (op e y) e = y := by
      intro y
      have := key [y, y] 1 1 2 (by simp) (ceilLog_bitLen (n := 2)) (by simp) (by simp)
      exact Res.ok.inj this
    have h3 : ∀ y z, op (op e y) (op z e) = op y z := by
      intro y z
      have := key [y, y, z, z] 2 1 3 (by simp) (ceilLog_bitLen (n := 4)) (by simp) (by simp)
      exact Res.ok.inj this
    have hr : ∀ y, op y e = y := by
      intro y
      have := h3 y e
      rw [h0, h2] at this
      exact this.symm
    have hl : ∀ y, op e y = y := by
      intro y
      have := h2 y
      rwa [hr] at this
    refine ⟨fun x y z => ?_, fun x => ⟨hl x, hr x⟩⟩
    have h4 := key [x, e, y, z] 2 0 4 (by simp) (ceilLog_bitLen (n := 4)) (by simp) (by simp)
    have h5 : op (op e (op (op x e) (op y z))) e = op (op (op x e) y) z := Res.ok.inj h4
    rw [hl, hr, hr] at h5
    exact h5.symm
  · rintro ⟨ha, he⟩ a hn
    letI : Monoid S := { mul := op, one := e, mul_assoc := ha, one_mul := fun x => (he x).1, mul_one := fun x => (he x).2 }
    have hM : LawfulOps (⟨e, fun x y => ok (op x y)⟩ : MonoidOps S) (fun _ => True) := ⟨rfl, fun _ _ _ => rfl⟩
    obtain ⟨t, ht, h⟩ := SegP.from_sat hM (a := a) (fun _ _ => trivial) hn
    refine ⟨t, ht, fun l r hlr hr => ?_⟩
    rw [SegP.prod_sat hM h (fun _ _ => trivial) hlr hr]
    congr 1
    unfold rangeProd
    rw [List.drop_take]
    cases (List.take (r - l) (List.drop l a)) with
    | nil => rfl
    | cons x xs =>
      show (x :: xs).prod = xs.foldl (· * ·) x
      rw [List.prod_cons]
      clear h ht
      induction xs generalizing x with
      | nil => rw [List.prod_nil, mul_one]; rfl
      | cons y ys ih => rw [List.prod_cons, List.foldl_cons, ← ih, mul_assoc]

end right

/-- The hypotheses of the checked theorems hold of `Additive<i32>`. -/
theorem addI32_checked : CheckedOps addI32 (fun x => InI 32 x.toAdd) := by
  refine ⟨rfl, by decide, addI32_lawful.op_ok, fun a b h => ?_⟩
  have h' : ¬ InI 32 (a.toAdd + b.toAdd) := h
  show (ckI 32 (a.toAdd + b.toAdd)).bind _ = _
  unfold ckI
  rw [if_neg h']; rfl

/-- The sum of positions 1 and 2 fits no `i32`, and `prod(1, 3)` panics; `prod(0, 4)` is 0 and returns, as does
`prod(1, 4)`, which adds the last two first. -/
example : (do
    let t ← segWrites addI32 [.ofAdd 5, .ofAdd 2147483640, .ofAdd 9, .ofAdd (-9)] [(0, .ofAdd (-2147483640))]
    let x ← t.prod addI32 0 4
    let y ← t.prod addI32 1 4
    ok (x.toAdd, y.toAdd, t.prod addI32 1 3) : Res _) = ok (0, 2147483640, Res.panic) := by decide +kernel

/-- `from` panics although every single element and the total fit. -/
example : Segtree.from addI32 [.ofAdd 2147483640, .ofAdd 9, .ofAdd (-9)] = .panic := by decide +kernel

/-- Subtraction, which is no monoid: the bracketing is visible. -/
example : (do
    let t ← segWrites (⟨0, fun x y => ok (x - y)⟩ : MonoidOps Int) [1, 2, 4, 8, 16, 32] [(5, 64)]
    let x ← t.prod ⟨0, fun x y => ok (x - y)⟩ 1 6
    let y ← t.allProd
    ok (x, y) : Res _) = ok (((0 - 2) - (4 - 8)) - ((16 - 64) - 0), ((1 - 2) - (4 - 8)) - ((16 - 64) - (0 - 0))) := by
  decide +kernel

example : CeilLog 6 3 := ceilLog_bitLen (n := 6)

end Verif.Props
