import Verif.Model.Monoids
import Verif.Props.Segtree
import Mathlib.Data.Nat.Basic
/-! Theorems about `/repo/src/misc/monoids.rs` (C50). -/
namespace Verif.Props
open Model Res Spec

/-- `M` has a two-sided identity. -/
def HasIdentity {S : Type} (M : MonoidOps S) : Prop := ∀ a, M.op a M.e = ok a ∧ M.op M.e a = ok a

/-- `M` is associative, panics included. -/
def Assoc {S : Type} (M : MonoidOps S) : Prop :=
  ∀ a b c, (M.op a b >>= fun x => M.op x c) = (M.op b c >>= fun y => M.op a y)

theorem val_ext {ty : IntTy} {a b : Val ty} (h : a.1 = b.1) : a = b := by
  cases a; cases b; cases h; rfl

theorem maxOps_val {ty : IntTy} (a b : Val ty) : ∃ c, (maxOps ty).op a b = ok c ∧ c.1 = max a.1 b.1 := by
  refine ⟨_, rfl, ?_⟩
  split <;> omega

theorem minOps_val {ty : IntTy} (a b : Val ty) : ∃ c, (minOps ty).op a b = ok c ∧ c.1 = min a.1 b.1 := by
  refine ⟨_, rfl, ?_⟩
  split <;> omega

/-- **C50, `Max`.** For every primitive type the operation is the maximum, `MIN` is a two-sided identity, and
the operation is associative; it never panics. -/
theorem C50_max (ty : IntTy) : HasIdentity (maxOps ty) ∧ Assoc (maxOps ty) ∧
    ∀ a b, ∃ c, (maxOps ty).op a b = ok c ∧ c.1 = max a.1 b.1 := by
  refine ⟨fun a => ?_, fun a b c => ?_, maxOps_val⟩
  · obtain ⟨x, e, h⟩ := maxOps_val a (maxOps ty).e
    obtain ⟨y, e', h'⟩ := maxOps_val (maxOps ty).e a
    have h1 : (maxOps ty).e.1 = ty.mn := rfl
    have h2 := a.2.1
    rw [e, e', val_ext (a := x) (b := a) (by omega), val_ext (a := y) (b := a) (by omega)]
    exact ⟨rfl, rfl⟩
  · obtain ⟨x, e1, h1⟩ := maxOps_val a b
    obtain ⟨y, e2, h2⟩ := maxOps_val b c
    obtain ⟨u, e3, h3⟩ := maxOps_val x c
    obtain ⟨v, e4, h4⟩ := maxOps_val a y
    rw [e1, e2, ok_bind, ok_bind, e3, e4, val_ext (a := u) (b := v) (by omega)]

/-- **C50, `Min`.** For every primitive type the operation is the minimum, `MAX` is a two-sided identity, and
the operation is associative; it never panics. -/
theorem C50_min (ty : IntTy) : HasIdentity (minOps ty) ∧ Assoc (minOps ty) ∧
    ∀ a b, ∃ c, (minOps ty).op a b = ok c ∧ c.1 = min a.1 b.1 := by
  refine ⟨fun a => ?_, fun a b c => ?_, minOps_val⟩
  · obtain ⟨x, e, h⟩ := minOps_val a (minOps ty).e
    obtain ⟨y, e', h'⟩ := minOps_val (minOps ty).e a
    have h1 : (minOps ty).e.1 = ty.mx := rfl
    have h2 := a.2.2
    rw [e, e', val_ext (a := x) (b := a) (by omega), val_ext (a := y) (b := a) (by omega)]
    exact ⟨rfl, rfl⟩
  · obtain ⟨x, e1, h1⟩ := minOps_val a b
    obtain ⟨y, e2, h2⟩ := minOps_val b c
    obtain ⟨u, e3, h3⟩ := minOps_val x c
    obtain ⟨v, e4, h4⟩ := minOps_val a y
    rw [e1, e2, ok_bind, ok_bind, e3, e4, val_ext (a := u) (b := v) (by omega)]

theorem val_ck {ty : IntTy} {x : Int} (h : ty.In x) : Val.ck ty x = ok ⟨x, h⟩ := dif_pos h
theorem val_ck_panic {ty : IntTy} {x : Int} (h : ¬ ty.In x) : Val.ck ty x = panic := dif_neg h

/-- **C50, `Additive`.** For every primitive type `0` is a two-sided identity; the operation is exact addition
or panics on overflow; and it is associative when none of the sums overflows. -/
theorem C50_additive (ty : IntTy) : HasIdentity (additiveOps ty) ∧
    (∀ a b, (∃ c, (additiveOps ty).op a b = ok c ∧ c.1 = a.1 + b.1) ∨
      (¬ ty.In (a.1 + b.1) ∧ (additiveOps ty).op a b = panic)) ∧
    ∀ a b c, ty.In (a.1 + b.1) → ty.In (b.1 + c.1) →
      ((additiveOps ty).op a b >>= fun x => (additiveOps ty).op x c) =
        ((additiveOps ty).op b c >>= fun y => (additiveOps ty).op a y) := by
  refine ⟨fun a => ?_, fun a b => ?_, fun a b c h1 h2 => ?_⟩
  · constructor
    · show Val.ck ty (a.1 + 0) = ok a
      rw [Int.add_zero]; exact val_ck a.2
    · show Val.ck ty (0 + a.1) = ok a
      rw [Int.zero_add]; exact val_ck a.2
  · by_cases h : ty.In (a.1 + b.1)
    · exact .inl ⟨_, val_ck h, rfl⟩
    · exact .inr ⟨h, val_ck_panic h⟩
  · show (Val.ck ty (a.1 + b.1) >>= fun x => Val.ck ty (x.1 + c.1)) = (Val.ck ty (b.1 + c.1) >>= fun y => Val.ck ty (a.1 + y.1))
    rw [val_ck h1, val_ck h2, ok_bind, ok_bind]
    simp only []
    rw [Int.add_assoc]

/-- **C50, `Additive` on unsigned types.** There it is associative with the panics counted. -/
theorem C50_additive_unsigned {ty : IntTy} (h : ty.signed = false) : Assoc (additiveOps ty) := by
  intro a b c
  have hmn : ty.mn = 0 := by unfold IntTy.mn; rw [h]; rfl
  have ha := a.2.1
  have hb := b.2.1
  have hc := c.2.1
  by_cases h1 : ty.In (a.1 + b.1)
  · by_cases h2 : ty.In (b.1 + c.1)
    · exact (C50_additive ty).2.2 a b c h1 h2
    · show (Val.ck ty (a.1 + b.1) >>= fun x => Val.ck ty (x.1 + c.1)) = (Val.ck ty (b.1 + c.1) >>= fun y => Val.ck ty (a.1 + y.1))
      rw [val_ck h1, val_ck_panic h2, ok_bind, val_ck_panic]
      · rfl
      · intro h3
        exact h2 ⟨by omega, by have := h3.2; simp only [] at this; omega⟩
  · show (Val.ck ty (a.1 + b.1) >>= fun x => Val.ck ty (x.1 + c.1)) = (Val.ck ty (b.1 + c.1) >>= fun y => Val.ck ty (a.1 + y.1))
    rw [val_ck_panic h1]
    by_cases h2 : ty.In (b.1 + c.1)
    · rw [val_ck h2, ok_bind, val_ck_panic]
      · rfl
      · intro h3
        exact h1 ⟨by omega, by have := h3.2; simp only [] at this; omega⟩
    · rw [val_ck_panic h2]; rfl

theorem all_one : ∀ ty ∈ IntTy.all, ty.In 1 := by decide

/-- **C50, `Additive` on signed types.** With overflow panics counted it is not associative, for any of the
signed types: `(MAX + 1) + -1` panics, `MAX + (1 + -1)` does not. -/
theorem C50_additive_signed {ty : IntTy} (hty : ty ∈ IntTy.all) (h : ty.signed = true) : ¬ Assoc (additiveOps ty) := by
  intro ha
  have h1 := all_one ty hty
  have hm1 : ty.In (-1) := by
    clear ha h1; revert h; revert ty; decide
  have := ha ⟨ty.mx, IntTy.in_mx ty⟩ ⟨1, h1⟩ ⟨-1, hm1⟩
  change (Val.ck ty (ty.mx + 1) >>= fun x => Val.ck ty (x.1 + -1)) = (Val.ck ty (1 + -1) >>= fun y => Val.ck ty (ty.mx + y.1)) at this
  rw [val_ck_panic (x := ty.mx + 1) (fun h => by have := h.2; omega),
    val_ck (x := 1 + -1) (IntTy.in_of_nonneg (by decide) (by simpa using ty.mx_nonneg)), ok_bind,
    val_ck (x := ty.mx + (1 + -1)) (by simpa using IntTy.in_mx ty)] at this
  cases this

/-- **C50, `Multiplicative`.** For every primitive type `1` is a two-sided identity; the operation is exact
multiplication or panics on overflow; it is associative when the two inner products do not overflow. -/
theorem C50_multiplicative {ty : IntTy} (h1 : ty.In 1) : HasIdentity (multiplicativeOps ty h1) ∧
    (∀ a b, (∃ c, (multiplicativeOps ty h1).op a b = ok c ∧ c.1 = a.1 * b.1) ∨
      (¬ ty.In (a.1 * b.1) ∧ (multiplicativeOps ty h1).op a b = panic)) ∧
    ∀ a b c, ty.In (a.1 * b.1) → ty.In (b.1 * c.1) →
      ((multiplicativeOps ty h1).op a b >>= fun x => (multiplicativeOps ty h1).op x c) =
        ((multiplicativeOps ty h1).op b c >>= fun y => (multiplicativeOps ty h1).op a y) := by
  refine ⟨fun a => ?_, fun a b => ?_, fun a b c h2 h3 => ?_⟩
  · constructor
    · show Val.ck ty (a.1 * 1) = ok a
      rw [Int.mul_one]; exact val_ck a.2
    · show Val.ck ty (1 * a.1) = ok a
      rw [Int.one_mul]; exact val_ck a.2
  · by_cases h : ty.In (a.1 * b.1)
    · exact .inl ⟨_, val_ck h, rfl⟩
    · exact .inr ⟨h, val_ck_panic h⟩
  · show (Val.ck ty (a.1 * b.1) >>= fun x => Val.ck ty (x.1 * c.1)) = (Val.ck ty (b.1 * c.1) >>= fun y => Val.ck ty (a.1 * y.1))
    rw [val_ck h2, val_ck h3, ok_bind, ok_bind]
    simp only []
    rw [Int.mul_assoc]

/-- **C50, `Multiplicative` with panics counted.** It is not associative, for any primitive type:
`(MAX * 2) * 0` panics, `MAX * (2 * 0)` does not. -/
theorem C50_multiplicative_not_assoc {ty : IntTy} (hty : ty ∈ IntTy.all) (h1 : ty.In 1) : ¬ Assoc (multiplicativeOps ty h1) := by
  intro ha
  have h2 : ty.In 2 := by revert hty; clear h1 ha; revert ty; decide
  have h0 : ty.In 0 := IntTy.in_of_nonneg (Int.le_refl _) ty.mx_nonneg
  have hpos := IntTy.all_mx ty hty
  have := ha ⟨ty.mx, IntTy.in_mx ty⟩ ⟨2, h2⟩ ⟨0, h0⟩
  change (Val.ck ty (ty.mx * 2) >>= fun x => Val.ck ty (x.1 * 0)) = (Val.ck ty (2 * 0) >>= fun y => Val.ck ty (ty.mx * y.1)) at this
  rw [val_ck_panic (x := ty.mx * 2) (fun h => by have := h.2; omega), val_ck (x := 2 * 0) h0, ok_bind,
    val_ck (x := ty.mx * (2 * 0)) (by simpa using h0)] at this
  cases this

/-- The values of a primitive type with `max` as a monoid. -/
@[reducible] def maxMonoid (ty : IntTy) : Monoid (Val ty) where
  mul a b := if b.1 < a.1 then a else b
  one := ⟨ty.mn, IntTy.in_mn ty⟩
  mul_assoc a b c := by
    have := (C50_max ty).2.1 a b c
    injection this
  one_mul a := by
    have := ((C50_max ty).1 a).2
    injection this
  mul_one a := by
    have := ((C50_max ty).1 a).1
    injection this

/-- **C50, use in a segment tree.** `Max` over any primitive type meets the requirements of the theorems about
`Segtree` (C04–C06) without any condition on the values, so `prod(l, r)` is the maximum of the range: it is a
bound of the elements, attained unless it is `MIN`. -/
theorem C50_segtree_max (ty : IntTy) (a : List (Val ty)) (hlen : a.length < 2 ^ 32) (ops : List (Nat × Val ty))
    (hidx : ∀ p ∈ ops, p.1 < a.length) :
    ∃ t, SegReached (maxOps ty) a ops t ∧ ∀ l r, l ≤ r → r ≤ a.length →
      ∃ v, t.prod (maxOps ty) l r = ok v ∧ (∀ x ∈ ((setAll a ops).take r).drop l, x.1 ≤ v.1) ∧
        (v ∈ ((setAll a ops).take r).drop l ∨ v.1 = ty.mn) := by
  letI := maxMonoid ty
  have hl : LawfulOps (maxOps ty) (fun _ => True) := ⟨rfl, fun _ _ _ => rfl⟩
  obtain ⟨t, h1, _, h2, _⟩ := C04_history a ops ⟨hl, hlen, hidx, fun _ _ _ _ => trivial⟩
  refine ⟨t, h1, fun l r hlr hr => ⟨_, h2 l r hlr hr, ?_⟩⟩
  generalize ((setAll a ops).take r).drop l = xs
  clear h1 h2
  induction xs with
  | nil => exact ⟨by simp, .inr rfl⟩
  | cons x xs ih =>
    rw [List.prod_cons]
    obtain ⟨c, e, hc⟩ := maxOps_val x xs.prod
    have e' : x * xs.prod = c := by injection e
    rw [e']
    constructor
    · intro y hy
      rcases List.mem_cons.1 hy with rfl | hy
      · omega
      · have := ih.1 y hy; omega
    · by_cases h : x.1 ≤ xs.prod.1
      · have : c = xs.prod := val_ext (by omega)
        rw [this]
        rcases ih.2 with h | h
        · exact .inl (List.mem_cons_of_mem _ h)
        · exact .inr h
      · have : c = x := val_ext (by omega)
        rw [this]
        exact .inl (by simp)

example : (maxOps ⟨true, 8⟩).op ⟨-5, by decide⟩ ⟨-128, by decide⟩ = ok ⟨-5, by decide⟩ ∧
    (additiveOps ⟨false, 8⟩).op ⟨200, by decide⟩ ⟨56, by decide⟩ = panic ∧
    (additiveOps ⟨false, 8⟩).op ⟨200, by decide⟩ ⟨55, by decide⟩ = ok ⟨255, by decide⟩ ∧
    (multiplicativeOps ⟨true, 16⟩ (by decide)).op ⟨-128, by decide⟩ ⟨256, by decide⟩ = ok ⟨-32768, by decide⟩ := by
  decide +kernel

end Verif.Props
