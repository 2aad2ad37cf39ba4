import Verif.Props.LazyFit
/-! C69 for range addition and range sums of unsigned integers: the exact condition for a panic. -/
namespace Verif.Props
open Res Model Spec LazySim LazyF

/-- Sums of `u{w}` values with their number; a map adds a number to every value. Each step is checked. -/
def sumU (w : Nat) : MapMonoidOps (Nat × Nat) Nat where
  e := (0, 0)
  op x y := do
    let s ← addU w x.1 y.1
    let n ← addU w x.2 y.2
    ok (s, n)
  idMap := 0
  mapping f x := do
    let c ← mulU w f x.2
    let s ← addU w x.1 c
    ok (s, x.2)
  comp f g := addU w f g

/-- The same without bounds. -/
def sumN : MapOps (Multiplicative (Nat × Nat)) Nat where
  e := 1
  op x y := x * y
  idMap := 0
  mapping f x := .ofAdd (x.toAdd.1 + f * x.toAdd.2, x.toAdd.2)
  comp f g := f + g

theorem sumN_lawful : LawfulMap sumN where
  e_eq := rfl
  op_eq _ _ := rfl
  id_map x := by
    show Multiplicative.ofAdd (x.toAdd.1 + 0 * x.toAdd.2, x.toAdd.2) = x
    rw [Nat.zero_mul, Nat.add_zero]; rfl
  comp_map f g x := by
    show Multiplicative.ofAdd (x.toAdd.1 + (f + g) * x.toAdd.2, x.toAdd.2) =
      Multiplicative.ofAdd (x.toAdd.1 + g * x.toAdd.2 + f * x.toAdd.2, x.toAdd.2)
    rw [Nat.add_mul, Nat.add_assoc, Nat.add_comm (g * _)]
  map_op f x y := by
    show Multiplicative.ofAdd (x.toAdd.1 + y.toAdd.1 + f * (x.toAdd.2 + y.toAdd.2), x.toAdd.2 + y.toAdd.2) =
      Multiplicative.ofAdd ((x.toAdd.1 + f * x.toAdd.2) + (y.toAdd.1 + f * y.toAdd.2), x.toAdd.2 + y.toAdd.2)
    rw [Nat.mul_add]
    congr 2
    omega

theorem sumN_comp : LawfulComp sumN :=
  ⟨fun f g k => Nat.add_assoc f g k, fun f => Nat.zero_add f, fun f => Nat.add_zero f⟩

/-- A `u{w}` pair represents itself. -/
def IsU (w : Nat) (x : Nat × Nat) (a : Multiplicative (Nat × Nat)) : Prop :=
  a = .ofAdd x ∧ x.1 < 2 ^ w ∧ x.2 < 2 ^ w

/-- A `u{w}` represents itself. -/
def IsF (w : Nat) (f φ : Nat) : Prop := φ = f ∧ f < 2 ^ w

theorem sumU_represents (w : Nat) : Represents (IsU w) (IsF w) (sumU w) sumN := by
  have hp := Nat.two_pow_pos w
  refine ⟨⟨rfl, hp, hp⟩, ⟨rfl, hp⟩, ?_, ?_, ?_⟩
  · rintro x y a b ⟨rfl, h1, h2⟩ ⟨rfl, h3, h4⟩
    unfold Gives
    simp only [sumU, addU]
    split
    · rw [ok_bind]
      split
      · exact .inr ⟨_, rfl, rfl, by assumption, by assumption⟩
      · exact .inl rfl
    · exact .inl rfl
  · rintro f x φ a ⟨rfl, h1⟩ ⟨rfl, h3, h4⟩
    unfold Gives
    simp only [sumU, addU, mulU]
    split
    · rw [ok_bind]
      split
      · exact .inr ⟨_, rfl, rfl, by assumption, h4⟩
      · exact .inl rfl
    · exact .inl rfl
  · rintro f g φ γ ⟨rfl, h1⟩ ⟨rfl, h3⟩
    unfold Gives
    simp only [sumU, addU]
    split
    · exact .inr ⟨_, rfl, rfl, by assumption⟩
    · exact .inl rfl

/-- Both components are `u{w}`. -/
def FitU (w : Nat) (a : Multiplicative (Nat × Nat)) : Prop := a.toAdd.1 < 2 ^ w ∧ a.toAdd.2 < 2 ^ w

theorem sumU_returns (w : Nat) : ReturnsIf (IsU w) (IsF w) (sumU w) sumN (FitU w) (· < 2 ^ w) := by
  refine ⟨?_, ?_, ?_⟩
  · rintro x y a b ⟨ea, h1, h2⟩ ⟨eb, h3, h4⟩ - - ⟨h5, h6⟩
    rw [ea, eb] at h5 h6
    have h5 : x.1 + y.1 < 2 ^ w := h5
    have h6 : x.2 + y.2 < 2 ^ w := h6
    refine ⟨(x.1 + y.1, x.2 + y.2), ?_⟩
    simp only [sumU, addU]
    rw [if_pos h5, ok_bind, if_pos h6]; rfl
  · rintro f x φ a ⟨ef, h1⟩ ⟨ea, h3, h4⟩ - - ⟨h5, h6⟩
    rw [ef, ea] at h5
    refine ⟨(x.1 + f * x.2, x.2), ?_⟩
    have h5 : x.1 + f * x.2 < 2 ^ w := h5
    simp only [sumU, addU, mulU]
    rw [if_pos (by omega), ok_bind, if_pos h5]; rfl
  · rintro f g φ γ ⟨ef, h1⟩ ⟨eg, h3⟩ - - h5
    rw [ef, eg] at h5
    exact ⟨f + g, if_pos h5⟩

/-- The sum of the plain list. -/
def total (a : List (Multiplicative (Nat × Nat))) : Nat := a.prod.toAdd.1

theorem compAll_sum (fs : List Nat) : compAll sumN fs = fs.sum := by
  induction fs with
  | nil => rfl
  | cons f fs ih => simp only [compAll, List.foldr_cons] at ih ⊢; rw [ih]; simp [sumN]

/-- Every element counts for one and is at least the sum of the additions made to it since it was written. -/
def Simple (a : List (Multiplicative (Nat × Nat))) (h : List (List Nat)) : Prop :=
  h.length = a.length ∧ ∀ (i : Nat) (x : Multiplicative (Nat × Nat)) (fs : List Nat), a[i]? = some x → h[i]? = some fs → x.toAdd.2 = 1 ∧ fs.sum ≤ x.toAdd.1

theorem prod_snd {a : List (Multiplicative (Nat × Nat))} (h : ∀ x ∈ a, x.toAdd.2 = 1) : a.prod.toAdd.2 = a.length := by
  induction a with
  | nil => rfl
  | cons x a ih =>
    rw [List.prod_cons, toAdd_mul, Prod.snd_add, ih fun y hy => h y (by simp [hy]), h x (by simp), List.length_cons,
      Nat.add_comm]

theorem total_app (a b : List (Multiplicative (Nat × Nat))) : total (a ++ b) = total a + total b := by
  unfold total; rw [List.prod_append, toAdd_mul, Prod.fst_add]

theorem total_range (a : List (Multiplicative (Nat × Nat))) (l r : Nat) : (rangeProd a l r).toAdd.1 ≤ total a := by
  have h1 := total_app (a.take r) (a.drop r)
  have h2 := total_app ((a.take r).take l) ((a.take r).drop l)
  rw [List.take_append_drop] at h1 h2
  show total ((a.take r).drop l) ≤ total a
  omega

theorem total_elem {a : List (Multiplicative (Nat × Nat))} {i : Nat} {x : Multiplicative (Nat × Nat)} (h : a[i]? = some x) :
    x.toAdd.1 ≤ total a := by
  have := total_range a i (i + 1)
  obtain ⟨hi, rfl⟩ := List.getElem?_eq_some_iff.1 h
  unfold rangeProd at this
  rw [List.take_succ_eq_append_getElem hi, List.drop_append_of_le_length (by simp; omega),
    List.drop_of_length_le (by simp)] at this
  simpa using this

theorem simple_fine {w : Nat} {a : List (Multiplicative (Nat × Nat))} {h : List (List Nat)} (hs : Simple a h)
    (ht : total a < 2 ^ w) (hl : a.length < 2 ^ w) : Fine sumN (FitU w) (· < 2 ^ w) a h := by
  have hone : ∀ x ∈ a, x.toAdd.2 = 1 := by
    intro x hx
    obtain ⟨i, hi, rfl⟩ := List.mem_iff_getElem.1 hx
    exact (hs.2 i _ _ (List.getElem?_eq_getElem hi) (List.getElem?_eq_getElem (hs.1 ▸ hi))).1
  refine ⟨Nat.two_pow_pos w, ?_, ?_⟩
  · intro l r _ _
    refine ⟨Nat.lt_of_le_of_lt (total_range a l r) ht, ?_⟩
    unfold rangeProd
    rw [prod_snd fun x hx => hone x (List.mem_of_mem_take (List.mem_of_mem_drop hx))]
    simp only [List.length_drop, List.length_take]
    omega
  · intro fs hfs k
    obtain ⟨i, hi, rfl⟩ := List.mem_iff_getElem.1 hfs
    have hi' : i < a.length := hs.1 ▸ hi
    have h1 := (hs.2 i _ _ (List.getElem?_eq_getElem hi') (List.getElem?_eq_getElem hi)).2
    have h2 := total_elem (List.getElem?_eq_getElem hi')
    rw [compAll_sum]
    have h3 : (h[i].take k).sum + (h[i].drop k).sum = h[i].sum := by rw [← List.sum_append, List.take_append_drop]
    omega

/-- A call that writes elements counting for one. -/
def UnitOp : LOp (Multiplicative (Nat × Nat)) Nat → Prop
  | .set _ x => x.toAdd.2 = 1
  | _ => True

theorem mapRange_some {α : Type} {f : α → α} {a : List α} {l r i : Nat} {y : α} (h : (mapRange f a l r)[i]? = some y) :
    ∃ x, a[i]? = some x ∧ y = if l ≤ i ∧ i < r then f x else x := by
  unfold mapRange at h
  rw [List.getElem?_mapIdx, Option.map_eq_some_iff] at h
  obtain ⟨x, hx, rfl⟩ := h
  exact ⟨x, hx, rfl⟩

theorem simple_range {a : List (Multiplicative (Nat × Nat))} {h : List (List Nat)} (hs : Simple a h) (l r f : Nat) :
    Simple (mapRange (sumN.mapping f) a l r) (mapRange (f :: ·) h l r) := by
  refine ⟨by simpa [mapRange] using hs.1, ?_⟩
  intro i x fs h1 h2
  obtain ⟨x', h3, rfl⟩ := mapRange_some h1
  obtain ⟨fs', h4, rfl⟩ := mapRange_some h2
  obtain ⟨k1, k2⟩ := hs.2 i x' fs' h3 h4
  by_cases c : l ≤ i ∧ i < r
  · rw [if_pos c, if_pos c]
    simp only [sumN, toAdd_ofAdd, k1, List.sum_cons]
    exact ⟨trivial, by omega⟩
  · rw [if_neg c, if_neg c]; exact ⟨k1, k2⟩

theorem simple_next {a : List (Multiplicative (Nat × Nat))} {h : List (List Nat)} (hs : Simple a h)
    {op : LOp (Multiplicative (Nat × Nat)) Nat} (hu : UnitOp op) : Simple (op.next sumN a) (op.log h) := by
  cases op with
  | set p x =>
    refine ⟨by simpa [LOp.next, LOp.log] using hs.1, ?_⟩
    intro i y fs h1 h2
    simp only [LOp.next, LOp.log, List.getElem?_set] at h1 h2
    by_cases e : p = i
    · subst e
      simp only [if_true] at h1 h2
      split at h1
      · cases h1
        split at h2
        · cases h2; exact ⟨hu, Nat.zero_le _⟩
        · cases h2
      · cases h1
    · rw [if_neg e] at h1 h2
      exact hs.2 i y fs h1 h2
  | apply p f => exact simple_range hs _ _ _
  | applyRange l r f => exact simple_range hs _ _ _
  | _ => exact hs

/-- The total fits before and after each call. -/
def TotalFits (w : Nat) : List (Multiplicative (Nat × Nat)) → List (LOp (Multiplicative (Nat × Nat)) Nat) → Prop
  | a, [] => total a < 2 ^ w
  | a, op :: ops => total a < 2 ^ w ∧ TotalFits w (op.next sumN a) ops

theorem simple_fineRun {w : Nat} {ops : List (LOp (Multiplicative (Nat × Nat)) Nat)}
    {a : List (Multiplicative (Nat × Nat))} {h : List (List Nat)} (hs : Simple a h) (hl : a.length < 2 ^ w)
    (hu : ∀ op ∈ ops, UnitOp op) (ht : TotalFits w a ops) : FineRun sumN (FitU w) (· < 2 ^ w) a h ops := by
  induction ops generalizing a h with
  | nil => exact simple_fine hs ht hl
  | cons op ops ih =>
    exact ⟨simple_fine hs ht.1 hl, ih (simple_next hs (hu op (by simp))) (by rw [next_length]; exact hl)
      (fun o ho => hu o (List.mem_cons_of_mem _ ho)) ht.2⟩

theorem total_of_tr {w : Nat} {t : LazySegtree (Nat × Nat) Nat} {t' : LazySegtree (Multiplicative (Nat × Nat)) Nat}
    {a : List (Multiplicative (Nat × Nat))} (ht : TR (IsU w) (IsF w) t t') (hr : LazyP.Rep sumN t' a) : total a < 2 ^ w := by
  have e := LazyP.allProd_sat sumN_lawful hr
  rcases allProd_sim (p := False) (q := False) ht with ⟨h, -⟩ | ⟨h, -⟩ | ⟨-, e'⟩ | ⟨-, e'⟩ | ⟨x, y, e1, e2, k⟩
  · exact h.elim
  · exact h.elim
  · rw [e] at e'; cases e'
  · rw [e] at e'; cases e'
  · rw [e] at e2; cases e2
    unfold total
    rw [k.1]; exact k.2.1

theorem total_of_run {w : Nat} {ops : List (LOp (Nat × Nat) Nat)} {ops' : List (LOp (Multiplicative (Nat × Nat)) Nat)}
    (ho : List.Forall₂ (LOp.Like (IsU w) (IsF w)) ops ops') {a : List (Multiplicative (Nat × Nat))}
    {t : LazySegtree (Nat × Nat) Nat} {t' : LazySegtree (Multiplicative (Nat × Nat)) Nat}
    (ht : TR (IsU w) (IsF w) t t') (hr : LazyP.Rep sumN t' a) (hp : ∀ op ∈ ops', op.Pre a.length)
    {u : LazySegtree (Nat × Nat) Nat × List (LOut (Nat × Nat))} (hrun : lRun (sumU w) t ops = ok u) : TotalFits w a ops' := by
  induction ho generalizing t t' a u with
  | nil => exact total_of_tr ht hr
  | @cons op op' ops ops' hop hrest ih =>
    refine ⟨total_of_tr ht hr, ?_⟩
    obtain ⟨⟨t1', o'⟩, e', hr', -⟩ := lStep_sat sumN_lawful hr (hp op' (by simp))
    simp only [lRun] at hrun
    rcases lStep_sim (represents_sim (sumU_represents w)) ht hop with
      ⟨-, e⟩ | ⟨h, -⟩ | ⟨-, e⟩ | ⟨-, e⟩ | ⟨⟨t1, o⟩, ⟨u1, v1⟩, e1, e2, k1, k2⟩
    · rw [e] at hrun; cases hrun
    · exact h.elim
    · rw [e'] at e; cases e
    · rw [e'] at e; cases e
    · rw [e'] at e2; cases e2
      rw [e1, ok_bind] at hrun
      simp only at hrun
      cases e3 : lRun (sumU w) t1 ops with
      | ok v => exact ih k1 hr' (fun op'' h' => by rw [next_length]; exact hp op'' (List.mem_cons_of_mem _ h')) e3
      | panic => rw [e3] at hrun; cases hrun
      | diverge => rw [e3] at hrun; cases hrun

/-- C69, exactly: a tree for range addition and range sums of `u{w}` values, `w` at least 32, answers a history
of calls if the sum of the whole list fits in `u{w}` at each moment; otherwise it panics. -/
theorem C69_sum_exact (w : Nat) (hw : 32 ≤ w) (v : List (Nat × Nat)) (a : List (Multiplicative (Nat × Nat)))
    (hv : List.Forall₂ (IsU w) v a) (h1 : ∀ x ∈ a, x.toAdd.2 = 1) (ha : a.length < 2 ^ 32)
    (ops : List (LOp (Nat × Nat) Nat)) (ops' : List (LOp (Multiplicative (Nat × Nat)) Nat))
    (ho : List.Forall₂ (LOp.Like (IsU w) (IsF w)) ops ops') (hu : ∀ op ∈ ops', UnitOp op)
    (hops : ∀ op ∈ ops', op.Pre a.length) :
    (TotalFits w a ops' → ∃ outs outs', (do let t ← LazySegtree.from (sumU w) v; Prod.snd <$> lRun (sumU w) t ops : Res _)
        = ok outs ∧ List.Forall₂ (LOut.Like (IsU w)) outs outs' ∧ LRunOk sumN a ops' outs') ∧
    (¬ TotalFits w a ops' →
      (do let t ← LazySegtree.from (sumU w) v; Prod.snd <$> lRun (sumU w) t ops : Res _) = Res.panic) := by
  have hl : a.length < 2 ^ w := Nat.lt_of_lt_of_le ha (Nat.pow_le_pow_right (by omega) hw)
  constructor
  · intro ht
    refine C69_history sumN_lawful sumN_comp (sumU_represents w) (sumU_returns w) v a hv ha ops ops' ho hops
      (simple_fineRun ⟨by simp, ?_⟩ hl hu ht)
    intro i x fs e1 e2
    refine ⟨h1 x (List.mem_of_getElem? e1), ?_⟩
    rw [List.getElem?_replicate] at e2
    split at e2
    · cases e2; exact Nat.zero_le _
    · cases e2
  · intro ht
    rcases C64_lazy sumN_lawful (sumU_represents w) v a hv ha ops ops' ho hops with h | ⟨outs, outs', h, -, -⟩
    · exact h
    refine (ht ?_).elim
    obtain ⟨t0', e0, hr⟩ := LazyP.from_sat sumN_lawful ha
    rcases from_sim (represents_sim (sumU_represents w)) (listRel_of hv) with
      ⟨-, e⟩ | ⟨h, -⟩ | ⟨-, e⟩ | ⟨-, e⟩ | ⟨t1, t1', e2, e3, k⟩
    · rw [e] at h; cases h
    · exact h.elim
    · rw [e0] at e; cases e
    · rw [e0] at e; cases e
    rw [e0] at e3; cases e3
    rw [e2, ok_bind] at h
    cases e4 : lRun (sumU w) t1 ops with
    | ok u => exact total_of_run ho k hr hops e4
    | panic => rw [e4] at h; cases h
    | diverge => rw [e4] at h; cases h

/-- A history whose total just fits in `u32`, and the same with one more. -/
example : TotalFits 32 [.ofAdd (5, 1), .ofAdd (7, 1), .ofAdd (9, 1)]
      [.applyRange 0 2 2147483636, .set 0 (.ofAdd (1, 1)), .applyRange 0 3 5, .prod 1 3] ∧
    ¬ TotalFits 32 [.ofAdd (5, 1), .ofAdd (7, 1), .ofAdd (9, 1)] [.applyRange 0 2 2147483638] := by
  simp [TotalFits, total, LOp.next, mapRange, sumN, toAdd_mul]

example : (do
    let t ← LazySegtree.from (sumU 32) [(5, 1), (7, 1), (9, 1)]
    Prod.snd <$> lRun (sumU 32) t [.applyRange 0 2 2147483637, .set 0 (1, 1), .applyRange 0 3 5, .prod 1 3] : Res _) =
      ok [.unit, .unit, .unit, .val (2147483663, 2)] ∧
  (do
    let t ← LazySegtree.from (sumU 32) [(5, 1), (7, 1), (9, 1)]
    Prod.snd <$> lRun (sumU 32) t [.applyRange 0 2 2147483638] : Res _) = Res.panic := by constructor <;> rfl

end Verif.Props
