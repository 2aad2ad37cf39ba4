import Mathlib.Algebra.BigOperators.Group.List.Basic
import Mathlib.Algebra.Group.Opposite
import Verif.Props.Segtree
import Verif.Props.LazySegtree
import Verif.Proof.SegtreeChecked
/-! C113: laws between calls of the segment trees: which sequences of updates can replace each other, how the answers of
several calls fit together, and the two searches as each other's inverse. -/
namespace Verif.Props
open Res Model Spec

variable {S F : Type} [Monoid S]

/-- Pairs of update sequences on an array of length `n` that should be interchangeable. -/
inductive LLaw (M : MapOps S F) (n : Nat) : List (LOp S F) → List (LOp S F) → Prop
  | set_set (p : Nat) (x y : S) (hp : p < n) : LLaw M n [.set p x, .set p y] [.set p y]
  | set_comm (p q : Nat) (x y : S) (hp : p < n) (hq : q < n) (hne : p ≠ q) :
      LLaw M n [.set p x, .set q y] [.set q y, .set p x]
  | set_apply (p : Nat) (x : S) (f : F) (hp : p < n) : LLaw M n [.set p x, .apply p f] [.set p (M.mapping f x)]
  | apply_set (p : Nat) (x : S) (f : F) (hp : p < n) : LLaw M n [.apply p f, .set p x] [.set p x]
  | apply_range (p : Nat) (f : F) (hp : p < n) : LLaw M n [.apply p f] [.applyRange p (p + 1) f]
  | range_empty (l : Nat) (f : F) (hl : l ≤ n) : LLaw M n [.applyRange l l f] []
  | range_id (l r : Nat) (hl : l ≤ r) (hr : r ≤ n) : LLaw M n [.applyRange l r M.idMap] []
  | range_comp (l r : Nat) (f g : F) (hl : l ≤ r) (hr : r ≤ n) :
      LLaw M n [.applyRange l r f, .applyRange l r g] [.applyRange l r (M.comp g f)]
  | range_split (l m r : Nat) (f : F) (hl : l ≤ m) (hm : m ≤ r) (hr : r ≤ n) :
      LLaw M n [.applyRange l r f] [.applyRange l m f, .applyRange m r f]
  | range_disjoint (l r l' r' : Nat) (f g : F) (hl : l ≤ r) (hd : r ≤ l') (hl' : l' ≤ r') (hr : r' ≤ n) :
      LLaw M n [.applyRange l r f, .applyRange l' r' g] [.applyRange l' r' g, .applyRange l r f]
  | range_commute (l r l' r' : Nat) (f g : F) (hl : l ≤ r) (hr : r ≤ n) (hl' : l' ≤ r') (hr' : r' ≤ n)
      (hc : ∀ x, M.mapping f (M.mapping g x) = M.mapping g (M.mapping f x)) :
      LLaw M n [.applyRange l r f, .applyRange l' r' g] [.applyRange l' r' g, .applyRange l r f]
  | range_set_out (l r p : Nat) (f : F) (x : S) (hl : l ≤ r) (hr : r ≤ n) (hp : p < n) (ho : p < l ∨ r ≤ p) :
      LLaw M n [.applyRange l r f, .set p x] [.set p x, .applyRange l r f]
  | range_set_in (l r p : Nat) (f : F) (x : S) (hl : l ≤ p) (hp : p < r) (hr : r ≤ n) :
      LLaw M n [.applyRange l r f, .set p x] [.applyRange l p f, .applyRange (p + 1) r f, .set p x]
  | set_range_in (l r p : Nat) (f : F) (x : S) (hl : l ≤ p) (hp : p < r) (hr : r ≤ n) :
      LLaw M n [.set p x, .applyRange l r f] [.applyRange l r f, .set p (M.mapping f x)]

omit [Monoid S] in
theorem mapRange_getElem? (f : S → S) (a : List S) (l r i : Nat) :
    (mapRange f a l r)[i]? = (a[i]?).map fun x => if l ≤ i ∧ i < r then f x else x := by
  simp [mapRange, List.getElem?_mapIdx]

omit [Monoid S] in
theorem set_getElem? (a : List S) (p i : Nat) (x : S) :
    (a.set p x)[i]? = (a[i]?).map fun y => if p = i then x else y := by
  rw [List.getElem?_set]
  by_cases e : p = i
  · subst e
    by_cases h : p < a.length <;> simp [h]
  · simp [e]

theorem LLaw.pre {M : MapOps S F} {n : Nat} {u v : List (LOp S F)} (h : LLaw M n u v) :
    (∀ op ∈ u, op.Pre n) ∧ (∀ op ∈ v, op.Pre n) := by
  cases h <;> simp only [List.mem_cons, List.not_mem_nil, or_false, forall_eq_or_imp, forall_eq, LOp.Pre,
    false_imp_iff, implies_true, and_true] <;> omega

theorem LLaw.contents {M : MapOps S F} (hM : LawfulMap M) {a : List S} {u v : List (LOp S F)}
    (h : LLaw M a.length u v) : lContents M a u = lContents M a v := by
  cases h <;> simp only [lContents, LOp.next] <;> apply List.ext_getElem? <;> intro i <;>
    simp only [mapRange_getElem?, set_getElem?] <;>
    cases e : a[i]? <;> simp only [Option.map_none, Option.map_some, Option.some.injEq]
  all_goals (try simp only [hM.comp_map, hM.id_map])
  all_goals (split_ifs <;> first | rfl | omega | simp_all)

/-- C113: in every reachable state of a lazy segment tree, the two sides of a law can replace each other: both return,
and every later history of calls gives the same answers after the one as after the other, searches with any predicates
included. -/
theorem C113_laws {M : MapOps S F} (hM : LawfulMap M) (a : List S) (ops : List (LOp S F)) (t : LazySegtree S F)
    (ht : LReached M a ops t) (u v : List (LOp S F)) (h : LLaw M a.length u v) (later : List (LOp S F))
    (hl : ∀ op ∈ later, op.Pre a.length) :
    ∃ tu ou tv ov t1 t2 outs, lRun M t u = ok (tu, ou) ∧ lRun M t v = ok (tv, ov) ∧
      lRun M tu later = ok (t1, outs) ∧ lRun M tv later = ok (t2, outs) := by
  have hr := ht.rep hM
  have hlen := lContents_length (M := M) a ops
  rw [← hlen] at h hl
  obtain ⟨⟨tu, ou⟩, e1, r1, _⟩ := lRun_sat hM hr h.pre.1
  obtain ⟨⟨tv, ov⟩, e2, r2, _⟩ := lRun_sat hM hr h.pre.2
  simp only at r1 r2
  rw [← h.contents hM] at r2
  obtain ⟨t1, t2, outs, e3, e4⟩ := lRun_same hM (by rw [lContents_length, hlen]; exact ht.1) r1 r2 (ops := later)
    (fun op ho => by rw [lContents_length]; exact hl op ho)
  exact ⟨tu, ou, tv, ov, t1, t2, outs, e1, e2, e3, e4⟩

theorem rangeProd_mapRange {M : MapOps S F} (hM : LawfulMap M) (f : F) {a : List S} {l r : Nat} (hlr : l < r)
    (hr : r ≤ a.length) :
    rangeProd (mapRange (M.mapping f) a l r) l r = M.mapping f (rangeProd a l r) := by
  have h1 : ((mapRange (M.mapping f) a l r).take r).drop l = ((a.take r).drop l).map (M.mapping f) := by
    apply List.ext_getElem?
    intro i
    rw [List.getElem?_map, List.getElem?_drop, List.getElem?_drop, List.getElem?_take, List.getElem?_take,
      mapRange_getElem?]
    by_cases hi : l + i < r
    · rw [if_pos hi, if_pos hi]
      congr 1
      funext x
      rw [if_pos ⟨by omega, hi⟩]
    · rw [if_neg hi, if_neg hi]; rfl
  unfold rangeProd
  rw [h1]
  have hne : (a.take r).drop l ≠ [] := by
    intro e
    have := congrArg List.length e
    simp at this
    omega
  generalize (a.take r).drop l = b at hne
  induction b with
  | nil => exact absurd rfl hne
  | cons x b ih =>
    cases b with
    | nil => simp
    | cons y b =>
      have := ih (by simp)
      rw [List.map_cons, List.prod_cons, this, List.prod_cons (a := x), hM.map_op]

theorem rangeProd_one {a : List S} {p : Nat} (hp : p < a.length) : rangeProd a p (p + 1) = a[p] := by
  unfold rangeProd
  have : (a.take (p + 1)).drop p = [a[p]] := by
    rw [List.take_succ_eq_append_getElem hp, List.drop_left' (by simp; omega)]
  rw [this]; simp

/-- C113: the answers of successive calls on a lazy segment tree fit together: a range splits into the product of its
parts, one position is `get`, the whole range is `all_prod`, and mapping a nonempty range maps its product. -/
theorem C113_answers {M : MapOps S F} (hM : LawfulMap M) (a : List S) (ops : List (LOp S F)) (t : LazySegtree S F)
    (ht : LReached M a ops t) :
    (∀ l m r, l ≤ m → m ≤ r → r ≤ a.length → ∃ t1 t2 t3 x y, t.prod M l m = ok (t1, x) ∧
      t1.prod M m r = ok (t2, y) ∧ t2.prod M l r = ok (t3, x * y)) ∧
    (∀ p, p < a.length → ∃ t1 t2 x, t.get M p = ok (t1, x) ∧ t1.prod M p (p + 1) = ok (t2, x)) ∧
    (∃ t1 x, t.prod M 0 a.length = ok (t1, x) ∧ t1.allProd = ok x ∧ t.allProd = ok x) ∧
    (∀ l r f, l < r → r ≤ a.length → ∃ t1 t2 t3 x, t.prod M l r = ok (t1, x) ∧
      t1.applyRange M l r f = ok t2 ∧ t2.prod M l r = ok (t3, M.mapping f x)) := by
  have hr := ht.rep hM
  have hlen := lContents_length (M := M) a ops
  rw [← hlen]
  generalize lContents M a ops = b at hr
  refine ⟨fun l m r h1 h2 h3 => ?_, fun p hp => ?_, ?_, fun l r f h1 h2 => ?_⟩
  · obtain ⟨⟨t1, x⟩, e1, r1, x1⟩ := LazyP.prod_sat hM hr h1 (Nat.le_trans h2 h3)
    obtain ⟨⟨t2, y⟩, e2, r2, x2⟩ := LazyP.prod_sat hM r1 h2 h3
    obtain ⟨⟨t3, z⟩, e3, _, x3⟩ := LazyP.prod_sat hM r2 (Nat.le_trans h1 h2) h3
    simp only at x1 x2 x3
    refine ⟨t1, t2, t3, x, y, e1, e2, ?_⟩
    rw [e3, x3, x1, x2]
    rw [SegAny.rangeProd_mul h1 h2]
  · obtain ⟨⟨t1, x⟩, e1, r1, x1⟩ := LazyP.get_sat hM hr hp
    obtain ⟨⟨t2, y⟩, e2, r2, x2⟩ := LazyP.prod_sat hM r1 (Nat.le_succ p) hp
    simp only at x1 x2
    refine ⟨t1, t2, x, e1, ?_⟩
    rw [e2, x2, x1, ← rangeProd_one hp]
  · obtain ⟨⟨t1, x⟩, e1, r1, x1⟩ := LazyP.prod_sat hM hr (Nat.zero_le _) (Nat.le_refl _)
    simp only at x1
    have : x = b.prod := by rw [x1]; simp [rangeProd]
    refine ⟨t1, x, e1, ?_, ?_⟩
    · rw [LazyP.allProd_sat hM r1, this]
    · rw [LazyP.allProd_sat hM hr, this]
  · obtain ⟨⟨t1, x⟩, e1, r1, x1⟩ := LazyP.prod_sat hM hr (Nat.le_of_lt h1) h2
    obtain ⟨t2, e2, r2⟩ := LazyP.applyRange_sat hM r1 (Nat.le_of_lt h1) h2 (f := f)
    obtain ⟨⟨t3, z⟩, e3, _, x3⟩ := LazyP.prod_sat hM r2 (Nat.le_of_lt h1) (by simpa [mapRange] using h2)
    simp only at x1 x3
    refine ⟨t1, t2, t3, x, e1, e2, ?_⟩
    rw [e3, x3, x1, rangeProd_mapRange hM f h1 h2]

/-- A predicate that a product satisfies only if both factors do. -/
def FactorClosed (f : S → Bool) : Prop := ∀ x y, f (x * y) = true → f x = true ∧ f y = true

theorem FactorClosed.range {f : S → Bool} (hf : FactorClosed f) {a : List S} {l r l' r' : Nat} (h1 : l ≤ l')
    (h2 : l' ≤ r') (h3 : r' ≤ r) (h : f (rangeProd a l r) = true) : f (rangeProd a l' r') = true := by
  rw [← SegAny.rangeProd_mul (m := l') h1 (Nat.le_trans h2 h3)] at h
  have h := (hf _ _ h).2
  rw [← SegAny.rangeProd_mul (m := r') h2 h3] at h
  exact (hf _ _ h).1

theorem search_galois {f : S → Bool} (hf : FactorClosed f) {a : List S} {l r L R : Nat} (hlr : l ≤ r)
    (hr : r ≤ a.length) (hl1 : l ≤ R) (hR1 : f (rangeProd a l R) = true)
    (hR2 : R = a.length ∨ f (rangeProd a l (R + 1)) = false) (hL : L ≤ r) (hL1 : f (rangeProd a L r) = true)
    (hL2 : L = 0 ∨ f (rangeProd a (L - 1) r) = false) :
    (L ≤ l ↔ r ≤ R) ∧ (r ≤ R ↔ f (rangeProd a l r) = true) := by
  have k1 : r ≤ R ↔ f (rangeProd a l r) = true := by
    refine ⟨fun h => hf.range (Nat.le_refl _) hlr h hR1, fun h => ?_⟩
    by_contra hc
    rcases hR2 with e | e
    · omega
    · rw [hf.range (Nat.le_refl l) (by omega) (by omega) h] at e; cases e
  have k2 : L ≤ l ↔ f (rangeProd a l r) = true := by
    refine ⟨fun h => hf.range h hlr (Nat.le_refl _) hL1, fun h => ?_⟩
    by_contra hc
    rcases hL2 with e | e
    · omega
    · rw [hf.range (by omega) (by omega) (Nat.le_refl r) h] at e; cases e
  exact ⟨k2.trans k1.symm, k1⟩

/-- C113: on a segment tree, for a predicate that passes to factors the two searches are each other's inverse:
`min_left(r) ≤ l` exactly when `r ≤ max_right(l)`, which is exactly when the product of `l..r` satisfies the predicate. -/
theorem C113_galois {M : MonoidOps S} {Fits : S → Prop} (a : List S) (ops : List (Nat × S)) (h : SegHyp M Fits a ops)
    (t : Segtree S) (ht : SegReached M a ops t) (f : S → Bool) (h1 : f 1 = true) (hf : FactorClosed f) (l r : Nat)
    (hlr : l ≤ r) (hr : r ≤ a.length) :
    ∃ R L x, t.maxRight M l f = ok R ∧ t.minLeft M r f = ok L ∧ t.prod M l r = ok x ∧
      (L ≤ l ↔ r ≤ R) ∧ (r ≤ R ↔ f x = true) := by
  obtain ⟨R, e1, a1, a2, a3, a4⟩ := C05_boundary a ops h t ht f h1 l (Nat.le_trans hlr hr)
  obtain ⟨L, e2, b1, b2, b3⟩ := C06_boundary a ops h t ht f h1 r hr
  have hn := setAll_length a ops
  refine ⟨R, L, _, e1, e2, SegP.prod_sat h.lawful (ht.rep h) (h.fits ops (List.prefix_refl _)) hlr
    (by rw [hn]; exact hr), ?_⟩
  exact search_galois hf hlr (by rw [hn]; exact hr) a1 a3 (by rw [hn]; exact a4) b1 b2 b3

/-- C113: the same of a lazy segment tree, the three calls made one after the other in any reachable state. -/
theorem C113_lazy_galois {M : MapOps S F} (hM : LawfulMap M) (a : List S) (ops : List (LOp S F))
    (t : LazySegtree S F) (ht : LReached M a ops t) (f : S → Bool) (h1 : f 1 = true) (hf : FactorClosed f) (l r : Nat)
    (hlr : l ≤ r) (hr : r ≤ a.length) :
    ∃ t1 t2 t3 R L x, t.maxRight M l f = ok (t1, R) ∧ t1.minLeft M r f = ok (t2, L) ∧ t2.prod M l r = ok (t3, x) ∧
      (L ≤ l ↔ r ≤ R) ∧ (r ≤ R ↔ f x = true) := by
  have hrep := ht.rep hM
  have hlen := lContents_length (M := M) a ops
  rw [← hlen] at hr
  generalize lContents M a ops = b at hrep hr
  obtain ⟨⟨t1, R⟩, e1, r1, a1, a2, a3, a4⟩ := LazyP.maxRight_sat hM hrep (Nat.le_trans hlr hr) h1
  obtain ⟨⟨t2, L⟩, e2, r2, b1, b2, b3⟩ := LazyP.minLeft_sat hM r1 hr h1
  obtain ⟨⟨t3, x⟩, e3, _, x3⟩ := LazyP.prod_sat hM r2 hlr hr
  simp only at x3 a1 a2 a3 a4 b1 b2 b3
  refine ⟨t1, t2, t3, R, L, x, e1, e2, e3, ?_⟩
  rw [x3]
  exact search_galois hf hlr hr a1 a3 a4 b1 b2 b3

theorem prod_reverse_op (b : List S) : (b.reverse.map MulOpposite.op).prod = MulOpposite.op b.prod := by
  induction b with
  | nil => simp
  | cons x b ih => rw [List.reverse_cons, List.map_append, List.prod_append, ih]; simp

theorem rangeProd_reverse (a : List S) {l r : Nat} (hlr : l ≤ r) (hr : r ≤ a.length) :
    rangeProd (a.reverse.map MulOpposite.op) (a.length - r) (a.length - l) = MulOpposite.op (rangeProd a l r) := by
  unfold rangeProd
  rw [← List.map_take, ← List.map_drop, ← prod_reverse_op]
  congr 2
  rw [List.take_reverse, List.drop_reverse]
  congr 1
  rw [List.length_drop, List.drop_take]
  have h1 : a.length - (a.length - l) = l := by omega
  rw [h1, show a.length - l - (a.length - r) = r - l by omega]

/-- C113: a segment tree over the reversed list, with the factors of the operation swapped, is the mirror image: `prod` of
the mirrored range is the same, and for predicates that pass to factors `max_right` is the mirror image of `min_left` and
conversely. -/
theorem C113_mirror {M : MonoidOps S} {M' : MonoidOps Sᵐᵒᵖ} {Fits : S → Prop} {Fits' : Sᵐᵒᵖ → Prop} (a : List S)
    (ops : List (Nat × S)) (h : SegHyp M Fits a ops) (t : Segtree S) (ht : SegReached M a ops t) (a' : List Sᵐᵒᵖ)
    (ops' : List (Nat × Sᵐᵒᵖ)) (h' : SegHyp M' Fits' a' ops') (t' : Segtree Sᵐᵒᵖ) (ht' : SegReached M' a' ops' t')
    (hm : setAll a' ops' = (setAll a ops).reverse.map MulOpposite.op) :
    (∀ l r, l ≤ r → r ≤ a.length → ∃ x, t.prod M l r = ok x ∧
      t'.prod M' (a.length - r) (a.length - l) = ok (MulOpposite.op x)) ∧
    (∀ f : S → Bool, f 1 = true → FactorClosed f → ∀ k ≤ a.length,
      (∃ R, t.maxRight M k f = ok R ∧ t'.minLeft M' (a.length - k) (fun x => f x.unop) = ok (a.length - R)) ∧
      (∃ L, t.minLeft M k f = ok L ∧ t'.maxRight M' (a.length - k) (fun x => f x.unop) = ok (a.length - L))) := by
  have hl' : a'.length = a.length := by
    have := congrArg List.length hm
    simpa [setAll_length] using this
  have hn := setAll_length a ops
  have hrev : ∀ {l r : Nat}, l ≤ r → r ≤ a.length →
      rangeProd (setAll a' ops') (a.length - r) (a.length - l) = MulOpposite.op (rangeProd (setAll a ops) l r) := by
    intro l r h1 h2
    have := rangeProd_reverse (setAll a ops) h1 (by rw [hn]; exact h2)
    rwa [hn, ← hm] at this
  refine ⟨fun l r h1 h2 => ?_, fun f hf hc k hk => ?_⟩
  · refine ⟨_, SegP.prod_sat h.lawful (ht.rep h) (h.fits ops (List.prefix_refl _)) h1 (by rw [hn]; exact h2), ?_⟩
    rw [← hrev h1 h2]
    exact SegP.prod_sat h'.lawful (ht'.rep h') (h'.fits ops' (List.prefix_refl _)) (by omega)
      (by rw [setAll_length, hl']; omega)
  · have hf' : (fun x : Sᵐᵒᵖ => f x.unop) 1 = true := hf
    have hc' : FactorClosed (fun x : Sᵐᵒᵖ => f x.unop) := fun x y hxy => (hc _ _ hxy).symm
    constructor
    · obtain ⟨R, e1, p1⟩ := C05_maximum a ops h t ht f hf k hk
        (fun i j h1 h2 _ h4 => hc.range (Nat.le_refl _) h1 h2 h4)
      obtain ⟨R', e1', q1, q2, _, _⟩ := C05_boundary a ops h t ht f hf k hk
      rw [e1] at e1'; cases e1'
      obtain ⟨L, e2, p2⟩ := C06_minimum a' ops' h' t' ht' (fun x => f x.unop) hf' (a.length - k) (by omega)
        (fun i j h1 h2 h4 => hc'.range h1 h2 (Nat.le_refl _) h4)
      obtain ⟨L', e2', q3, _, _⟩ := C06_boundary a' ops' h' t' ht' (fun x => f x.unop) hf' (a.length - k) (by omega)
      rw [e2] at e2'; cases e2'
      refine ⟨R, e1, ?_⟩
      rw [e2]
      have k1 : L ≤ a.length - R := by
        rw [← p2 _ (by omega), hrev q1 q2]
        exact (p1 R q1 q2).2 (Nat.le_refl _)
      have k2 : a.length - L ≤ R := by
        rw [← p1 _ (by omega) (by omega)]
        have := (p2 L q3).2 (Nat.le_refl _)
        rw [show L = a.length - (a.length - L) by omega, hrev (by omega) (by omega)] at this
        exact this
      congr 1
      omega
    · obtain ⟨L, e1, p1⟩ := C06_minimum a ops h t ht f hf k hk
        (fun i j h1 h2 h4 => hc.range h1 h2 (Nat.le_refl _) h4)
      obtain ⟨L', e1', q1, _, _⟩ := C06_boundary a ops h t ht f hf k hk
      rw [e1] at e1'; cases e1'
      obtain ⟨R, e2, p2⟩ := C05_maximum a' ops' h' t' ht' (fun x => f x.unop) hf' (a.length - k) (by omega)
        (fun i j h1 h2 _ h4 => hc'.range (Nat.le_refl _) h1 h2 h4)
      obtain ⟨R', e2', q3, q4, _, _⟩ := C05_boundary a' ops' h' t' ht' (fun x => f x.unop) hf' (a.length - k) (by omega)
      rw [e2] at e2'; cases e2'
      refine ⟨L, e1, ?_⟩
      rw [e2]
      have k1 : a.length - L ≤ R := by
        rw [← p2 _ (by omega) (by omega), hrev q1 hk]
        exact (p1 L q1).2 (Nat.le_refl _)
      have k2 : L ≤ a.length - R := by
        rw [← p1 _ (by omega)]
        have := (p2 R q3 q4).2 (Nat.le_refl _)
        rw [show R = a.length - (a.length - R) by omega, hrev (by omega) (by omega)] at this
        exact this
      congr 1
      omega

/-! Concrete cases: adding constants to ranges of three sequences; a limit on the total of consecutive numbers, which
passes to factors. -/

example : LLaw shiftOps 3 [.applyRange 0 3 5, .set 1 (FreeMonoid.of 7)]
    [.applyRange 0 1 5, .applyRange 2 3 5, .set 1 (FreeMonoid.of 7)] :=
  .range_set_in 0 3 1 5 _ (by omega) (by omega) (by omega)

example : ∃ t, LReached shiftOps [FreeMonoid.of 1, FreeMonoid.of 2, FreeMonoid.of 3] [.applyRange 0 2 5] t := by
  obtain ⟨t0, t, outs, e0, e1, _⟩ := C07_history shiftOps_lawful [FreeMonoid.of 1, FreeMonoid.of 2, FreeMonoid.of 3]
    (by simp) [.applyRange 0 2 5] (by simp [LOp.Pre])
  exact ⟨t, by simp, by simp [LOp.Pre], t0, outs, e0, e1⟩

/-- At most four letters. -/
def atMost4 (w : FreeMonoid Nat) : Bool := w.length ≤ 4

theorem atMost4_closed : FactorClosed atMost4 := by
  intro x y h
  simp only [atMost4, decide_eq_true_eq, FreeMonoid.length_mul] at *
  omega

example : atMost4 1 = true := rfl

/-- Concatenation with the factors swapped. -/
def catOpsOp : MonoidOps (FreeMonoid Nat)ᵐᵒᵖ := ⟨1, fun a b => .ok (a * b)⟩

example : let a := [FreeMonoid.of 1, FreeMonoid.of 2 * FreeMonoid.of 3, FreeMonoid.of 4]
    SegHyp catOps (fun _ => True) a [(0, FreeMonoid.of 9)] ∧
    SegHyp catOpsOp (fun _ => True) ((setAll a [(0, FreeMonoid.of 9)]).reverse.map MulOpposite.op) [] ∧
    setAll ((setAll a [(0, FreeMonoid.of 9)]).reverse.map MulOpposite.op) [] =
      (setAll a [(0, FreeMonoid.of 9)]).reverse.map MulOpposite.op := by
  refine ⟨⟨catOps_lawful, by simp, by simp, fun _ _ _ _ => trivial⟩,
    ⟨⟨rfl, fun _ _ _ => rfl⟩, by simp [setAll], by simp, fun _ _ _ _ => trivial⟩, rfl⟩

end Verif.Props
