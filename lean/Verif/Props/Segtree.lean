import Mathlib.Algebra.FreeMonoid.Basic
import Verif.Proof.Segtree
/-! C04, C05, C06: the segment tree against a plain list (`Verif/Spec/Segtree.lean`). -/
namespace Verif.Props
open Res Model Spec SegP

variable {S : Type} [Monoid S] {M : MonoidOps S} {Fits : S → Prop}

/-- A history of `set(p, x)` calls on the tree. -/
def segRun (M : MonoidOps S) (t : Segtree S) : List (Nat × S) → Res (Segtree S)
  | [] => .ok t
  | (p, x) :: ops => do let t ← t.set M p x; segRun M t ops

/-- The same history on a plain list. -/
def setAll (a : List S) : List (Nat × S) → List S
  | [] => a
  | (p, x) :: ops => setAll (a.set p x) ops

/-- `t` is what `from(a)` followed by the calls `ops` leaves. -/
def SegReached (M : MonoidOps S) (a : List S) (ops : List (Nat × S)) (t : Segtree S) : Prop :=
  ∃ t0, Segtree.from M a = .ok t0 ∧ segRun M t0 ops = .ok t

/-- Hypotheses of a history: the operation is a monoid wherever it does not overflow, the length
fits in `u32`, positions are in range, and no range product overflows at any time. -/
structure SegHyp (M : MonoidOps S) (Fits : S → Prop) (a : List S) (ops : List (Nat × S)) : Prop where
  lawful : LawfulOps M Fits
  len : a.length < 2 ^ 32
  idx : ∀ p ∈ ops, p.1 < a.length
  fits : ∀ pre, pre <+: ops → ProdsFit Fits (setAll a pre)

theorem setAll_length (a : List S) (ops : List (Nat × S)) : (setAll a ops).length = a.length := by
  induction ops generalizing a with
  | nil => rfl
  | cons p ops ih => rw [setAll, ih, List.length_set]

theorem segRun_rep {t : Segtree S} {a : List S} {ops : List (Nat × S)}
    (h : SegHyp M Fits a ops) (hr : Rep t a) :
    ∃ t', segRun M t ops = .ok t' ∧ Rep t' (setAll a ops) := by
  induction ops generalizing t a with
  | nil => exact ⟨t, rfl, hr⟩
  | cons p ops ih =>
    obtain ⟨i, v⟩ := p
    obtain ⟨t1, e1, h1⟩ := set_sat h.lawful hr (p := i) (x := v) (h.idx (i, v) (by simp))
      (h.fits [(i, v)] (by simp))
    have h2 : SegHyp M Fits (a.set i v) ops :=
      ⟨h.lawful, by rw [List.length_set]; exact h.len,
        fun p hp => by rw [List.length_set]; exact h.idx p (List.mem_cons_of_mem _ hp),
        fun pre hp => h.fits ((i, v) :: pre) (by simpa using hp)⟩
    obtain ⟨t', e2, h3⟩ := ih h2 h1
    exact ⟨t', by simp [segRun, e1, e2], h3⟩

theorem seg_reached {a : List S} {ops : List (Nat × S)} (h : SegHyp M Fits a ops) :
    ∃ t, SegReached M a ops t ∧ Rep t (setAll a ops) := by
  obtain ⟨t0, e0, h0⟩ := from_sat h.lawful (h.fits [] (by simp)) h.len
  obtain ⟨t, e1, h1⟩ := segRun_rep h h0
  exact ⟨t, ⟨t0, e0, e1⟩, h1⟩

theorem SegReached.rep {a : List S} {ops : List (Nat × S)} {t : Segtree S}
    (h : SegHyp M Fits a ops) (hr : SegReached M a ops t) : Rep t (setAll a ops) := by
  obtain ⟨t', ⟨t0, e0, e1⟩, h1⟩ := seg_reached h
  obtain ⟨t0', e0', e1'⟩ := hr
  rw [e0] at e0'; cases e0'
  rw [e1] at e1'; cases e1'
  exact h1

/-- C04: `from(a)` and any history of in-range `set`s return; afterwards `get`, `prod` and
`all_prod` are those of the plain list that received the same writes, in order (`S` need not be
commutative); out-of-range arguments panic. -/
theorem C04_history (a : List S) (ops : List (Nat × S)) (h : SegHyp M Fits a ops) :
    ∃ t, SegReached M a ops t ∧
      (∀ p (hp : p < (setAll a ops).length), t.get p = .ok (setAll a ops)[p]) ∧
      (∀ l r, l ≤ r → r ≤ a.length →
        t.prod M l r = .ok (((setAll a ops).take r).drop l).prod) ∧
      t.allProd = .ok (setAll a ops).prod ∧
      (∀ p x, a.length ≤ p → t.get p = .panic ∧ t.set M p x = .panic) ∧
      (∀ l r, (r < l ∨ a.length < r) → t.prod M l r = .panic) := by
  obtain ⟨t, hr, hrep⟩ := seg_reached h
  have hf := h.fits ops (List.prefix_refl _)
  have hl := setAll_length a ops
  have hn := hrep.n
  rw [hl] at hn
  refine ⟨t, hr, fun p hp => get_sat hrep hp, ?_, allProd_sat hrep, ?_, ?_⟩
  · intro l r h1 h2
    exact prod_sat h.lawful hrep hf h1 (by rw [hl]; exact h2)
  · intro p x hp
    constructor
    · unfold Segtree.get; rw [assert_false (by omega), panic_bind]
    · unfold Segtree.set; rw [assert_false (by omega), panic_bind]
  · intro l r hlr
    unfold Segtree.prod; rw [assert_false (by omega), panic_bind]

/-- C04: `new(n)` is `from` of `n` identity elements. -/
theorem C04_new (hM : LawfulOps M Fits) (n : Nat) :
    Segtree.new M n = Segtree.from M (List.replicate n 1) := by
  unfold Segtree.new; rw [hM.e_eq]

/-- C05: for every (not necessarily monotone) predicate with `f(identity)`, `max_right(l, f)`
returns a boundary of `f` along the products starting at `l`. -/
theorem C05_boundary (a : List S) (ops : List (Nat × S)) (h : SegHyp M Fits a ops)
    (t : Segtree S) (ht : SegReached M a ops t) (f : S → Bool) (hf : f 1 = true) (l : Nat)
    (hl : l ≤ a.length) :
    ∃ r, t.maxRight M l f = .ok r ∧ l ≤ r ∧ r ≤ a.length ∧
      f (rangeProd (setAll a ops) l r) = true ∧
      (r = a.length ∨ f (rangeProd (setAll a ops) l (r + 1)) = false) := by
  have := maxRight_sat h.lawful (ht.rep h) (h.fits ops (List.prefix_refl _)) (l := l)
    (by rw [setAll_length]; exact hl) hf
  rw [setAll_length] at this
  exact this

/-- C05: when `f` is monotone along the products starting at `l` (once false it stays false), the
result is the largest `r ≤ n` with `f (a[l] * … * a[r-1])`. -/
theorem C05_maximum (a : List S) (ops : List (Nat × S)) (h : SegHyp M Fits a ops)
    (t : Segtree S) (ht : SegReached M a ops t) (f : S → Bool) (hf : f 1 = true) (l : Nat)
    (hl : l ≤ a.length)
    (hmono : ∀ i j, l ≤ i → i ≤ j → j ≤ a.length → f (rangeProd (setAll a ops) l j) = true →
      f (rangeProd (setAll a ops) l i) = true) :
    ∃ r, t.maxRight M l f = .ok r ∧
      ∀ j, l ≤ j → j ≤ a.length → (f (rangeProd (setAll a ops) l j) = true ↔ j ≤ r) := by
  obtain ⟨r, e, h1, h2, h3, h4⟩ := C05_boundary a ops h t ht f hf l hl
  refine ⟨r, e, fun j hj1 hj2 => ⟨fun hj => ?_, fun hj => hmono j r hj1 hj h2 h3⟩⟩
  apply Nat.le_of_not_lt
  intro hlt
  rcases h4 with h4 | h4
  · omega
  · rw [hmono (r + 1) j (by omega) hlt hj2 hj] at h4; cases h4

/-- C05: a predicate false at the identity, or `l > n`, panics. -/
theorem C05_panics (a : List S) (ops : List (Nat × S)) (h : SegHyp M Fits a ops)
    (t : Segtree S) (ht : SegReached M a ops t) (f : S → Bool) (l : Nat)
    (hbad : a.length < l ∨ f 1 = false) : t.maxRight M l f = .panic := by
  have hn := (ht.rep h).n
  rw [setAll_length] at hn
  unfold Segtree.maxRight
  rw [h.lawful.e_eq]
  rcases hbad with hb | hb
  · rw [assert_false (by omega), panic_bind]
  · by_cases hl : l ≤ t.n
    · rw [assert_true hl, ok_bind, assert_false (by simp [hb]), panic_bind]
    · rw [assert_false hl, panic_bind]

/-- C06: mirror image of `C05_boundary`. -/
theorem C06_boundary (a : List S) (ops : List (Nat × S)) (h : SegHyp M Fits a ops)
    (t : Segtree S) (ht : SegReached M a ops t) (f : S → Bool) (hf : f 1 = true) (r : Nat)
    (hr : r ≤ a.length) :
    ∃ l, t.minLeft M r f = .ok l ∧ l ≤ r ∧
      f (rangeProd (setAll a ops) l r) = true ∧
      (l = 0 ∨ f (rangeProd (setAll a ops) (l - 1) r) = false) :=
  minLeft_sat h.lawful (ht.rep h) (h.fits ops (List.prefix_refl _)) (r := r)
    (by rw [setAll_length]; exact hr) hf

/-- C06: mirror image of `C05_maximum`: the result is the smallest `l` with
`f (a[l] * … * a[r-1])`. -/
theorem C06_minimum (a : List S) (ops : List (Nat × S)) (h : SegHyp M Fits a ops)
    (t : Segtree S) (ht : SegReached M a ops t) (f : S → Bool) (hf : f 1 = true) (r : Nat)
    (hr : r ≤ a.length)
    (hmono : ∀ i j, i ≤ j → j ≤ r → f (rangeProd (setAll a ops) i r) = true →
      f (rangeProd (setAll a ops) j r) = true) :
    ∃ l, t.minLeft M r f = .ok l ∧
      ∀ j, j ≤ r → (f (rangeProd (setAll a ops) j r) = true ↔ l ≤ j) := by
  obtain ⟨l, e, h1, h2, h3⟩ := C06_boundary a ops h t ht f hf r hr
  refine ⟨l, e, fun j hj => ⟨fun hjt => ?_, fun hlj => hmono l j hlj hj h2⟩⟩
  apply Nat.le_of_not_lt
  intro hlt
  rcases h3 with h3 | h3
  · omega
  · rw [hmono j (l - 1) (by omega) (by omega) hjt] at h3; cases h3

/-- C06: a predicate false at the identity, or `r > n`, panics. -/
theorem C06_panics (a : List S) (ops : List (Nat × S)) (h : SegHyp M Fits a ops)
    (t : Segtree S) (ht : SegReached M a ops t) (f : S → Bool) (r : Nat)
    (hbad : a.length < r ∨ f 1 = false) : t.minLeft M r f = .panic := by
  have hn := (ht.rep h).n
  rw [setAll_length] at hn
  unfold Segtree.minLeft
  rw [h.lawful.e_eq]
  rcases hbad with hb | hb
  · rw [assert_false (by omega), panic_bind]
  · by_cases hl : r ≤ t.n
    · rw [assert_true hl, ok_bind, assert_false (by simp [hb]), panic_bind]
    · rw [assert_false hl, panic_bind]

/-! Concrete cases: string concatenation (a non-commutative monoid), lengths that are not powers
of two, and checked 32-bit addition. -/

/-- Free monoid: `e = ""`, `op = ++`. -/
def catOps : MonoidOps (FreeMonoid Nat) := ⟨1, fun a b => .ok (a * b)⟩

theorem catOps_lawful : LawfulOps catOps (fun _ => True) := ⟨rfl, fun _ _ _ => rfl⟩

example : SegHyp catOps (fun _ => True)
    [FreeMonoid.of 1, FreeMonoid.of 2, FreeMonoid.of 3, FreeMonoid.of 4, FreeMonoid.of 5]
    [(4, FreeMonoid.of 7), (0, FreeMonoid.of 9)] :=
  ⟨catOps_lawful, by decide, by decide, fun _ _ _ _ => trivial⟩

/-- `Additive<i32>`: 32-bit addition, panicking on overflow. -/
def addI32 : MonoidOps (Multiplicative Int) :=
  ⟨1, fun a b => (ckI 32 (a.toAdd + b.toAdd)).bind fun x => .ok (.ofAdd x)⟩

theorem addI32_lawful : LawfulOps addI32 (fun x => InI 32 x.toAdd) := by
  refine ⟨rfl, fun a b h => ?_⟩
  have h' : InI 32 (a.toAdd + b.toAdd) := h
  show (ckI 32 (a.toAdd + b.toAdd)).bind _ = _
  rw [ckI_of h']; rfl

example : SegHyp addI32 (fun x => InI 32 x.toAdd) [.ofAdd 3, .ofAdd (-2), .ofAdd 2147483640]
    [(1, .ofAdd 1)] := by
  refine ⟨addI32_lawful, by decide, by decide, ?_⟩
  intro pre hpre l r
  have : pre = [] ∨ pre = [(1, .ofAdd 1)] := by
    rw [List.prefix_cons_iff] at hpre
    rcases hpre with h | ⟨t, rfl, h⟩
    · exact Or.inl h
    · rw [List.prefix_nil] at h; subst h; exact Or.inr rfl
  have key : ∀ a : List (Multiplicative Int), a.length = 3 →
      (∀ l ≤ 3, ∀ r ≤ 3, InI 32 (rangeProd a l r).toAdd) → ∀ l r, InI 32 (rangeProd a l r).toAdd := by
    intro a ha h l r
    have e1 : rangeProd a l r = rangeProd a (min l 3) (min r 3) := by
      unfold rangeProd
      rw [← ha, ← List.take_take, List.take_of_length_le (Nat.le_refl a.length)]
      rcases Nat.le_total l 3 with hl | hl
      · rw [ha, Nat.min_eq_left hl]
      · rw [ha, Nat.min_eq_right hl, List.drop_of_length_le (by rw [List.length_take]; omega),
          List.drop_of_length_le (by rw [List.length_take]; omega)]
    rw [e1]
    exact h _ (Nat.min_le_right _ _) _ (Nat.min_le_right _ _)
  rcases this with rfl | rfl
  · exact key _ rfl (by decide +kernel) l r
  · exact key _ rfl (by decide +kernel) l r

/-- A monotone predicate with a non-trivial boundary: `max_right(0, len < 3) = 2` on five letters. -/
example : (do
    let t ← Segtree.from catOps [FreeMonoid.of 1, FreeMonoid.of 2, FreeMonoid.of 3, FreeMonoid.of 4,
      FreeMonoid.of 5]
    let x ← t.maxRight catOps 1 (fun w => w.toList.length < 3)
    let y ← t.minLeft catOps 5 (fun w => w.toList.length < 4)
    let z ← t.prod catOps 1 4
    ok (x, y, z.toList) : Res _) = .ok (3, 2, [2, 3, 4]) := by decide +kernel

end Verif.Props
