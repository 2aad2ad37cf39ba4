import Mathlib.Algebra.Order.BigOperators.Group.List
import Verif.Proof.Fenwick
/-! C02, C03: the Fenwick tree against a plain list (`Verif/Spec/Fenwick.lean`). -/
namespace Verif.Props
open Res Model Spec FenwickP

variable {A : Type} [AddCommMonoid A] {add sub : A → A → Res A} {Fits : A → Prop}

/-- A history of `add(i, v)` calls on the tree. -/
def fenwickRun (add : A → A → Res A) (t : Fenwick A) : List (Nat × A) → Res (Fenwick A)
  | [] => .ok t
  | (i, v) :: ops => do let t ← t.addAt add i v; fenwickRun add t ops

/-- The tree `t` is what `from(a)` followed by the additions `ops` leaves. -/
def FenwickReached (add : A → A → Res A) (a : List A) (ops : List (Nat × A)) (t : Fenwick A) :
    Prop := ∃ t0, Fenwick.from add 0 a = .ok t0 ∧ fenwickRun add t0 ops = .ok t

/-- Hypotheses of a history: sizes representable, and no range sum ever leaves the type. -/
structure FenwickHyp (add sub : A → A → Res A) (Fits : A → Prop) (a : List A)
    (ops : List (Nat × A)) : Prop where
  ops_ok : CheckedAdd add sub Fits
  len : a.length < 2 ^ 63
  idx : ∀ p ∈ ops, p.1 + 1 < 2 ^ 64
  fits : ∀ pre, pre <+: ops → RangesFit Fits (addAll a pre)

theorem fenwickRun_rep {t : Fenwick A} {a : List A} {ops : List (Nat × A)}
    (h : FenwickHyp add sub Fits a ops) (hr : Rep t a) :
    ∃ t', fenwickRun add t ops = .ok t' ∧ Rep t' (addAll a ops) := by
  induction ops generalizing t a with
  | nil => exact ⟨t, rfl, hr⟩
  | cons p ops ih =>
    obtain ⟨i, v⟩ := p
    obtain ⟨t1, e1, h1⟩ := add_sat h.ops_ok hr (p := i) (v := v)
      (h.fits [(i, v)] (by simp)) h.len (h.idx (i, v) (by simp))
    have h2 : FenwickHyp add sub Fits (addTo a i v) ops :=
      ⟨h.ops_ok, by rw [addTo_length]; exact h.len,
        fun p hp => h.idx p (List.mem_cons_of_mem _ hp),
        fun pre hp => h.fits ((i, v) :: pre) (by simpa using hp)⟩
    obtain ⟨t', e2, h3⟩ := ih h2 h1
    exact ⟨t', by simp [fenwickRun, e1, e2], h3⟩

theorem fenwick_reached {a : List A} {ops : List (Nat × A)} (h : FenwickHyp add sub Fits a ops) :
    ∃ t, FenwickReached add a ops t ∧ Rep t (addAll a ops) := by
  obtain ⟨t0, e0, h0⟩ := from_sat h.ops_ok (h.fits [] (by simp)) h.len
  obtain ⟨t, e1, h1⟩ := fenwickRun_rep h h0
  exact ⟨t, ⟨t0, e0, e1⟩, h1⟩

theorem FenwickReached.rep {a : List A} {ops : List (Nat × A)} {t : Fenwick A}
    (h : FenwickHyp add sub Fits a ops) (hr : FenwickReached add a ops t) :
    Rep t (addAll a ops) := by
  obtain ⟨t', ⟨t0, e0, e1⟩, h1⟩ := fenwick_reached h
  obtain ⟨t0', e0', e1'⟩ := hr
  rw [e0] at e0'; cases e0'
  rw [e1] at e1'; cases e1'
  exact h1

theorem addAll_length (a : List A) (ops : List (Nat × A)) : (addAll a ops).length = a.length := by
  induction ops generalizing a with
  | nil => rfl
  | cons p ops ih => rw [addAll, ih, addTo_length]

/-- C02: `from(a)` and any history of `add`s return; afterwards `pref` and `sum` are the plain
prefix and range sums of the plain list that received the same additions, and `pref` of an index
beyond the length panics. -/
theorem C02_history (a : List A) (ops : List (Nat × A)) (h : FenwickHyp add sub Fits a ops) :
    ∃ t, FenwickReached add a ops t ∧
      (∀ i, i ≤ a.length → t.pref add 0 i = .ok ((addAll a ops).take i).sum) ∧
      (∀ l r, l ≤ r → r ≤ a.length →
        t.sum add sub 0 l r = .ok (((addAll a ops).take r).drop l).sum) ∧
      (∀ i, a.length < i → t.pref add 0 i = .panic) := by
  obtain ⟨t, hr, hrep⟩ := fenwick_reached h
  have hf := h.fits ops (List.prefix_refl _)
  refine ⟨t, hr, ?_, ?_, ?_⟩
  · intro i hi
    obtain ⟨s, e, hs⟩ := pref_sat h.ops_ok hrep hf (i := i) (by rw [addAll_length]; exact hi)
    rw [e, hs]; unfold fn; rw [rsum_list]; simp
  · intro l r h1 h2
    obtain ⟨s, e, hs⟩ := sum_sat h.ops_ok hrep hf h1 (by rw [addAll_length]; exact h2)
    rw [e, hs]; unfold fn; rw [rsum_list]
  · intro i hi
    have hl := hrep.len
    rw [addAll_length] at hl
    unfold Fenwick.pref
    rw [whileLoop]
    simp only [show i > 0 by omega, decide_true, ok_bind, if_true,
      idx_panic (l := t.ary) (i := i - 1) (by omega), panic_bind]

/-- C02: `new(n)` is `from` of the all-zero list. -/
theorem C02_new (hc : CheckedAdd add sub Fits) (h0 : Fits 0) (n : Nat) (hn : n < 2 ^ 63) :
    Fenwick.from add 0 (List.replicate n (0 : A)) = .ok (Fenwick.new 0 n) := by
  obtain ⟨t, e, h⟩ := from_sat hc (a := List.replicate n (0 : A))
    (fun l r => by
      rw [List.take_replicate, List.drop_replicate, List.sum_replicate, nsmul_zero]; exact h0)
    (by simpa using hn)
  rw [e, h.unique (rep_new n)]

/-- The calls `add(0, a[0]); add(1, a[1]); …`. -/
def addsOf (a : List A) : List (Nat × A) := a.zipIdx.map fun p => (p.2, p.1)

theorem addAll_addsOf (a : List A) (k : Nat) (hk : k ≤ a.length) :
    addAll (List.replicate a.length 0) ((addsOf a).take k) =
      a.take k ++ List.replicate (a.length - k) 0 := by
  have happ : ∀ (b : List A) (xs ys : List (Nat × A)), addAll b (xs ++ ys) =
      addAll (addAll b xs) ys := by
    intro b xs ys
    induction xs generalizing b with
    | nil => rfl
    | cons p xs ih => simp [addAll, ih]
  induction k with
  | zero => simp [addAll]
  | succ k ih =>
    have hlen : k < (addsOf a).length := by simp [addsOf]; omega
    rw [List.take_succ_eq_append_getElem hlen, happ, ih (by omega)]
    have hg : (addsOf a)[k] = (k, a[k]) := by simp [addsOf]
    rw [hg]
    simp only [addAll, addTo]
    rw [List.modify_eq_set_getElem?]
    apply List.ext_getElem?
    intro i
    have hk' : (a.take k).length = k := by rw [List.length_take]; omega
    have hk1 : (a.take (k + 1)).length = k + 1 := by rw [List.length_take]; omega
    have e1 : (List.take k a ++ List.replicate (a.length - k) 0)[k]? = some 0 := by
      rw [List.getElem?_append_right (by omega), hk']
      have : 0 < a.length - k := by omega
      simp [this]
    rw [e1]
    simp only [Option.map_eq_map, Option.map_some, zero_add, Option.getD_some]
    by_cases hik : i = k
    · subst hik
      rw [List.getElem?_set_self (by simp [hk']; omega),
        List.getElem?_append_left (by omega)]
      simp [List.getElem?_take]
    · rw [List.getElem?_set_ne (by omega)]
      by_cases hlt : i < k
      · rw [List.getElem?_append_left (by omega), List.getElem?_append_left (by omega)]
        simp [List.getElem?_take, hlt, show i < k + 1 by omega]
      · rw [List.getElem?_append_right (by omega), List.getElem?_append_right (by omega), hk', hk1]
        simp only [List.getElem?_replicate]
        split <;> split <;> first | rfl | omega

/-- C02: `from(a)` leaves exactly the tree left by `new(n)` and the additions
`add(0, a[0]); …; add(n-1, a[n-1])`. -/
theorem C02_from_eq_adds (hc : CheckedAdd add sub Fits) (a : List A) (hn : a.length < 2 ^ 63)
    (hf : RangesFit Fits a) :
    ∃ t, Fenwick.from add 0 a = .ok t ∧
      fenwickRun add (Fenwick.new 0 a.length) (addsOf a) = .ok t := by
  obtain ⟨t, e, h⟩ := from_sat hc hf hn
  have hH : FenwickHyp add sub Fits (List.replicate a.length 0) (addsOf a) := by
    refine ⟨hc, by simpa using hn, ?_, ?_⟩
    · intro p hp
      obtain ⟨k, hk, rfl⟩ := List.getElem_of_mem hp
      simp [addsOf] at hk ⊢
      omega
    · intro pre hp l r
      rw [List.prefix_iff_eq_take] at hp
      rw [hp]
      have hle : pre.length ≤ a.length := by
        have := congrArg List.length hp
        rw [List.length_take] at this
        simp [addsOf] at this
        omega
      rw [addAll_addsOf a _ hle]
      -- a range of the partly filled list is a range of `a` followed by zeros
      have : ((List.take r (List.take pre.length a ++
          List.replicate (a.length - pre.length) 0)).drop l).sum =
          ((a.take (Nat.min r pre.length)).drop l).sum := by
        rw [List.take_append, List.drop_append, List.sum_append, List.take_take,
          List.take_replicate, List.drop_replicate, List.sum_replicate, nsmul_zero, add_zero]
      rw [this]
      exact hf _ _
  obtain ⟨t', e', h'⟩ := fenwickRun_rep hH (rep_new a.length)
  have hall : addAll (List.replicate a.length 0) (addsOf a) = a := by
    have := addAll_addsOf a a.length (Nat.le_refl _)
    rw [List.take_of_length_le (by simp [addsOf])] at this
    simpa using this
  rw [hall] at h'
  rw [h.unique h'] at e
  exact ⟨t', e, e'⟩

/-- C02: `add` at an index `≥ n` changes nothing (and does not panic below `usize::MAX`). -/
theorem C02_add_out_of_range (t : Fenwick A) (i : Nat) (v : A) (hi : t.n ≤ i)
    (h : i + 1 < 2 ^ 64) : t.addAt add i v = .ok t := by
  unfold Fenwick.addAt
  rw [addU_of_lt h, ok_bind, whileLoop]
  simp [show ¬ i + 1 ≤ t.n by omega]

/-- The hypothesis `CheckedAdd` for checked signed integers of width `w`. -/
theorem checkedAdd_int (w : Nat) :
    CheckedAdd (A := Int) (fun a b => ckI w (a + b)) (fun a b => ckI w (a - b)) (InI w) :=
  ⟨fun _ _ h => ckI_of h, fun a b _ _ h => by
    rw [show a + b - a = b by omega, ckI_of h]⟩

/-- The hypothesis `CheckedAdd` for checked unsigned integers of width `w`. -/
theorem checkedAdd_nat (w : Nat) :
    CheckedAdd (A := Nat) (addU w) subU (· < 2 ^ w) :=
  ⟨fun _ _ h => addU_of_lt h, fun a b _ _ _ => by
    rw [subU_of_le (by omega)]; congr 1; omega⟩

/-- The hypothesis `CheckedAdd` for any commutative group whose operations never fail. -/
theorem checkedAdd_pure {G : Type} [AddCommGroup G] :
    CheckedAdd (A := G) (fun a b => .ok (a + b)) (fun a b => .ok (a - b)) (fun _ => True) :=
  ⟨fun _ _ _ => rfl, fun a b _ _ _ => by rw [add_sub_cancel_left]⟩

/-- A history on `i8` values with negative numbers that meets the hypotheses: all range sums of
`[100, -50, 60]`, then of `[100, -50, 65]`, lie in `[-128, 127]`. -/
example : FenwickHyp (A := Int) (fun a b => ckI 8 (a + b)) (fun a b => ckI 8 (a - b)) (InI 8)
    [100, -50, 60] [(2, 5)] := by
  refine ⟨checkedAdd_int 8, by decide, by decide, ?_⟩
  have key : ∀ x y z : Int, InI 8 x → InI 8 y → InI 8 z → InI 8 (x + y) → InI 8 (y + z) →
      InI 8 (x + y + z) → RangesFit (InI 8) [x, y, z] := by
    intro x y z h1 h2 h3 h4 h5 h6 l r
    have h0 : InI 8 0 := by decide
    rcases r with _ | _ | _ | r <;> rcases l with _ | _ | _ | l <;>
      simp_all [List.drop_nil] <;> simpa [add_assoc] using h6
  intro pre hp
  have : pre = [] ∨ pre = [(2, 5)] := by
    rcases pre with _ | ⟨p, _ | ⟨q, pre⟩⟩ <;> simp_all
  rcases this with rfl | rfl
  · exact key _ _ _ (by decide) (by decide) (by decide) (by decide) (by decide) (by decide)
  · exact key 100 (-50) 65 (by decide) (by decide) (by decide) (by decide) (by decide) (by decide)

example : (do
    let t ← Fenwick.from (fun a b => ckI 64 (a + b)) 0 [1, 2, 3, 4, 5]
    let t ← t.addAt (fun a b => ckI 64 (a + b)) 3 10
    t.sum (fun a b => ckI 64 (a + b)) (fun a b => ckI 64 (a - b)) 0 1 4) = .ok (19 : Int) := by
  decide +kernel

/-! ### C03 -/

/-- C03: on a non-empty tree, for a predicate that holds for exactly the first `k` prefix sums
`data[0] + … + data[i]`, `partition_point` returns `k`. -/
theorem C03_partition_point (a : List A) (ops : List (Nat × A))
    (h : FenwickHyp add sub Fits a ops) (t : Fenwick A) (hr : FenwickReached add a ops t)
    (hne : a ≠ []) (pred : A → Bool) (k : Nat) (hk : k ≤ a.length)
    (hp : ∀ i, i < a.length → (pred ((addAll a ops).take (i + 1)).sum = true ↔ i < k)) :
    t.partitionPoint add 0 pred = .ok k := by
  have hrep := hr.rep h
  have hf := h.fits ops (List.prefix_refl _)
  have hlen : 0 < a.length := List.length_pos_iff.2 hne
  obtain ⟨r, e, rfl⟩ := partitionPoint_sat h.ops_ok hrep hf (by rw [addAll_length]; exact h.len)
    (by rw [addAll_length]; exact hlen) (pred := pred) (k := k) (by rw [addAll_length]; exact hk)
    (by
      intro i hi
      rw [addAll_length] at hi
      rw [← hp i hi]
      unfold fn; rw [rsum_list]; simp)
  exact e

/-- C03: on an empty tree `partition_point` panics (`usize::BITS - 1 - 64` underflows). -/
theorem C03_empty_panics (pred : A → Bool) (t : Fenwick A) (h : t.n = 0) :
    t.partitionPoint add 0 pred = .panic := by
  unfold Fenwick.partitionPoint
  have : leadingZeros usizeBits t.n = 64 := by rw [h]; rfl
  rw [this]
  rfl

/-- C03: `search(target)` on non-negative data returns the first index whose prefix sum is
`≥ target`, or `n` when there is none. -/
theorem C03_search [LinearOrder A] [IsOrderedAddMonoid A] (a : List A) (ops : List (Nat × A))
    (h : FenwickHyp add sub Fits a ops) (t : Fenwick A) (hr : FenwickReached add a ops t)
    (hne : a ≠ []) (hnn : ∀ x ∈ addAll a ops, 0 ≤ x) (target : A) :
    ∃ r, t.search add 0 (fun x y => decide (x < y)) target = .ok r ∧ r ≤ a.length ∧
      (∀ i, i < r → ((addAll a ops).take (i + 1)).sum < target) ∧
      (r < a.length → target ≤ ((addAll a ops).take (r + 1)).sum) := by
  have hmono : ∀ i j, i ≤ j → ((addAll a ops).take i).sum ≤ ((addAll a ops).take j).sum := by
    intro i j hij
    have e : (addAll a ops).take j =
        (addAll a ops).take i ++ ((addAll a ops).take j).drop i := by
      conv_lhs => rw [← List.take_append_drop i ((addAll a ops).take j)]
      rw [List.take_take, Nat.min_eq_left hij]
    rw [e, List.sum_append]
    have : 0 ≤ (((addAll a ops).take j).drop i).sum :=
      List.sum_nonneg fun x hx => hnn x (List.mem_of_mem_take (List.mem_of_mem_drop hx))
    exact le_add_of_nonneg_right this
  have hex : ∃ k, k ≤ a.length ∧ (∀ i, i < a.length →
      (((addAll a ops).take (i + 1)).sum < target ↔ i < k)) := by
    have : ∀ m, m ≤ a.length → ∃ k, k ≤ m ∧ (∀ i, i < m →
        (((addAll a ops).take (i + 1)).sum < target ↔ i < k)) := by
      intro m
      induction m with
      | zero => intro _; exact ⟨0, by omega, by omega⟩
      | succ m ih =>
        intro hm
        obtain ⟨k, h1, h2⟩ := ih (by omega)
        by_cases hlt : ((addAll a ops).take (m + 1)).sum < target
        · refine ⟨m + 1, by omega, fun i hi => ⟨fun _ => hi, fun _ => ?_⟩⟩
          exact lt_of_le_of_lt (hmono _ _ (by omega)) hlt
        · refine ⟨k, by omega, fun i hi => ?_⟩
          by_cases him : i = m
          · subst him; exact ⟨fun h => absurd h hlt, fun h => by omega⟩
          · exact h2 i (by omega)
    exact this _ (Nat.le_refl _)
  obtain ⟨k, hk, hkk⟩ := hex
  refine ⟨k, C03_partition_point a ops h t hr hne _ k hk ?_, hk, ?_, ?_⟩
  · intro i hi
    rw [decide_eq_true_iff]; exact hkk i hi
  · intro i hi
    exact (hkk i (by omega)).2 hi
  · intro hlt
    exact not_lt.1 fun hcon => Nat.lt_irrefl _ ((hkk k hlt).1 hcon)

example : (do
    let t ← Fenwick.from (fun a b => ckI 64 (a + b)) 0 [1, 2, 3, 4, 5]
    t.search (fun a b => ckI 64 (a + b)) 0 (fun x y => decide (x < y)) 4) = .ok 2 := by
  decide +kernel

end Verif.Props
