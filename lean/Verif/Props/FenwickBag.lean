import Verif.Props.Fenwick
import Mathlib.Algebra.Order.Group.Int
import Mathlib.Data.List.Induction
import Verif.Spec.FenwickBag
import Verif.Prelude.NoDiv
/-! C108: programs that use the Fenwick tree: a bag of numbers with ranks and order statistics, counting inversions,
and adding to ranges. -/
namespace Verif.Props
open Res Model Spec FenwickP

/-- The call that a bag operation makes: `add(x, 1)` or `add(x, -1)`. -/
def _root_.Verif.Spec.BagOp.call : BagOp → Nat × Int
  | .ins x => (x, 1)
  | .del x => (x, -1)

/-- The list of counts `0..n` of a bag. -/
def countsOf (n : Nat) (M : Multiset Nat) : List Int := (List.range n).map fun x => (M.count x : Int)

theorem countsOf_ins (n x : Nat) (M : Multiset Nat) : addTo (countsOf n M) x 1 = countsOf n (x ::ₘ M) := by
  apply List.ext_getElem?
  intro i
  simp only [addTo, countsOf, List.getElem?_modify, List.getElem?_map]
  by_cases hi : i < n
  · simp only [List.getElem?_range hi, Option.map_some, Multiset.count_cons]
    by_cases h : x = i
    · subst h; simp
    · simp [h, Ne.symm h]
  · simp [List.getElem?_eq_none (l := List.range n) (i := i) (by simp; omega)]

theorem countsOf_del (n x : Nat) (M : Multiset Nat) (hx : x ∈ M) :
    addTo (countsOf n M) x (-1) = countsOf n (M.erase x) := by
  have := countsOf_ins n x (M.erase x)
  rw [Multiset.cons_erase hx] at this
  rw [← this]
  simp only [addTo, List.modify_modify_eq]
  have : ((fun y : Int => y + -1) ∘ fun y => y + 1) = id := by funext y; simp
  rw [this, List.modify_id]

theorem addAll_counts (n : Nat) (ops : List BagOp) : ∀ M, BagOk n M ops →
    addAll (countsOf n M) (ops.map BagOp.call) = countsOf n (bagOf M ops) := by
  induction ops with
  | nil => intro M _; rfl
  | cons o ops ih =>
    intro M h
    cases o with
    | ins x => rw [List.map_cons]; simp only [BagOp.call, addAll, countsOf_ins, bagOf]; exact ih _ h.2
    | del x => rw [List.map_cons]; simp only [BagOp.call, addAll, countsOf_del n x M h.1, bagOf]; exact ih _ h.2

theorem below_succ (M : Multiset Nat) (i : Nat) : below M (i + 1) = below M i + M.count i := by
  unfold below
  induction M using Multiset.induction_on with
  | empty => simp
  | cons a M ih =>
    rw [Multiset.count_cons]
    by_cases h1 : a < i
    · rw [Multiset.filter_cons_of_pos _ (by omega), Multiset.filter_cons_of_pos (p := (· < i)) _ h1, Multiset.card_cons,
        Multiset.card_cons, ih, if_neg (by omega)]
      omega
    · by_cases h2 : a = i
      · rw [Multiset.filter_cons_of_pos _ (by omega), Multiset.filter_cons_of_neg (p := (· < i)) _ h1, Multiset.card_cons, ih,
          if_pos h2.symm]
        omega
      · rw [Multiset.filter_cons_of_neg _ (by omega), Multiset.filter_cons_of_neg (p := (· < i)) _ h1, ih, if_neg (by omega)]
        omega

theorem below_mono (M : Multiset Nat) {i j : Nat} (h : i ≤ j) : below M i ≤ below M j := by
  induction j with
  | zero => rw [show i = 0 by omega]
  | succ j ih =>
    by_cases hij : i = j + 1
    · rw [hij]
    · rw [below_succ]; have := ih (by omega); omega

theorem below_zero (M : Multiset Nat) : below M 0 = 0 := by simp [below]

theorem below_le (M : Multiset Nat) (i : Nat) : below M i ≤ Multiset.card M :=
  Multiset.card_le_card (Multiset.filter_le _ _)

theorem sum_counts (n : Nat) (M : Multiset Nat) (i : Nat) :
    ((countsOf n M).take i).sum = (below M (min i n) : Int) := by
  induction i with
  | zero => simp [below_zero]
  | succ i ih =>
    by_cases hi : i < n
    · rw [List.take_add_one, List.sum_append, ih, Nat.min_eq_left (by omega), Nat.min_eq_left (by omega), below_succ]
      simp [countsOf, hi]
    · rw [List.take_of_length_le (by simp [countsOf]; omega)] at ih ⊢
      rw [ih]; congr 2; omega

theorem card_bagOf (ops : List BagOp) : ∀ M n, BagOk n M ops →
    Multiset.card (bagOf M ops) ≤ Multiset.card M + ops.length := by
  induction ops with
  | nil => intro M n _; simp [bagOf]
  | cons o ops ih =>
    intro M n h
    cases o with
    | ins x => have := ih _ _ h.2; rw [Multiset.card_cons] at this; simp only [bagOf, List.length_cons]; omega
    | del x =>
      have := ih _ _ h.2
      have h2 := Multiset.card_le_card (Multiset.erase_le x M)
      simp only [bagOf, List.length_cons]; omega

theorem bagOk_prefix {n : Nat} {ops pre : List BagOp} (h : pre <+: ops) : ∀ {M}, BagOk n M ops → BagOk n M pre := by
  induction pre generalizing ops with
  | nil => intro M _; trivial
  | cons o pre ih =>
    obtain ⟨r, rfl⟩ := h
    intro M hM
    cases o with
    | ins x => exact ⟨hM.1, ih ⟨r, rfl⟩ hM.2⟩
    | del x => exact ⟨hM.1, ih ⟨r, rfl⟩ hM.2⟩

theorem bagOk_lt {n : Nat} {ops : List BagOp} : ∀ {M}, (∀ x ∈ M, x < n) → BagOk n M ops →
    (∀ x ∈ bagOf M ops, x < n) ∧ ∀ o ∈ ops, o.call.1 < n := by
  induction ops with
  | nil => intro M h _; exact ⟨h, by simp⟩
  | cons o ops ih =>
    intro M h hM
    cases o with
    | ins x =>
      have := ih (M := x ::ₘ M) (fun y hy => by
        rcases Multiset.mem_cons.1 hy with rfl | hy
        · exact hM.1
        · exact h y hy) hM.2
      exact ⟨this.1, fun o ho => by
        rcases List.mem_cons.1 ho with rfl | ho
        · exact hM.1
        · exact this.2 o ho⟩
    | del x =>
      have := ih (M := M.erase x) (fun y hy => h y (Multiset.mem_of_mem_erase hy)) hM.2
      exact ⟨this.1, fun o ho => by
        rcases List.mem_cons.1 ho with rfl | ho
        · exact h x hM.1
        · exact this.2 o ho⟩

theorem countsOf_zero (n : Nat) : countsOf n 0 = List.replicate n 0 := by
  simp [countsOf, List.map_const']

theorem bag_hyp {w n : Nat} {ops : List BagOp} (hn : n < 2 ^ 63) (hw : ops.length < 2 ^ (w - 1)) (ho : BagOk n 0 ops) :
    FenwickHyp (fun a b => ckI w (a + b)) (fun a b => ckI w (a - b)) (InI w) (List.replicate n 0)
      (ops.map BagOp.call) := by
  refine ⟨checkedAdd_int w, by simpa using hn, ?_, ?_⟩
  · intro p hp
    obtain ⟨o, h1, rfl⟩ := List.mem_map.1 hp
    have := (bagOk_lt (M := 0) (by simp) ho).2 o h1
    omega
  · intro pre hpre l r
    obtain ⟨q, rfl, hq⟩ : ∃ q, pre = q.map BagOp.call ∧ q <+: ops := by
      rw [List.prefix_iff_eq_take] at hpre
      exact ⟨ops.take pre.length, by rw [← List.map_take] at hpre; exact hpre, List.take_prefix _ _⟩
    have hq' := bagOk_prefix hq ho
    rw [← countsOf_zero, addAll_counts n q 0 hq']
    have hs : (((countsOf n (bagOf 0 q)).take r).drop l).sum =
        (below (bagOf 0 q) (min r n) : Int) - below (bagOf 0 q) (min (min l r) n) := by
      rw [← sum_counts, ← sum_counts]
      have := List.take_append_drop l ((countsOf n (bagOf 0 q)).take r)
      have h2 := congrArg List.sum this
      rw [List.sum_append, List.take_take] at h2
      rw [← h2]; omega
    rw [hs]
    have h1 := below_le (bagOf 0 q) (min r n)
    have h2 := below_mono (bagOf 0 q) (show min (min l r) n ≤ min r n by omega)
    have h3 := card_bagOf q 0 n hq'
    have h4 := hq.length_le
    rw [Multiset.card_zero] at h3
    constructor
    · have : (0 : Int) < 2 ^ (w - 1) := Int.pow_pos (by omega)
      omega
    · have : ((ops.length : Nat) : Int) < 2 ^ (w - 1) := by exact_mod_cast hw
      omega

theorem inI_zero (w : Nat) : InI w 0 := by
  have : (0 : Int) < 2 ^ (w - 1) := Int.pow_pos (by omega)
  exact ⟨by omega, this⟩

/-- The tree that a history of bag operations leaves. -/
def BagTree (w n : Nat) (ops : List BagOp) (t : Fenwick Int) : Prop :=
  fenwickRun (fun a b => ckI w (a + b)) (Fenwick.new 0 n) (ops.map BagOp.call) = .ok t

/-- C108: numbers below `n` are put into a Fenwick tree of counts by `add(x, 1)` and taken out by `add(x, -1)`. The
calls return; afterwards `pref(x)` is the number of elements below `x`, and `sum(l, r)` the number of those with
`l ≤ x < r`. -/
theorem C108_rank (w n : Nat) (ops : List BagOp) (hn : n < 2 ^ 63) (hw : ops.length < 2 ^ (w - 1))
    (ho : BagOk n 0 ops) :
    ∃ t, BagTree w n ops t ∧
      (∀ x, x ≤ n → t.pref (fun a b => ckI w (a + b)) 0 x = .ok (below (bagOf 0 ops) x : Int)) ∧
      ∀ l r, l ≤ r → r ≤ n → t.sum (fun a b => ckI w (a + b)) (fun a b => ckI w (a - b)) 0 l r =
        .ok (Multiset.card ((bagOf 0 ops).filter fun x => l ≤ x ∧ x < r) : Int) := by
  have hH := bag_hyp hn hw ho
  obtain ⟨t, ⟨t0, e0, e1⟩, h1, h2, -⟩ := C02_history _ _ hH
  rw [C02_new (checkedAdd_int w) (inI_zero w) n hn] at e0
  cases e0
  rw [← countsOf_zero, addAll_counts n ops 0 ho] at h1 h2
  refine ⟨t, e1, fun x hx => ?_, fun l r hl hr => ?_⟩
  · rw [h1 x (by simpa [countsOf] using hx), sum_counts, Nat.min_eq_left hx]
  · rw [h2 l r hl (by simpa [countsOf] using hr)]
    congr 1
    have := List.take_append_drop l ((countsOf n (bagOf 0 ops)).take r)
    have h3 := congrArg List.sum this
    rw [List.sum_append, List.take_take, sum_counts, sum_counts, Nat.min_eq_left hl,
      Nat.min_eq_left (show l ≤ n by omega), Nat.min_eq_left hr] at h3
    have h4 : below (bagOf 0 ops) r = below (bagOf 0 ops) l +
        Multiset.card ((bagOf 0 ops).filter fun x => l ≤ x ∧ x < r) := by
      unfold below
      rw [← Multiset.card_add]
      congr 1
      rw [← Multiset.filter_add_not (fun x => x < l) ((bagOf 0 ops).filter (· < r)), Multiset.filter_filter,
        Multiset.filter_filter]
      congr 1
      · exact Multiset.filter_congr fun x _ => by omega
      · exact Multiset.filter_congr fun x _ => by omega
    rw [h4] at h3
    push_cast at h3
    omega

/-- C108: the `k`-th smallest element. For `1 ≤ k ≤` the number of elements, `search(k)` returns an element of the bag
that has fewer than `k` elements below it and at least `k` up to it; for greater `k` it returns `n`. -/
theorem C108_kth (w n : Nat) (ops : List BagOp) (hn : n < 2 ^ 63) (hn0 : 0 < n) (hw : ops.length < 2 ^ (w - 1))
    (ho : BagOk n 0 ops) (t : Fenwick Int) (ht : BagTree w n ops t) (k : Nat) (hk : 1 ≤ k) :
    ∃ y, t.search (fun a b => ckI w (a + b)) 0 (fun x y => decide (x < y)) (k : Int) = .ok y ∧
      (k ≤ Multiset.card (bagOf 0 ops) →
        y ∈ bagOf 0 ops ∧ below (bagOf 0 ops) y < k ∧ k ≤ below (bagOf 0 ops) (y + 1)) ∧
      (Multiset.card (bagOf 0 ops) < k → y = n) := by
  have hH := bag_hyp hn hw ho
  have hr : FenwickReached (fun a b => ckI w (a + b)) (List.replicate n (0 : Int)) (ops.map BagOp.call) t :=
    ⟨_, C02_new (checkedAdd_int w) (inI_zero w) n hn, ht⟩
  have hc := addAll_counts n ops 0 ho
  rw [countsOf_zero] at hc
  obtain ⟨y, e, h1, h2, h3⟩ := C03_search _ _ hH t hr (by intro h; simp at h; omega) (by
    rw [hc]
    intro x hx
    obtain ⟨i, -, rfl⟩ := List.mem_map.1 hx
    exact Int.natCast_nonneg _) (k : Int)
  rw [List.length_replicate] at h1 h3
  have hall : below (bagOf 0 ops) n = Multiset.card (bagOf 0 ops) := by
    unfold below
    rw [Multiset.filter_eq_self.2 (bagOk_lt (M := 0) (by simp) ho).1]
  refine ⟨y, e, fun hle => ?_, fun hlt => ?_⟩
  · have hyn : y < n := by
      apply Nat.lt_of_le_of_ne h1
      rintro rfl
      have := h2 (y - 1) (by omega)
      rw [hc, sum_counts, Nat.min_eq_left (by omega), show y - 1 + 1 = y by omega, hall] at this
      omega
    have h4 := h3 hyn
    rw [hc, sum_counts, Nat.min_eq_left (by omega)] at h4
    have h5 : below (bagOf 0 ops) y < k := by
      rcases Nat.eq_zero_or_pos y with h0 | h0
      · rw [h0, below_zero]; omega
      · have := h2 (y - 1) (by omega)
        rw [hc, sum_counts, Nat.min_eq_left (by omega), show y - 1 + 1 = y by omega] at this
        omega
    refine ⟨?_, h5, by omega⟩
    have := below_succ (bagOf 0 ops) y
    exact Multiset.count_pos.1 (by omega)
  · apply Nat.le_antisymm h1
    apply Nat.le_of_not_lt
    intro hyn
    have h4 := h3 hyn
    rw [hc, sum_counts, Nat.min_eq_left (by omega)] at h4
    have := below_le (bagOf 0 ops) (y + 1)
    omega

-- put in 3, 1, 3, 0, take out 1: the bag is {0, 3, 3}; two elements are ≥ 1, the second smallest is 3
example : (do
    let t ← fenwickRun (fun a b => ckI 64 (a + b)) (Fenwick.new 0 5)
      ([BagOp.ins 3, .ins 1, .ins 3, .ins 0, .del 1].map BagOp.call)
    let a ← t.sum (fun a b => ckI 64 (a + b)) (fun a b => ckI 64 (a - b)) 0 1 5
    let b ← t.search (fun a b => ckI 64 (a + b)) 0 (fun x y => decide (x < y)) 2
    ok (a, b)) = .ok (2, 3) ∧ BagOk 5 0 [BagOp.ins 3, .ins 1, .ins 3, .ins 0, .del 1] := by
  refine ⟨by decide +kernel, by simp [BagOk]⟩

/-! ### Inversions -/

/-- A program that counts inversions: for every element first the larger ones already there, then `add(x, 1)`. -/
def inversions (w n : Nat) (p : List Nat) : Res (Fenwick Int × Int) :=
  p.foldlM (fun (s : Fenwick Int × Int) x => do
    let c ← s.1.sum (fun a b => ckI w (a + b)) (fun a b => ckI w (a - b)) 0 (x + 1) n
    let t ← s.1.addAt (fun a b => ckI w (a + b)) x (1 : Int)
    ok (t, s.2 + c)) (Fenwick.new 0 n, 0)

theorem fenwickRun_append {A : Type} [AddCommMonoid A] (add : A → A → Res A) (xs ys : List (Nat × A)) :
    ∀ t, fenwickRun add t (xs ++ ys) = (fenwickRun add t xs) >>= fun t => fenwickRun add t ys := by
  induction xs with
  | nil => intro t; rfl
  | cons p xs ih =>
    intro t
    obtain ⟨i, v⟩ := p
    simp only [List.cons_append, fenwickRun, ih, Res.bind_assoc]

theorem bagOf_append (xs ys : List BagOp) : ∀ M, bagOf M (xs ++ ys) = bagOf (bagOf M xs) ys := by
  induction xs with
  | nil => intro M; rfl
  | cons o xs ih => intro M; cases o <;> simp [bagOf, ih]

theorem bag_ins {n : Nat} (p : List Nat) (hp : ∀ x ∈ p, x < n) : ∀ M, BagOk n M (p.map BagOp.ins) ∧
    bagOf M (p.map BagOp.ins) = M + (p : Multiset Nat) := by
  induction p with
  | nil => intro M; simp [BagOk, bagOf]
  | cons x p ih =>
    intro M
    have := ih (fun y hy => hp y (List.mem_cons_of_mem _ hy)) (x ::ₘ M)
    refine ⟨⟨hp x (by simp), this.1⟩, ?_⟩
    rw [List.map_cons, bagOf, this.2, ← Multiset.cons_coe, Multiset.add_cons, Multiset.cons_add]

theorem invCount_snoc (p : List Nat) (x : Nat) :
    invCount (p ++ [x]) = invCount p + (p.filter fun y => decide (x < y)).length := by
  unfold invCount
  rw [List.length_append, List.length_singleton, List.range_succ, List.map_append, List.sum_append]
  congr 1
  · congr 1
    apply List.map_congr_left
    intro j hj
    rw [List.mem_range] at hj
    rw [List.take_append_of_le_length (by omega)]
    simp [List.getD_eq_getElem?_getD, List.getElem?_append_left hj]
  · simp [List.getD_eq_getElem?_getD]

/-- C108: the program returns, and the second result is the number of inversions of `p`. -/
theorem C108_inversions (w n : Nat) (p : List Nat) (hn : n < 2 ^ 63) (hp : ∀ x ∈ p, x < n)
    (hw : p.length < 2 ^ (w - 1)) : ∃ t, inversions w n p = .ok (t, (invCount p : Int)) := by
  suffices h : ∃ t, inversions w n p = .ok (t, (invCount p : Int)) ∧ BagTree w n (p.map BagOp.ins) t by
    obtain ⟨t, h, -⟩ := h; exact ⟨t, h⟩
  induction p using List.reverseRecOn with
  | nil => exact ⟨Fenwick.new 0 n, rfl, rfl⟩
  | append_singleton p x ih =>
    have hp' : ∀ y ∈ p, y < n := fun y hy => hp y (by simp [hy])
    have hx : x < n := hp x (by simp)
    simp only [List.length_append, List.length_singleton] at hw
    obtain ⟨t, e, ht⟩ := ih hp' (by omega)
    obtain ⟨t', ht', -, hs⟩ := C108_rank w n (p.map BagOp.ins) hn (by simp; omega) (bag_ins p hp' 0).1
    unfold BagTree at ht ht'
    rw [ht] at ht'
    cases ht'
    obtain ⟨t2, ht2, -, -⟩ := C108_rank w n ((p ++ [x]).map BagOp.ins) hn (by simp; omega) (bag_ins _ hp 0).1
    have ht2' := ht2
    unfold BagTree at ht2'
    rw [List.map_append, List.map_append, fenwickRun_append, ht, ok_bind] at ht2'
    simp only [List.map_cons, List.map_nil, BagOp.call, fenwickRun] at ht2'
    obtain ⟨t3, e3, e4⟩ := bind_ok_inv ht2'
    cases e4
    refine ⟨t2, ?_, ht2⟩
    unfold inversions at e ⊢
    rw [List.foldlM_append, e]
    simp only [ok_bind, List.foldlM_cons, List.foldlM_nil]
    rw [hs (x + 1) n (by omega) (Nat.le_refl _), ok_bind, e3, ok_bind]
    show Res.ok _ = _
    congr 2
    rw [invCount_snoc, (bag_ins p hp' 0).2, Multiset.zero_add]
    push_cast
    congr 2
    rw [Multiset.filter_coe, Multiset.coe_card]
    congr 1
    apply List.filter_congr
    intro y hy
    have := hp' y hy
    rw [decide_eq_decide]; omega

example : invCount [2, 0, 1, 3, 0] = 5 ∧ (do let s ← inversions 64 4 [2, 0, 1, 3, 0]; ok s.2) = ok (5 : Int) := by
  constructor <;> decide +kernel

/-! ### Adding to ranges -/

section
variable {A : Type} [AddCommGroup A] {add sub : A → A → Res A} {Fits : A → Prop}

/-- The calls for "add `v` to every element of `l..r`": `add(l, v); add(r, -v)`. -/
def rangeCalls (us : List (Nat × Nat × A)) : List (Nat × A) :=
  us.flatMap fun u => [(u.1, u.2.2), (u.2.1, -u.2.2)]

theorem take_sum_addTo (a : List A) (i : Nat) (v : A) (k : Nat) (hk : k ≤ a.length) :
    ((addTo a i v).take k).sum = (a.take k).sum + if i < k then v else 0 := by
  induction a generalizing i k with
  | nil => simp at hk; subst hk; simp
  | cons x a ih =>
    cases k with
    | zero => simp
    | succ k =>
      cases i with
      | zero => simp [addTo, add_right_comm]
      | succ i =>
        have := ih i k (by simpa using hk)
        simp only [addTo, List.modify_succ_cons, List.take_succ_cons, List.sum_cons] at this ⊢
        rw [this, add_assoc]
        simp

theorem take_sum_range (us : List (Nat × Nat × A)) : ∀ (a : List A) (k : Nat), k ≤ a.length →
    (∀ u ∈ us, u.1 ≤ u.2.1) → ((addAll a (rangeCalls us)).take k).sum =
      (a.take k).sum + (us.map fun u => if u.1 < k ∧ k ≤ u.2.1 then u.2.2 else 0).sum := by
  induction us with
  | nil => intro a k _ _; simp [rangeCalls, addAll]
  | cons u us ih =>
    intro a k hk hu
    obtain ⟨l, r, v⟩ := u
    have hlr : l ≤ r := hu (l, r, v) (by simp)
    have : rangeCalls ((l, r, v) :: us) = (l, v) :: (r, -v) :: rangeCalls us := rfl
    rw [this]
    simp only [addAll]
    rw [ih _ k (by rw [addTo_length, addTo_length]; exact hk) (fun u h => hu u (List.mem_cons_of_mem _ h)),
      take_sum_addTo _ _ _ _ (by rw [addTo_length]; exact hk), take_sum_addTo _ _ _ _ hk, List.map_cons, List.sum_cons,
      ← add_assoc, add_assoc (a.take k).sum]
    congr 2
    simp only []
    by_cases h1 : l < k <;> by_cases h2 : r < k
    · rw [if_pos h1, if_pos h2, if_neg (by omega), add_neg_cancel]
    · rw [if_pos h1, if_neg h2, if_pos (by omega), add_zero]
    · omega
    · rw [if_neg h1, if_neg h2, if_neg (by omega), add_zero]

/-- C108: a Fenwick tree of differences. When every range addition makes the calls `add(l, v); add(r, -v)` on a
new tree, `pref(i + 1)` is the sum of the values added to the ranges that contain `i`. -/
theorem C108_range_add (n : Nat) (us : List (Nat × Nat × A)) (hu : ∀ u ∈ us, u.1 ≤ u.2.1)
    (h : FenwickHyp add sub Fits (List.replicate n 0) (rangeCalls us)) :
    ∃ t, fenwickRun add (Fenwick.new 0 n) (rangeCalls us) = .ok t ∧
      ∀ i, i < n → t.pref add 0 (i + 1) =
        .ok (us.map fun u => if u.1 ≤ i ∧ i < u.2.1 then u.2.2 else 0).sum := by
  have h0 : Fits (0 : A) := by
    have := h.fits [] (List.nil_prefix) 0 0
    simpa using this
  obtain ⟨t, ⟨t0, e0, e1⟩, h1, -, -⟩ := C02_history _ _ h
  rw [C02_new h.ops_ok h0 n (by simpa using h.len)] at e0
  cases e0
  refine ⟨t, e1, fun i hi => ?_⟩
  rw [h1 (i + 1) (by rw [List.length_replicate]; omega), take_sum_range us _ _ (by rw [List.length_replicate]; omega) hu]
  congr 1
  rw [List.take_replicate, List.sum_replicate, nsmul_zero, zero_add]
  congr 1
  apply List.map_congr_left
  intro u _
  simp only [Nat.lt_succ_iff, Nat.succ_le_iff]

end

-- add 5 to 1..3 and 2 to 2..4: the elements are 0, 5, 7, 2
example : (do
    let t ← fenwickRun (fun a b => ckI 64 (a + b)) (Fenwick.new 0 4) (rangeCalls [(1, 3, (5 : Int)), (2, 4, 2)])
    let a ← t.pref (fun a b => ckI 64 (a + b)) 0 2
    let b ← t.pref (fun a b => ckI 64 (a + b)) 0 3
    let c ← t.pref (fun a b => ckI 64 (a + b)) 0 4
    ok [a, b, c]) = .ok [5, 7, 2] := by
  decide +kernel

end Verif.Props
