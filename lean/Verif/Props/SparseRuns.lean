import Verif.Props.SparseTableExact
import Verif.Props.NumberRuns
import Verif.Prelude.Sim
import Mathlib.Tactic.Order
/-! C116: relations between calls of sparse tables, and what ranges of minima, positions of minima and divisors mean. -/
namespace Verif.Props
open Res Model Spec SparseP

variable {T A B : Type}

/-- Build the table of `v` and ask for the range `l..r`. -/
def tableGet (op : T → T → Res T) (v : List T) (init : T) (l r : Nat) : Res T := do
  let t ← SparseTable.from v init op
  t.get op l r

/-- The elements `l..r` of a list. -/
def slice (v : List T) (l r : Nat) : List T := (v.drop l).take (r - l)

/-- The left fold of a list without a start value; panics on the empty list. -/
def fold1 (op : T → T → T) : List T → Res T
  | [] => .panic
  | x :: xs => ok (xs.foldl op x)

theorem slice_nil {v : List T} {l r : Nat} (h : r ≤ l) : slice v l r = [] := by
  simp [slice, Nat.sub_eq_zero_of_le h]

theorem slice_length {v : List T} {l r : Nat} (h : r ≤ v.length) : (slice v l r).length = r - l := by
  simp only [slice, List.length_take, List.length_drop]; omega

theorem slice_append {v : List T} {l m r : Nat} (h1 : l ≤ m) (h2 : m ≤ r) :
    slice v l m ++ slice v m r = slice v l r := by
  unfold slice
  have e : (v.drop l).take (m - l) ++ ((v.drop l).drop (m - l)).take (r - m) = (v.drop l).take (m - l + (r - m)) :=
    List.take_add.symm
  rw [List.drop_drop, show l + (m - l) = m by omega, show m - l + (r - m) = r - l by omega] at e
  exact e

theorem slice_get {v : List T} {l r i : Nat} : (slice v l r)[i]? = if i < r - l then v[l + i]? else none := by
  simp only [slice, List.getElem?_take, List.getElem?_drop]

theorem mem_slice {v : List T} {l r : Nat} {x : T} : x ∈ slice v l r ↔ ∃ i, l ≤ i ∧ i < r ∧ v[i]? = some x := by
  rw [List.mem_iff_getElem?]
  constructor
  · rintro ⟨i, h⟩
    rw [slice_get] at h
    split at h
    · exact ⟨l + i, by omega, by omega, h⟩
    · cases h
  · rintro ⟨i, h1, h2, h⟩
    exact ⟨i - l, by rw [slice_get, if_pos (by omega), show l + (i - l) = i by omega, h]⟩

/-- C116: the answer depends on the elements of the range alone: it is their fold, and a panic for no elements. -/
theorem C116_fold (op : T → T → T) (ha : ∀ x y z, op (op x y) z = op x (op y z)) (hi : ∀ x, op x x = x) (v : List T)
    (init : T) (hn : v.length < 2 ^ 64) (l r : Nat) (hr : r ≤ v.length) :
    tableGet (fun x y => ok (op x y)) v init l r = fold1 op (slice v l r) := by
  by_cases h : l < r
  · have hv : v ≠ [] := by rintro rfl; simp at hr; omega
    obtain ⟨t, e, ht⟩ := C09_range_fold op ha hi v init hv hn
    simp only [tableGet, e, ok_bind]
    cases hs : slice v l r with
    | nil => have := slice_length (l := l) hr; rw [hs] at this; simp at this; omega
    | cons x xs => exact ht l r h hr x xs hs
  · rw [slice_nil (by omega)]
    unfold tableGet
    cases e : SparseTable.from v init (fun x y => ok (op x y)) with
    | ok t => exact (C09_panics _ init t l r (by omega)).2
    | panic => rfl
    | diverge =>
      cases v with
      | nil => cases e
      | cons x v =>
        obtain ⟨t, e2, _⟩ := C09_range_fold op ha hi (x :: v) init (by simp) hn
        rw [e2] at e; cases e

/-- C116: tables of any two slices answer alike on ranges with the same elements, whatever is around them and whatever
the fillers are; panics included. -/
theorem C116_slices (op : T → T → T) (ha : ∀ x y z, op (op x y) z = op x (op y z)) (hi : ∀ x, op x x = x)
    (v v' : List T) (init init' : T) (hn : v.length < 2 ^ 64) (hn' : v'.length < 2 ^ 64) (l r l' r' : Nat)
    (hr : r ≤ v.length) (hr' : r' ≤ v'.length) (h : slice v l r = slice v' l' r') :
    tableGet (fun x y => ok (op x y)) v init l r = tableGet (fun x y => ok (op x y)) v' init' l' r' := by
  rw [C116_fold op ha hi v init hn l r hr, C116_fold op ha hi v' init' hn' l' r' hr', h]

theorem foldl_assoc {op : T → T → T} (ha : ∀ x y z, op (op x y) z = op x (op y z)) (x y : T) (l : List T) :
    l.foldl op (op x y) = op x (l.foldl op y) := by
  induction l generalizing y with
  | nil => rfl
  | cons z l ih => rw [List.foldl_cons, List.foldl_cons, ha, ih]

theorem fold1_append {op : T → T → T} (ha : ∀ x y z, op (op x y) z = op x (op y z)) {a b : List T} {x y : T}
    (h1 : fold1 op a = ok x) (h2 : fold1 op b = ok y) : fold1 op (a ++ b) = ok (op x y) := by
  cases a with
  | nil => cases h1
  | cons p a =>
    cases b with
    | nil => cases h2
    | cons q b =>
      cases h1; cases h2
      simp only [fold1, List.cons_append, List.foldl_append, List.foldl_cons]
      rw [foldl_assoc ha]

theorem fold1_some {op : T → T → T} {a : List T} (h : a ≠ []) : ∃ x, fold1 op a = ok x := by
  cases a with
  | nil => exact absurd rfl h
  | cons p a => exact ⟨_, rfl⟩

/-- C116: two ranges that overlap or touch are joined by the operation; it need not be commutative. -/
theorem C116_join (op : T → T → T) (ha : ∀ x y z, op (op x y) z = op x (op y z)) (hi : ∀ x, op x x = x) (v : List T)
    (init : T) (hn : v.length < 2 ^ 64) (t : SparseTable T) (ht : SparseTable.from v init (fun x y => ok (op x y)) = ok t)
    (l m m' r : Nat) (h1 : l ≤ m) (h2 : m ≤ m') (h3 : m' ≤ r) (hl : l < m') (hm : m < r) (hr : r ≤ v.length) :
    ∃ x y, t.get (fun x y => ok (op x y)) l m' = ok x ∧ t.get (fun x y => ok (op x y)) m r = ok y ∧
      t.get (fun x y => ok (op x y)) l r = ok (op x y) := by
  have key : ∀ l r, r ≤ v.length → t.get (fun x y => ok (op x y)) l r = fold1 op (slice v l r) := by
    intro l r hr
    have := C116_fold op ha hi v init hn l r hr
    simpa only [tableGet, ht, ok_bind] using this
  rw [key l m' (by omega), key m r hr, key l r hr]
  have ne : ∀ a b, a < b → b ≤ v.length → slice v a b ≠ [] := by
    intro a b h1 h2 h
    have := slice_length (l := a) h2
    rw [h] at this; simp at this; omega
  rcases Nat.lt_or_ge m m' with hlt | hge
  · obtain ⟨b, hb⟩ := fold1_some (op := op) (ne m m' hlt (by omega))
    have hbb : ∀ c, op b (op b c) = op b c := fun c => by rw [← ha, hi]
    have el : m = l ∨ ∃ a, fold1 op (slice v l m) = ok a := by
      rcases Nat.lt_or_ge l m with h | h
      · exact .inr (fold1_some (ne l m h (by omega)))
      · exact .inl (by omega)
    have er : m' = r ∨ ∃ c, fold1 op (slice v m' r) = ok c := by
      rcases Nat.lt_or_ge m' r with h | h
      · exact .inr (fold1_some (ne m' r h hr))
      · exact .inl (by omega)
    rw [← slice_append h1 (by omega : m ≤ r)]
    rcases el with rfl | ⟨a, hal⟩ <;> rcases er with rfl | ⟨c, hc⟩
    · exact ⟨b, b, hb, hb, by rw [slice_nil (Nat.le_refl _), List.nil_append, hb, hi]⟩
    · rw [← slice_append h2 h3, slice_nil (Nat.le_refl _), List.nil_append]
      exact ⟨b, _, hb, fold1_append ha hb hc, by rw [hbb]; exact fold1_append ha hb hc⟩
    · rw [slice_append h1 h2, ← slice_append h1 h2]
      refine ⟨_, b, fold1_append ha hal hb, hb, ?_⟩
      rw [ha, hi]
      exact fold1_append ha hal hb
    · rw [← slice_append h1 h2, ← slice_append h2 h3]
      refine ⟨_, _, fold1_append ha hal hb, fold1_append ha hb hc, ?_⟩
      rw [ha, hbb]
      exact fold1_append ha hal (fold1_append ha hb hc)
  · obtain rfl : m = m' := by omega
    obtain ⟨x, hx⟩ := fold1_some (op := op) (ne l m (by omega) (by omega))
    obtain ⟨y, hy⟩ := fold1_some (op := op) (ne m r hm hr)
    refine ⟨x, y, hx, hy, ?_⟩
    rw [← slice_append h1 h3]
    exact fold1_append ha hx hy

/-- C116: a homomorphism of the operations carries the answers over, panics included. -/
theorem C116_hom (op : T → T → T) (op' : A → A → A) (ha : ∀ x y z, op (op x y) z = op x (op y z)) (hi : ∀ x, op x x = x)
    (ha' : ∀ x y z, op' (op' x y) z = op' x (op' y z)) (hi' : ∀ x, op' x x = x) (φ : T → A)
    (hφ : ∀ x y, φ (op x y) = op' (φ x) (φ y)) (v : List T) (init : T) (init' : A) (hn : v.length < 2 ^ 64) (l r : Nat)
    (hr : r ≤ v.length) :
    tableGet (fun x y => ok (op' x y)) (v.map φ) init' l r = (do
      let x ← tableGet (fun x y => ok (op x y)) v init l r
      ok (φ x)) := by
  rw [C116_fold op ha hi v init hn l r hr, C116_fold op' ha' hi' (v.map φ) init' (by simpa using hn) l r (by simpa using hr)]
  have e : slice (v.map φ) l r = (slice v l r).map φ := by simp [slice, List.map_drop, List.map_take]
  rw [e]
  cases slice v l r with
  | nil => rfl
  | cons x xs =>
    simp only [fold1, List.map_cons, ok_bind]
    congr 1
    induction xs generalizing x with
    | nil => rfl
    | cons y xs ih => rw [List.map_cons, List.foldl_cons, List.foldl_cons, ← hφ]; exact ih _

/-- C116: the table of the reversed slice, with the arguments of the operation exchanged, answers the mirrored range
alike. -/
theorem C116_reverse (op : T → T → T) (ha : ∀ x y z, op (op x y) z = op x (op y z)) (hi : ∀ x, op x x = x) (v : List T)
    (init init' : T) (hn : v.length < 2 ^ 64) (l r : Nat) (hlr : l ≤ r) (hr : r ≤ v.length) :
    tableGet (fun x y => ok (op y x)) v.reverse init' (v.length - r) (v.length - l) =
      tableGet (fun x y => ok (op x y)) v init l r := by
  rw [C116_fold op ha hi v init hn l r hr, C116_fold (fun x y => op y x) (fun x y z => (ha z y x).symm) hi v.reverse init'
    (by simpa using hn) _ _ (by simp)]
  have e : slice v.reverse (v.length - r) (v.length - l) = (slice v l r).reverse := by
    apply List.ext_getElem?
    intro i
    rw [slice_get]
    split
    · rename_i h
      rw [List.getElem?_reverse (by omega), List.getElem?_reverse (by rw [slice_length hr]; omega), slice_get,
        slice_length hr, if_pos (by omega)]
      congr 1; omega
    · rename_i h
      rw [List.getElem?_eq_none]
      rw [List.length_reverse, slice_length hr]; omega
  rw [e]
  have key : ∀ a : List T, fold1 (fun x y => op y x) a.reverse = fold1 op a := by
    intro a
    induction a with
    | nil => rfl
    | cons x a ih =>
      cases a with
      | nil => rfl
      | cons y a =>
        rw [List.reverse_cons, fold1_append (x := a.foldl op y) (y := x) (fun x y z => (ha z y x).symm) ih rfl]
        simp only [fold1, List.foldl_cons]
        rw [foldl_assoc ha]
  exact key _

/-- C116: when a value is below `op x y` exactly if it is below `x` and `y`, it is below an answer exactly if it is below
every element of the range: minima, greatest common divisors, intersections. -/
theorem C116_below (below : A → T → Prop) (op : T → T → T) (ha : ∀ x y z, op (op x y) z = op x (op y z))
    (hi : ∀ x, op x x = x) (hb : ∀ a x y, below a (op x y) ↔ below a x ∧ below a y) (v : List T)
    (init : T) (hn : v.length < 2 ^ 64) (l r : Nat) (hlr : l < r) (hr : r ≤ v.length) :
    ∃ x, tableGet (fun x y => ok (op x y)) v init l r = ok x ∧
      ∀ a, below a x ↔ ∀ i y, l ≤ i → i < r → v[i]? = some y → below a y := by
  rw [C116_fold op ha hi v init hn l r hr]
  have e : ∀ a, (∀ i y, l ≤ i → i < r → v[i]? = some y → below a y) ↔ ∀ y ∈ slice v l r, below a y := by
    intro a
    refine ⟨fun h y hy => ?_, fun h i y h1 h2 h3 => h y (mem_slice.2 ⟨i, h1, h2, h3⟩)⟩
    obtain ⟨i, h1, h2, h3⟩ := mem_slice.1 hy
    exact h i y h1 h2 h3
  simp only [e]
  cases hs : slice v l r with
  | nil => have := slice_length (l := l) hr; rw [hs] at this; simp at this; omega
  | cons x xs =>
    refine ⟨_, rfl, fun a => ?_⟩
    clear hs e
    induction xs generalizing x with
    | nil => simp
    | cons y xs ih => rw [List.foldl_cons, ih]; simp [hb, and_assoc]

/-- The pair with the smaller value, the left one if they are equal. -/
def lesser [LinearOrder T] (p q : T × Nat) : T × Nat := if q.1 < p.1 then q else p

theorem lesser_fold [LinearOrder T] : ∀ (L : List (T × Nat)) (p : T × Nat), (p :: L).Pairwise (fun a b => a.2 < b.2) →
    L.foldl lesser p ∈ p :: L ∧ ∀ e ∈ p :: L, (L.foldl lesser p).1 ≤ e.1 ∧
      (e.2 < (L.foldl lesser p).2 → (L.foldl lesser p).1 < e.1) := by
  intro L
  induction L with
  | nil =>
    intro p _
    refine ⟨by simp, fun e he => ?_⟩
    obtain rfl : e = p := by simpa using he
    exact ⟨le_refl _, fun h => absurd h (Nat.lt_irrefl _)⟩
  | cons x L ih =>
    intro p hp
    rw [List.foldl_cons]
    by_cases h : x.1 < p.1
    · have e : lesser p x = x := if_pos h
      rw [e]
      obtain ⟨h1, h2⟩ := ih x (List.pairwise_cons.1 hp).2
      refine ⟨List.mem_cons_of_mem _ h1, fun e he => ?_⟩
      rcases List.mem_cons.1 he with rfl | he
      · have := (h2 x (by simp)).1
        exact ⟨by order, fun _ => by order⟩
      · exact h2 e he
    · have e : lesser p x = p := if_neg h
      rw [e]
      have hp' := List.pairwise_cons.1 hp
      have hx := List.pairwise_cons.1 hp'.2
      obtain ⟨h1, h2⟩ := ih p (List.pairwise_cons.2 ⟨fun y hy => hp'.1 y (by simp [hy]), hx.2⟩)
      refine ⟨?_, fun e he => ?_⟩
      · rcases List.mem_cons.1 h1 with h1 | h1
        · rw [h1]; simp
        · simp [h1]
      · by_cases hex : e = x
        · subst hex
          have hpe := h2 p (by simp)
          refine ⟨le_trans hpe.1 (not_lt.1 h), fun hlt => ?_⟩
          have := hpe.2 (Nat.lt_trans (hp'.1 _ List.mem_cons_self) hlt)
          exact lt_of_lt_of_le this (not_lt.1 h)
        · refine h2 e ?_
          simp only [List.mem_cons] at he ⊢
          tauto

/-- C116: the table of the pairs (value, position) with `lesser` gives the first position of the smallest value in the
range. -/
theorem C116_first_min [LinearOrder T] (v : List T) (init : T × Nat) (hn : v.length < 2 ^ 64) (l r : Nat) (hlr : l < r)
    (hr : r ≤ v.length) :
    ∃ x k, tableGet (fun p q => ok (lesser p q)) v.zipIdx init l r = ok (x, k) ∧ l ≤ k ∧ k < r ∧ v[k]? = some x ∧
      (∀ i y, l ≤ i → i < r → v[i]? = some y → x ≤ y) ∧ ∀ i y, l ≤ i → i < k → v[i]? = some y → x < y := by
  have ha : ∀ x y z : T × Nat, lesser (lesser x y) z = lesser x (lesser y z) := by
    intro x y z
    unfold lesser
    split_ifs <;> first | rfl | (exfalso; order)
  have hi : ∀ x : T × Nat, lesser x x = x := by intro x; simp [lesser]
  rw [C116_fold lesser ha hi _ init (by simpa using hn) l r (by simpa using hr)]
  cases hs : slice v.zipIdx l r with
  | nil => have := slice_length (v := v.zipIdx) (l := l) (by simpa using hr); rw [hs] at this; simp at this; omega
  | cons p L =>
    have hm : ∀ e, e ∈ p :: L ↔ l ≤ e.2 ∧ e.2 < r ∧ v[e.2]? = some e.1 := by
      intro e
      rw [← hs, mem_slice]
      constructor
      · rintro ⟨i, h1, h2, h3⟩
        rw [List.getElem?_zipIdx] at h3
        cases hv : v[i]? with
        | none => rw [hv] at h3; cases h3
        | some y => rw [hv] at h3; simp at h3; subst h3; exact ⟨h1, h2, hv⟩
      · rintro ⟨h1, h2, h3⟩
        exact ⟨e.2, h1, h2, by rw [List.getElem?_zipIdx, h3]; simp⟩
    have hpw : (p :: L).Pairwise (fun a b => a.2 < b.2) := by
      rw [← hs]
      have : v.zipIdx.Pairwise (fun a b => a.2 < b.2) := by
        rw [List.pairwise_iff_getElem]
        intro i j hi hj hij
        simpa using hij
      exact (this.sublist (List.drop_sublist _ _)).sublist (List.take_sublist _ _)
    obtain ⟨h1, h2⟩ := lesser_fold L p hpw
    obtain ⟨h3, h4, h5⟩ := (hm _).1 h1
    refine ⟨_, _, rfl, h3, h4, h5, fun i y hl hr hv => (h2 (y, i) ((hm _).2 ⟨hl, hr, hv⟩)).1, fun i y hl hk hv => ?_⟩
    exact (h2 (y, i) ((hm _).2 ⟨hl, by omega, hv⟩)).2 hk

/-- Tables whose elements represent those of another, and whose operation simulates the other's, answer alike. -/
theorem tableGet_sim {R : T → A → Prop} {op : T → T → Res T} {op' : A → A → Res A}
    (hop : ∀ x y a b, R x a → R y b → Sim False False R (op x y) (op' a b)) {v : List T} {w : List A}
    (hv : ListRel R v w) {init : T} {init' : A} (hi : R init init') (l r : Nat) :
    Sim False False R (tableGet op v init l r) (tableGet op' w init' l r) := by
  have hrep : ∀ n, ListRel R (List.replicate n init) (List.replicate n init') := fun n =>
    ⟨by simp, fun i a b h1 h2 => by
      rw [List.getElem?_replicate] at h1 h2
      split at h1
      · rw [if_pos (by assumption)] at h2; cases h1; cases h2; exact hi
      · cases h1⟩
  have hrep2 : ∀ m n, ListRel (ListRel R) (List.replicate m (List.replicate n init))
      (List.replicate m (List.replicate n init')) := fun m n =>
    ⟨by simp, fun i a b h1 h2 => by
      rw [List.getElem?_replicate] at h1 h2
      split at h1
      · rw [if_pos (by assumption)] at h2; cases h1; cases h2; exact hrep n
      · cases h1⟩
  unfold tableGet SparseTable.from SparseTable.get
  rw [← hv.1]
  refine sim_bind (Q := fun t t' => ListRel (ListRel R) t.data t'.data) ?_ ?_
  · refine sim_bind (Q := Eq) sim_refl ?_
    rintro k _ rfl
    refine sim_bind (sim_upd (hrep2 _ _) 0 hv) fun d d' hd => ?_
    refine sim_bind (Q := ListRel (ListRel R)) (sim_forRange hd fun c d d' hd => ?_) fun d d' hd => sim_ok hd
    refine sim_bind (Q := Eq) sim_refl ?_
    rintro b _ rfl
    refine sim_forRange hd fun i d d' hd => ?_
    refine sim_bind (sim_idx hd _) fun row row' hrow => ?_
    refine sim_bind (sim_idx hrow _) fun x x' hx => ?_
    refine sim_bind (sim_idx hrow _) fun y y' hy => ?_
    refine sim_bind (hop x y x' y' hx hy) fun z z' hz => ?_
    refine sim_bind (sim_idx hd _) fun cur cur' hcur => ?_
    exact sim_bind (sim_upd hcur _ hz) fun cur cur' hcur => sim_upd hd _ hcur
  · intro t t' ht
    refine sim_assert fun _ => ?_
    refine sim_bind (Q := Eq) sim_refl ?_
    rintro c _ rfl
    refine sim_bind (sim_idx ht _) fun row row' hrow => ?_
    refine sim_bind (sim_idx hrow _) fun x x' hx => ?_
    refine sim_bind (Q := Eq) sim_refl ?_
    rintro j _ rfl
    exact sim_bind (sim_idx hrow _) fun y y' hy => hop x y x' y' hx hy

/-- C116: the table of non-negative values of an integer type with the crate's `gcd` is built and answers every range by
the greatest common divisor. -/
theorem C116_gcd (ty : IntTy) (v : List Int) (hv : ∀ x ∈ v, ty.In x ∧ 0 ≤ x) (init : Int)
    (h0 : ty.In init ∧ 0 ≤ init) (hn : v.length < 2 ^ 64)
    (l r : Nat) (hlr : l < r) (hr : r ≤ v.length) :
    ∃ d, tableGet (gcd ty) v init l r = ok d ∧ 0 ≤ d ∧ ∀ c : Int, c ∣ d ↔ ∀ i y, l ≤ i → i < r → v[i]? = some y → c ∣ y := by
  have hR : ∀ x : Int, ty.In x ∧ 0 ≤ x → (x = (x.toNat : Int) ∧ ty.In x) := fun x h => ⟨(Int.toNat_of_nonneg h.2).symm, h.1⟩
  have hsim := tableGet_sim (R := fun (x : Int) (a : Nat) => x = (a : Int) ∧ ty.In x) (op := gcd ty)
    (op' := fun a b => ok (Nat.gcd a b)) (v := v) (w := v.map Int.toNat) (init := init) (init' := init.toNat)
    (by
      rintro x y a b ⟨rfl, ha⟩ ⟨rfl, hb⟩
      obtain ⟨e, hin⟩ := gcd_nn ha hb (Int.natCast_nonneg _) (Int.natCast_nonneg _)
      rw [e]
      exact sim_ok ⟨by simp, hin⟩)
    ⟨by simp, fun i x a h1 h2 => by
      rw [List.getElem?_map, h1] at h2
      cases h2
      exact hR x (hv x (List.mem_of_getElem? h1))⟩ (hR init h0) l r
  obtain ⟨g, e, hg⟩ := C116_below (fun (c : Nat) x => c ∣ x) Nat.gcd Nat.gcd_assoc Nat.gcd_self (fun c x y => Nat.dvd_gcd_iff)
    (v.map Int.toNat) init.toNat (by simpa using hn) l r hlr (by simpa using hr)
  rw [e] at hsim
  rcases hsim with ⟨h, _⟩ | ⟨h, _⟩ | ⟨_, h⟩ | ⟨_, h⟩ | ⟨d, g', e1, e2, ⟨rfl, _⟩⟩
  · exact h.elim
  · exact h.elim
  · cases h
  · cases h
  cases e2
  refine ⟨_, e1, Int.natCast_nonneg _, fun c => ?_⟩
  rw [Int.dvd_natCast, hg]
  constructor
  · intro h i y h1 h2 h3
    have := h i y.toNat h1 h2 (by simp [h3])
    have hy := hv y (List.mem_of_getElem? h3)
    rw [← Int.toNat_of_nonneg hy.2, Int.dvd_natCast]
    exact this
  · intro h i y h1 h2 h3
    rw [List.getElem?_map] at h3
    cases hx : v[i]? with
    | none => rw [hx] at h3; cases h3
    | some x =>
      rw [hx] at h3
      cases h3
      have := h i x h1 h2 hx
      rw [← Int.toNat_of_nonneg (hv x (List.mem_of_getElem? hx)).2, Int.dvd_natCast] at this
      exact this

example : tableGet (fun x y => ok (min x y)) [5, 3, 8, 1, 4] 0 0 3 = ok 3 ∧
    slice [5, 3, 8, 1, 4] 0 3 = slice [7, 5, 3, 8] 1 4 ∧
    tableGet (fun x y => ok (min x y)) [7, 5, 3, 8] 99 1 4 = ok 3 ∧
    tableGet (fun x _ => ok x) [5, 3, 8, 1, 4] 0 1 4 = ok 3 ∧
    tableGet (fun _ y => ok y) [4, 1, 8, 3, 5] 0 1 4 = ok 3 ∧
    tableGet (fun p q => ok (lesser p q)) ([5, 3, 8, 3, 4] : List Nat).zipIdx (0, 0) 0 5 = ok (3, 1) ∧
    tableGet (gcd ⟨true, 32⟩) [12, 18, 30, 7] 0 0 3 = ok 6 := by decide +kernel

end Verif.Props
