import Verif.Props.Fenwick
import Verif.Props.Segtree
import Verif.Props.SparseTable
import Verif.Props.Dijkstra
import Verif.Props.BinaryLifting
import Verif.Props.HLD
import Verif.Props.LazyLeaf
import Verif.Props.Tarjan
import Verif.Props.StringSearch
import Verif.Props.AhoCorasick
import Verif.Props.NumberTheory
import Verif.Props.InternalMath
import Mathlib.FieldTheory.Finite.Basic
/-! C96: where two structures or functions of the library can answer the same question, they give the same answer. -/
namespace Verif.Props
open Res Model Spec

/-! ### Fenwick tree and segment tree -/

/-- The operations of a segment tree for the sums that a Fenwick tree computes with `add`. (In `Multiplicative A` the sum
of `A` is written as a product.) -/
def sumMonoid {A : Type} [AddCommMonoid A] (add : A → A → Res A) : MonoidOps (Multiplicative A) :=
  ⟨.ofAdd 0, fun x y => Multiplicative.ofAdd <$> add x.toAdd y.toAdd⟩

/-- `data[p] += v` for a list of pairs `(p, v)`, by `get` and `set` of a segment tree. -/
def segAdds {A : Type} [AddCommMonoid A] (add : A → A → Res A) (t : Segtree (Multiplicative A)) :
    List (Nat × A) → Res (Segtree (Multiplicative A))
  | [] => ok t
  | (p, v) :: ops => do
    let x ← t.get p
    let y ← add x.toAdd v
    let t ← t.set (sumMonoid add) p (.ofAdd y)
    segAdds add t ops

section
variable {A : Type} [AddCommMonoid A] {add sub : A → A → Res A} {Fits : A → Prop}

theorem sumMonoid_lawful (h : CheckedAdd add sub Fits) :
    LawfulOps (sumMonoid add) (fun x : Multiplicative A => Fits x.toAdd) :=
  ⟨rfl, fun a b hf => by
    show Multiplicative.ofAdd <$> add a.toAdd b.toAdd = _
    rw [h.add_ok _ _ hf]; rfl⟩

theorem rangeProd_ofAdd (a : List A) (l r : Nat) :
    rangeProd (a.map Multiplicative.ofAdd) l r = .ofAdd ((a.take r).drop l).sum := by
  unfold rangeProd
  rw [← List.map_take, ← List.map_drop, ofAdd_list_prod]

theorem prodsFit_ofAdd {a : List A} (h : RangesFit Fits a) :
    ProdsFit (fun x : Multiplicative A => Fits x.toAdd) (a.map Multiplicative.ofAdd) := by
  intro l r
  rw [rangeProd_ofAdd]
  exact h l r

theorem segAdds_rep {t : Segtree (Multiplicative A)} {a : List A} {ops : List (Nat × A)}
    (h : FenwickHyp add sub Fits a ops) (hi : ∀ p ∈ ops, p.1 < a.length)
    (hr : SegP.Rep t (a.map Multiplicative.ofAdd)) :
    ∃ t', segAdds add t ops = ok t' ∧ SegP.Rep t' ((addAll a ops).map Multiplicative.ofAdd) := by
  induction ops generalizing t a with
  | nil => exact ⟨t, rfl, hr⟩
  | cons p ops ih =>
    obtain ⟨i, v⟩ := p
    have hia : i < a.length := hi (i, v) (by simp)
    have h1 := h.fits [(i, v)] (by simp)
    have hset : (addTo a i v).map Multiplicative.ofAdd =
        (a.map Multiplicative.ofAdd).set i (.ofAdd (a[i] + v)) := by
      rw [addTo, List.modify_eq_set_getElem?]
      simp [hia, List.map_set]
    have hfit : Fits (a[i] + v) := by
      have := h1 i (i + 1)
      have h2 : ((addAll a [(i, v)]).take (i + 1)).drop i = [a[i] + v] := by
        rw [addAll, addAll, addTo, List.modify_eq_set_getElem?]
        simp [hia]
        apply List.ext_getElem
        · simp; omega
        · intro k hk1 hk2
          simp at hk2; subst hk2
          simp
      rw [h2] at this
      simpa using this
    have e1 : t.get i = ok (.ofAdd a[i]) := by
      have := SegP.get_sat hr (p := i) (by simpa using hia)
      simpa using this
    obtain ⟨t1, e2, hr1⟩ := SegP.set_sat (sumMonoid_lawful h.ops_ok) hr (p := i) (x := .ofAdd (a[i] + v))
      (by simpa using hia) (by rw [← hset]; exact prodsFit_ofAdd h1)
    rw [← hset] at hr1
    have h2 : FenwickHyp add sub Fits (addTo a i v) ops :=
      ⟨h.ops_ok, by rw [FenwickP.addTo_length]; exact h.len,
        fun p hp => h.idx p (List.mem_cons_of_mem _ hp),
        fun pre hp => h.fits ((i, v) :: pre) (by simpa using hp)⟩
    obtain ⟨t', e3, h3⟩ := ih h2 (fun p hp => by
      rw [FenwickP.addTo_length]; exact hi p (List.mem_cons_of_mem _ hp)) hr1
    refine ⟨t', ?_, h3⟩
    simp only [segAdds, e1, ok_bind, toAdd_ofAdd, h.ops_ok.add_ok _ _ hfit, e2, e3]

/-- **C96.** A Fenwick tree and a segment tree of sums made from the same list, after the same additions: they give the
same sums, and `partition_point` of the one is `max_right` from 0 of the other, for a predicate that holds of 0 and does
not come back once it has failed. -/
theorem C96_fenwick_segtree (a : List A) (ops : List (Nat × A)) (h : FenwickHyp add sub Fits a ops)
    (hn : a.length < 2 ^ 32) (hi : ∀ p ∈ ops, p.1 < a.length) :
    ∃ t s, FenwickReached add a ops t ∧
      (Segtree.from (sumMonoid add) (a.map Multiplicative.ofAdd) >>= fun s => segAdds add s ops) = ok s ∧
      (∀ l r, l ≤ r → r ≤ a.length →
        s.prod (sumMonoid add) l r = Multiplicative.ofAdd <$> t.sum add sub 0 l r) ∧
      ∀ f : A → Bool, a ≠ [] → f 0 = true →
        (∀ i j, i ≤ j → j ≤ a.length → f ((addAll a ops).take j).sum = true → f ((addAll a ops).take i).sum = true) →
        s.maxRight (sumMonoid add) 0 (fun x => f x.toAdd) = t.partitionPoint add 0 f := by
  obtain ⟨t, ht, -, hsum, -⟩ := C02_history a ops h
  obtain ⟨s0, e0, h0⟩ := SegP.from_sat (sumMonoid_lawful h.ops_ok) (prodsFit_ofAdd (h.fits [] (by simp)))
    (by simpa [addAll] using hn)
  obtain ⟨s, e1, hs⟩ := segAdds_rep h hi h0
  have hl := addAll_length a ops
  have hf := prodsFit_ofAdd (h.fits ops (List.prefix_refl _))
  refine ⟨t, s, ht, by rw [show (addAll a []) = a from rfl] at e0; rw [e0]; exact e1, ?_, ?_⟩
  · intro l r h1 h2
    rw [hsum l r h1 h2, SegP.prod_sat (sumMonoid_lawful h.ops_ok) hs hf h1 (by simpa [hl] using h2)]
    rw [rangeProd_ofAdd]; rfl
  · intro f hne h0 hmono
    obtain ⟨r, e, h1, h2, h3, h4⟩ := SegP.maxRight_sat (sumMonoid_lawful h.ops_ok) hs hf (l := 0)
      (Nat.zero_le _) (f := fun x => f x.toAdd) h0
    rw [rangeProd_ofAdd] at h3
    rw [rangeProd_ofAdd] at h4
    simp only [List.length_map, hl, List.drop_zero, toAdd_ofAdd] at h2 h3 h4
    rw [e, C03_partition_point a ops h t ht hne f r h2 fun i hi => ⟨fun hfi => ?_, fun hir => ?_⟩]
    · by_contra hc
      rcases h4 with h4 | h4
      · omega
      · rw [hmono (r + 1) (i + 1) (by omega) hi hfi] at h4; cases h4
    · exact hmono (i + 1) r hir h2 h3

/-- The hypotheses are met by `[3, 1, 4]` with two additions. -/
example : FenwickHyp (A := Int) (fun x y => ok (x + y)) (fun x y => ok (x - y)) (fun _ => True) [3, 1, 4]
    [(1, 5), (2, -2)] ∧ (∀ p ∈ [((1 : Nat), (5 : Int)), (2, -2)], p.1 < 3) :=
  ⟨⟨checkedAdd_pure, by decide, by decide, fun _ _ _ _ => trivial⟩, by decide⟩

example : (do
    let s ← Segtree.from (sumMonoid fun x y : Int => ok (x + y)) ([3, 1, 4].map Multiplicative.ofAdd)
    let s ← segAdds (fun x y => ok (x + y)) s [(1, 5), (2, -2)]
    s.prod (sumMonoid fun x y => ok (x + y)) 1 3) = ok (Multiplicative.ofAdd 8) := by decide +kernel

end

/-! ### Adding to ranges: lazy segment tree, and a Fenwick tree of differences -/

/-- The operations of a lazy segment tree whose maps add a number to the elements. The binary operation may be any. -/
def addMaps {A : Type} [AddCommGroup A] (e : A) (op : A → A → A) : MapMonoidOps A A :=
  ⟨e, fun x y => ok (op x y), 0, fun v x => ok (x + v), fun f g => ok (f + g)⟩

/-- Additions of `v` to the positions from `l` up to `r`, as additions to the differences of neighbours: `v` is added at
`l` and taken away at `r`. -/
def diffs {A : Type} [AddCommGroup A] : List (Nat × Nat × A) → List (Nat × A)
  | [] => []
  | (l, r, v) :: ops => (l, v) :: (r, -v) :: diffs ops

section
variable {A : Type} [AddCommGroup A]

theorem sum_take_addTo (b : List A) (i k : Nat) (v : A) (hk : k ≤ b.length) :
    ((addTo b i v).take k).sum = (b.take k).sum + if i < k then v else 0 := by
  induction b generalizing i k with
  | nil => simp at hk; subst hk; simp
  | cons x b ih =>
    cases k with
    | zero => simp
    | succ k =>
      cases i with
      | zero => simp [addTo, add_right_comm]
      | succ i =>
        have := ih i k (by simpa using hk)
        unfold addTo at this ⊢
        rw [List.modify_succ_cons, List.take_succ_cons, List.sum_cons, this, List.take_succ_cons, List.sum_cons, add_assoc]
        simp

theorem lazy_last {p n : Nat} (hp : p < n) (adds : List (Nat × Nat × A)) :
    ∀ (a b : List A) (outs : List (LOut A)), (∀ o ∈ adds, o.1 ≤ o.2.1) → a.length = n → b.length = n →
      a[p]? = some (b.take (p + 1)).sum →
      PointRunOk (fun v x => x + v) a (adds.map (fun o => LOp.applyRange o.1 o.2.1 o.2.2) ++ [.get p]) outs →
      outs.getLast? = some (.val ((addAll b (diffs adds)).take (p + 1)).sum) := by
  induction adds with
  | nil =>
    intro a b outs _ ha hb hab h
    rcases outs with _ | ⟨o, _ | ⟨o', os⟩⟩
    · exact h.elim
    · obtain ⟨⟨x, h1, rfl⟩, -⟩ := h
      rw [hab, Option.some_inj] at h1
      simp [addAll, diffs, h1]
    · exact h.2.elim
  | cons o adds ih =>
    intro a b outs hle ha hb hab h
    obtain ⟨l, r, v⟩ := o
    rcases outs with _ | ⟨o, os⟩
    · exact h.elim
    · obtain ⟨-, h2⟩ := h
      have hlr : l ≤ r := hle (l, r, v) (by simp)
      have := ih (mapRange (fun x => x + v) a l r) (addTo (addTo b l v) r (-v)) os
        (fun o ho => hle o (List.mem_cons_of_mem _ ho)) (by simp [mapRange, ha]) (by simp [addTo, hb]) (by
          rw [sum_take_addTo _ _ _ _ (by simp [addTo]; omega), sum_take_addTo _ _ _ _ (by omega), mapRange,
            List.getElem?_mapIdx, hab]
          simp only [Option.map_some, Option.some_inj]
          by_cases h3 : l ≤ p
          · by_cases h4 : p < r
            · rw [if_pos ⟨h3, h4⟩, if_pos (by omega), if_neg (by omega), add_zero]
            · rw [if_neg (by omega), if_pos (by omega), if_pos (by omega)]; simp
          · rw [if_neg (by omega), if_neg (by omega), if_neg (by omega)]; simp) h2
      rw [show addAll b (diffs ((l, r, v) :: adds)) = addAll (addTo (addTo b l v) r (-v)) (diffs adds) from rfl, ← this]
      cases os with
      | nil => exact absurd h2 (by cases adds <;> simp [PointRunOk])
      | cons o' os => rw [List.getLast?_cons_cons]

/-- **C96.** Additions to ranges. A lazy segment tree whose maps add (with any binary operation) and a Fenwick tree of
the differences of neighbours, both from zeros and after the same additions: `get(p)` of the one is `pref(p + 1)` of the
other. -/
theorem C96_lazy_fenwick (e : A) (op : A → A → A) {n : Nat} (hn : n < 2 ^ 32) (adds : List (Nat × Nat × A))
    (hr : ∀ o ∈ adds, o.1 ≤ o.2.1 ∧ o.2.1 ≤ n) :
    ∃ t0 f, LazySegtree.from (addMaps e op) (List.replicate n 0) = ok t0 ∧
      fenwickRun (fun x y => ok (x + y)) (Fenwick.new 0 n) (diffs adds) = ok f ∧
      ∀ p, p < n → ∃ t outs x,
        lRun (addMaps e op) t0 (adds.map (fun o => .applyRange o.1 o.2.1 o.2.2) ++ [.get p]) = ok (t, outs) ∧
        outs.getLast? = some (.val x) ∧ f.pref (fun x y => ok (x + y)) 0 (p + 1) = ok x := by
  have hR : ActsOnElements (addMaps e op) (fun v x : A => x + v) :=
    ⟨fun _ _ => rfl, fun x => add_zero x, fun f g => ⟨f + g, rfl, fun x => by rw [add_assoc, add_comm f]⟩, by
      intro x y h; cases h⟩
  have hnp : ¬ OpPanics (addMaps e op) := by rintro ⟨x, y, h⟩; cases h
  have hF : FenwickHyp (A := A) (fun x y => ok (x + y)) (fun x y => ok (x - y)) (fun _ => True) (List.replicate n 0)
      (diffs adds) := by
    refine ⟨checkedAdd_pure, by simp; omega, ?_, fun _ _ _ _ => trivial⟩
    have : ∀ q ∈ diffs adds, q.1 ≤ n := by
      clear hR hnp
      induction adds with
      | nil => simp [diffs]
      | cons o adds ih =>
        obtain ⟨l, r, v⟩ := o
        have h1 := hr (l, r, v) (by simp)
        intro q hq
        simp only [diffs, List.mem_cons] at hq
        rcases hq with rfl | rfl | hq
        · exact le_trans h1.1 h1.2
        · exact h1.2
        · exact ih (fun o ho => hr o (List.mem_cons_of_mem _ ho)) q hq
    intro q hq
    have := this q hq
    omega
  obtain ⟨f, ⟨f0, e1, e2⟩, hpref, -⟩ := C02_history _ _ hF
  rw [C02_new hF.ops_ok trivial n (by omega)] at e1
  cases e1
  obtain ⟨t0, e0⟩ : ∃ t0, LazySegtree.from (addMaps e op) (List.replicate n 0) = ok t0 := by
    rcases C94_history hR (List.replicate n 0) (by simpa using hn) [] (by simp) with ⟨t0, t, outs, h, -⟩ | ⟨hb, -⟩
    · exact ⟨t0, h⟩
    · exact absurd hb hnp
  refine ⟨t0, f, e0, e2, fun p hp => ?_⟩
  rcases C94_history hR (List.replicate n 0) (by simpa using hn)
    (adds.map (fun o => .applyRange o.1 o.2.1 o.2.2) ++ [.get p]) (by
      intro o ho
      rcases List.mem_append.1 ho with ho | ho
      · obtain ⟨q, hq, rfl⟩ := List.mem_map.1 ho
        simpa [LOp.PreE] using hr q hq
      · rw [List.mem_singleton.1 ho]
        simpa [LOp.PreE] using hp) with ⟨t0', t, outs, e3, e4, h⟩ | ⟨hb, -⟩
  · rw [e0] at e3; cases e3
    refine ⟨t, outs, _, e4, lazy_last hp adds _ (List.replicate n 0) outs (fun o ho => (hr o ho).1) (by simp) (by simp)
      (by simp [hp]) h, hpref (p + 1) (by simpa using hp)⟩
  · exact absurd hb hnp

/-- The hypothesis is met by two overlapping ranges, and `get(1)` is 4. -/
example : (∀ o ∈ [((1 : Nat), (3 : Nat), (5 : Int)), (0, 2, -1)], o.1 ≤ o.2.1 ∧ o.2.1 ≤ 4) ∧
    (fenwickRun (fun x y : Int => ok (x + y)) (Fenwick.new 0 4) (diffs [(1, 3, 5), (0, 2, -1)]) >>= fun f =>
      f.pref (fun x y => ok (x + y)) 0 2) = ok 4 := by decide +kernel

end

/-! ### Sparse table and segment tree -/

/-- **C96.** A sparse table and a segment tree of the same list under an idempotent monoid give the same products of
non-empty ranges, whatever the filler of the sparse table is. -/
theorem C96_sparse_segtree {S : Type} [Monoid S] (hid : ∀ x : S, x * x = x) (v : List S) (init : S) (hv : v ≠ [])
    (hn : v.length < 2 ^ 32) :
    ∃ t s, SparseTable.from v init (fun x y => ok (x * y)) = ok t ∧ Segtree.from ⟨1, fun x y => ok (x * y)⟩ v = ok s ∧
      ∀ l r, l < r → r ≤ v.length →
        t.get (fun x y => ok (x * y)) l r = s.prod ⟨1, fun x y => ok (x * y)⟩ l r := by
  obtain ⟨t, e, h⟩ := C09_range_fold (fun x y : S => x * y) mul_assoc hid v init hv (by omega)
  have hM : LawfulOps (⟨1, fun x y => ok (x * y)⟩ : MonoidOps S) (fun _ => True) := ⟨rfl, fun _ _ _ => rfl⟩
  obtain ⟨s, ⟨s0, e0, e1⟩, -, hp, -⟩ := C04_history v [] ⟨hM, hn, by simp, fun _ _ _ _ => trivial⟩
  cases e1
  refine ⟨t, s, e, e0, fun l r hlr hr => ?_⟩
  rw [hp l r (Nat.le_of_lt hlr) hr]
  have hd : (v.drop l).take (r - l) = (v.take r).drop l := by rw [List.drop_take]
  obtain ⟨x, xs, hx⟩ : ∃ x xs, (v.drop l).take (r - l) = x :: xs := by
    rcases hc : (v.drop l).take (r - l) with _ | ⟨x, xs⟩
    · have := congrArg List.length hc
      simp at this; omega
    · exact ⟨x, xs, rfl⟩
  rw [h l r hlr hr x xs hx]
  show ok _ = ok ((v.take r).drop l).prod
  rw [← hd, hx, List.prod_eq_foldl, List.foldl_cons, one_mul]

/-- Maxima of natural numbers are an idempotent monoid. -/
@[implicit_reducible] def maxNat : Monoid Nat where
  mul := max
  one := 0
  mul_assoc := max_assoc
  one_mul := Nat.zero_max
  mul_one := Nat.max_zero
  npow n x := if n = 0 then 0 else x
  npow_zero _ := rfl
  npow_succ n x := by
    show (if n + 1 = 0 then 0 else x) = max (if n = 0 then 0 else x) x
    by_cases h : n = 0 <;> simp [h]

example : ∃ t s, SparseTable.from [3, 1, 4, 1, 5] 7 (fun x y => ok (max x y)) = ok t ∧
    Segtree.from ⟨0, fun x y => ok (max x y)⟩ [3, 1, 4, 1, 5] = ok s ∧ ∀ l r, l < r → r ≤ 5 →
      t.get (fun x y => ok (max x y)) l r = s.prod ⟨0, fun x y => ok (max x y)⟩ l r :=
  @C96_sparse_segtree Nat maxNat
    Nat.max_self [3, 1, 4, 1, 5] 7 (by simp) (by decide)

/-! ### Distances: binary lifting, dijkstra, heavy-light decomposition -/

/-- The graph with every edge of length 1. -/
def unitWeights (g : List (List Nat)) : List (List (Nat × Nat)) := g.map (List.map fun v => (v, 1))

theorem mem_unitWeights {g : List (List Nat)} {u v c : Nat} :
    (v, c) ∈ (unitWeights g).getD u [] ↔ v ∈ g.getD u [] ∧ c = 1 := by
  simp only [unitWeights, List.getD_eq_getElem?_getD, List.getElem?_map]
  cases g[u]? with
  | none => simp
  | some l => simp [eq_comm]

theorem walk_of_unit {g : List (List Nat)} {s v w : Nat} (h : Walk (unitWeights g) s v w) :
    ∃ p, IsWalk g s v p ∧ p.length = w + 1 := by
  induction h with
  | nil => exact ⟨[s], ⟨rfl, rfl, List.isChain_singleton _⟩, rfl⟩
  | @snoc u v w c hw he ih =>
    obtain ⟨p, hp, hl⟩ := ih
    obtain ⟨h1, rfl⟩ := mem_unitWeights.1 he
    refine ⟨p ++ [v], ⟨?_, by simp, ?_⟩, by simp [hl]⟩
    · rw [List.head?_append, hp.head]; rfl
    · rw [List.isChain_append]
      refine ⟨hp.chain, List.isChain_singleton _, ?_⟩
      intro x hx y hy
      rw [hp.last] at hx
      cases hx; cases hy
      exact h1

theorem unit_of_walk {g : List (List Nat)} {s v : Nat} {p : List Nat} (h : IsWalk g s v p) :
    Walk (unitWeights g) s v (p.length - 1) := by
  induction p using List.reverseRecOn generalizing v with
  | nil => cases h.head
  | append_singleton p x ih =>
    have hx : x = v := by simpa using h.last
    subst hx
    rcases List.eq_nil_or_concat p with rfl | ⟨q, u, rfl⟩
    · have : x = s := by simpa using h.head
      subst this
      exact .nil
    · simp only [List.concat_eq_append] at *
      have hc := List.isChain_append.1 h.chain
      have hw : Walk (unitWeights g) s u ((q ++ [u]).length - 1) := by
        refine ih ⟨?_, by simp, hc.1⟩
        have := h.head
        rw [List.head?_append] at this
        cases q with
        | nil => simpa using this
        | cons y q => simpa using this
      have := hw.snoc (v := x) (c := 1) (mem_unitWeights.2 ⟨hc.2.2 u (by simp) x (by simp), rfl⟩)
      simpa using this

theorem isDist_unit_iff {g : List (List Nat)} {s v d : Nat} : IsDist (unitWeights g) s v d ↔ IsTreeDist g s v d := by
  constructor
  · rintro ⟨h1, h2⟩
    refine ⟨walk_of_unit h1, fun w hw => ?_⟩
    have := h2 _ (unit_of_walk hw)
    have : 0 < w.length := by
      rcases w with _ | _
      · cases hw.head
      · simp
    omega
  · rintro ⟨⟨w, hw, hl⟩, h2⟩
    refine ⟨?_, fun x hx => ?_⟩
    · have := unit_of_walk hw
      rwa [hl] at this
    · obtain ⟨p, hp, hpl⟩ := walk_of_unit hx
      have := h2 p hp
      omega

/-- **C96.** On a tree whose edges have length 1, `dijkstra` and the `dis` of binary lifting return the same distances,
whatever the root. -/
theorem C96_lifting_dijkstra {B : BinaryHeap (Nat ×ₗ Nat)ᵒᵈ} {g : List (List Nat)} {root : Nat} (T : IsTree g)
    (hr : root < g.length) (hn : g.length < 2 ^ 63) (s : Nat) (hs : s < g.length) :
    ∃ t dis, BinaryLifting.from g root = ok t ∧ dijkstra B (unitWeights g) s = ok dis ∧
      ∀ v, v < g.length → ∃ d, t.dis s v = ok d ∧ dis[v]? = some (some d) := by
  have hlen : (unitWeights g).length = g.length := by simp [unitWeights]
  have hin : EdgesInRange (unitWeights g) := fun u v c h => by
    rw [hlen]; exact T.inRange u v (mem_unitWeights.1 h).1
  have hov : ¬ DistOverflow (unitWeights g) s := by
    rintro ⟨u, d, v, c, h1, h2, h3⟩
    obtain ⟨h4, rfl⟩ := mem_unitWeights.1 h2
    have hu : u < g.length := by
      by_contra hc
      rw [List.getD_eq_getElem?_getD, List.getElem?_eq_none (by omega)] at h4
      simp at h4
    obtain ⟨p, hp, -⟩ := T.path s u hs hu
    have h5 := TreeP.dist_of_path T hs hp hs
    have h6 := hp.length_le T hs
    have h7 := (isDist_unit_iff.2 h5).2
    have h8 := h1.2 _ (isDist_unit_iff.2 h5).1
    omega
  obtain ⟨t, e1, h1⟩ := C17_dis T hr hn
  obtain ⟨dis, e2, -, h2⟩ := C15_shortest_paths (B := B) (by rw [hlen]; exact hs) (leavesGraph_not hin) hov
  refine ⟨t, dis, e1, e2, fun v hv => ?_⟩
  obtain ⟨d, e3, h3⟩ := h1 s v hs hv
  exact ⟨d, e3, ((h2 v (by rw [hlen]; exact hv)).2 d).2 (isDist_unit_iff.2 h3)⟩

/-- The hypotheses are met by a star with a longer ray. -/
example : IsTree [[1, 2], [0], [0, 3], [2]] ∧ (do
    let t ← BinaryLifting.from [[1, 2], [0], [0, 3], [2]] 2
    t.dis 1 3) = ok 3 ∧
    dijkstra (listHeap (Nat ×ₗ Nat)ᵒᵈ) (unitWeights [[1, 2], [0], [0, 3], [2]]) 1 =
      ok [some 1, some 0, some 2, some 3] :=
  ⟨TreeP.isTree_of_check (by decide +kernel), by decide +kernel, by decide +kernel⟩

/-- **C96.** A heavy-light decomposition with the value 1 at every node, in any reachable state, against binary lifting
with the same root: the sum over a path is the distance of its ends plus one, and the sum over a subtree is the number of
nodes of which its root is an ancestor. -/
theorem C96_hld_lifting {F : Type} {M : MapOps (Multiplicative Nat) F} {g : List (List Nat)} {root : Nat}
    (hM : LawfulMap M) (T : IsTree g) (hr : root < g.length) (hgl : g.length < 2 ^ 32) (h : HLD (Multiplicative Nat) F)
    (hh : HReached M g root h) (ha : Reads M g h (List.replicate g.length (.ofAdd 1))) :
    ∃ t, BinaryLifting.from g root = ok t ∧ ∀ u, u < g.length →
      (∀ v, v < g.length → ∃ d h', t.dis u v = ok d ∧ h.pathProd M u v = ok (h', .ofAdd (d + 1))) ∧
      ∃ h', h.subtreeProd M u =
        ok (h', .ofAdd ((Finset.range g.length).filter fun v => t.isAncestor u v = ok true).card) := by
  have hnode : ∀ q : List Nat, (∀ y ∈ q, y < g.length) →
      nodeProd (List.replicate g.length (Multiplicative.ofAdd 1)) q = .ofAdd q.length := by
    intro q hq
    induction q with
    | nil => rfl
    | cons y q ih =>
      have h1 := ih fun z hz => hq z (List.mem_cons_of_mem _ hz)
      unfold nodeProd at h1 ⊢
      rw [List.map_cons, List.prod_cons, h1, List.getD_eq_getElem?_getD,
        List.getElem?_replicate_of_lt (hq y (by simp))]
      show Multiplicative.ofAdd 1 * Multiplicative.ofAdd q.length = _
      rw [← ofAdd_add, List.length_cons, Nat.add_comm]
  obtain ⟨t, e1, h1⟩ := C17_dis T hr (by omega)
  obtain ⟨t', e1', h2⟩ := C16_is_ancestor T hr (by omega)
  rw [e1] at e1'; cases e1'
  refine ⟨t, e1, fun u hu => ⟨fun v hv => ?_, ?_⟩⟩
  · obtain ⟨d, e2, h3⟩ := h1 u v hu hv
    obtain ⟨p, hp, -⟩ := T.path u v hu hv
    obtain ⟨h', e3, -⟩ := C25_path_prod hM T hr hgl h hh _ ha u v hu hv p hp
    refine ⟨d, h', e2, ?_⟩
    have h5 := TreeP.dist_of_path T hr hp hu
    have h4 : d + 1 = p.length := by
      have hpos : 0 < p.length := by
        rcases p with _ | _
        · cases hp.head
        · simp
      obtain ⟨⟨w, hw, hwl⟩, hm⟩ := h3
      obtain ⟨⟨w', hw', hwl'⟩, hm'⟩ := h5
      have := hm w' hw'
      have := hm' w hw
      omega
    rw [e3, hnode p fun y hy => hp.lt T hu y hy, h4]
  · obtain ⟨h', x, q, e3, -, hx, hq, hqs⟩ := C24_subtree_prod hM T hr hgl h hh _ ha u hu
    refine ⟨h', ?_⟩
    have hqlt : ∀ y ∈ q, y < g.length := fun y hy => (TreeP.anc_lt T hr ((hq y).1 hy)).2
    have hnd : q.Nodup := hqs.imp fun hlt he => by subst he; exact absurd hlt (lt_irrefl _)
    rw [e3, hx, hnode q hqlt, ← List.toFinset_card_of_nodup hnd]
    congr 4
    ext y
    simp only [List.mem_toFinset, Finset.mem_filter, Finset.mem_range, hq]
    constructor
    · intro hy
      obtain ⟨b, e4, hb⟩ := h2 u y hu (TreeP.anc_lt T hr hy).2
      exact ⟨(TreeP.anc_lt T hr hy).2, by rw [e4, hb.2 hy]⟩
    · rintro ⟨hy, e4⟩
      obtain ⟨b, e5, hb⟩ := h2 u y hu hy
      rw [e4] at e5; cases e5
      exact hb.1 rfl

/-- Sums of natural numbers, without range maps. -/
def countOps : MapOps (Multiplicative Nat) Unit := ⟨1, (· * ·), (), fun _ x => x, fun _ _ => ()⟩

/-- The hypotheses are met on every tree: the values 1 are given to `with_init_value`. -/
example {g : List (List Nat)} {root : Nat} (T : IsTree g) (hr : root < g.length) (hgl : g.length < 2 ^ 32) :
    LawfulMap countOps ∧ ∃ h, HReached countOps g root h ∧ Reads countOps g h (List.replicate g.length (.ofAdd 1)) := by
  have hM : LawfulMap countOps := ⟨rfl, fun _ _ => rfl, fun _ => rfl, fun _ _ _ => rfl, fun _ _ _ => rfl⟩
  obtain ⟨h, e, c, R⟩ := HLDP.withInitValue_sat hM T hr hgl (v := List.replicate g.length (.ofAdd 1)) (by simp)
  exact ⟨hM, h, ⟨_, h, [], [], by simp, by simp, e, rfl⟩, R.reads hM⟩

/-! ### Components and reachability -/

theorem reach_of_walk {W : List (List (Nat × Nat))} {s v d : Nat} (h : Walk W s v d) :
    DReach (W.map (List.map Prod.fst)) s v := by
  induction h with
  | nil => exact .refl
  | @snoc u v w c _ he ih =>
    refine ih.tail ?_
    rw [List.getD_eq_getElem?_getD] at he
    cases hu : W[u]? with
    | none => rw [hu] at he; simp at he
    | some a =>
      rw [hu] at he
      exact ⟨a.map Prod.fst, by simp [hu], List.mem_map.2 ⟨(v, c), he, rfl⟩⟩

theorem walk_of_reach {W : List (List (Nat × Nat))} {s v : Nat} (h : DReach (W.map (List.map Prod.fst)) s v) :
    ∃ d, Walk W s v d := by
  induction h with
  | refl => exact ⟨0, .nil⟩
  | tail _ he ih =>
    obtain ⟨d, hw⟩ := ih
    obtain ⟨a, h1, h2⟩ := he
    rw [List.getElem?_map, Option.map_eq_some_iff] at h1
    obtain ⟨b, h3, rfl⟩ := h1
    obtain ⟨⟨v, c⟩, h4, rfl⟩ := List.mem_map.1 h2
    exact ⟨_, hw.snoc (v := v) (c := c) (by rw [List.getD_eq_getElem?_getD, h3]; exact h4)⟩

/-- **C96.** Two vertices get the same colour from `scc` exactly if `dijkstra`, with any lengths of the edges that do not
overflow, finds a way from each of them to the other. -/
theorem C96_scc_dijkstra {B : BinaryHeap (Nat ×ₗ Nat)ᵒᵈ} (W : List (List (Nat × Nat))) (hW : EdgesInRange W)
    (hn : W.length < 2 ^ 31) (ho : ∀ s, ¬ DistOverflow W s) :
    ∃ cnt color, scc (W.map (List.map Prod.fst)) = ok (cnt, color) ∧ ∀ u v, u < W.length → v < W.length →
      ∃ du dv x y, dijkstra B W u = ok du ∧ dijkstra B W v = ok dv ∧ du[v]? = some x ∧ dv[u]? = some y ∧
        (color[u]? = color[v]? ↔ x ≠ none ∧ y ≠ none) := by
  have hg : ∀ x y, DEdge (W.map (List.map Prod.fst)) x y → y < (W.map (List.map Prod.fst)).length := by
    rintro x y ⟨a, h1, h2⟩
    rw [List.getElem?_map, Option.map_eq_some_iff] at h1
    obtain ⟨b, h3, rfl⟩ := h1
    obtain ⟨⟨v, c⟩, h4, rfl⟩ := List.mem_map.1 h2
    rw [List.length_map]
    exact hW x v c (by rw [List.getD_eq_getElem?_getD, h3]; exact h4)
  obtain ⟨cnt, color, e, hl, hc, -⟩ := C21_scc _ hg (by simpa using hn)
  rw [List.length_map] at hl
  refine ⟨cnt, color, e, fun u v hu hv => ?_⟩
  obtain ⟨du, e1, l1, h1⟩ := C15_shortest_paths (B := B) hu (leavesGraph_not hW) (ho u)
  obtain ⟨dv, e2, l2, h2⟩ := C15_shortest_paths (B := B) hv (leavesGraph_not hW) (ho v)
  obtain ⟨x, hx⟩ : ∃ x, du[v]? = some x := ⟨_, List.getElem?_eq_getElem (by omega)⟩
  obtain ⟨y, hy⟩ : ∃ y, dv[u]? = some y := ⟨_, List.getElem?_eq_getElem (by omega)⟩
  refine ⟨du, dv, x, y, e1, e2, hx, hy, ?_⟩
  have k1 : x ≠ none ↔ DReach (W.map (List.map Prod.fst)) u v := by
    have := (h1 v hv).1
    rw [hx, Option.some_inj] at this
    rw [Ne, this, not_not]
    exact ⟨fun ⟨d, hd⟩ => reach_of_walk hd, walk_of_reach⟩
  have k2 : y ≠ none ↔ DReach (W.map (List.map Prod.fst)) v u := by
    have := (h2 u hu).1
    rw [hy, Option.some_inj] at this
    rw [Ne, this, not_not]
    exact ⟨fun ⟨d, hd⟩ => reach_of_walk hd, walk_of_reach⟩
  rw [k1, k2, ← hc u v (by omega) (by omega), List.getElem?_eq_getElem (by omega), List.getElem?_eq_getElem (by omega),
    Option.some_inj]

/-- Two components, `0 ↔ 1` and `2`. -/
example : scc ([[(1, 5)], [(0, 2), (2, 1)], []].map (List.map Prod.fst)) = ok (2, [1, 1, 0]) ∧
    dijkstra (listHeap (Nat ×ₗ Nat)ᵒᵈ) [[(1, 5)], [(0, 2), (2, 1)], []] 0 = ok [some 0, some 5, some 6] ∧
    dijkstra (listHeap (Nat ×ₗ Nat)ᵒᵈ) [[(1, 5)], [(0, 2), (2, 1)], []] 2 = ok [none, none, some 0] := by
  decide +kernel

/-! ### String search -/

/-- **C96.** Searching for one pattern. The row of `find_all` for position `i` is `[0]` exactly if the entry of
`kmp(p + sep + text)` for that position is `|p|`, and exactly if that of `z_function(p + sep + text)` for the position
where the match begins is `|p|`; otherwise it is empty. `find_cnt` is the number of entries `|p|` of `kmp`. -/
theorem C96_search {off N : Nat} {p text : List Nat} {sep : Nat} (hp : p ≠ []) (hpa : InAlphabet off N p)
    (ht : InAlphabet off N text) (hsp : sep ∉ p) (hst : sep ∉ text) :
    ∃ a rows pi z, AhoCorasick.from off N [p] = ok a ∧ a.findAll off text = ok rows ∧ rows.length = text.length ∧
      kmp (p ++ sep :: text) = ok pi ∧ zFunction (p ++ sep :: text) = ok z ∧
      a.findCnt off text = ok [(pi.drop (p.length + 1)).count p.length] ∧
      ∀ i, i < text.length → ∃ row, rows[i]? = some row ∧ (row = [0] ∨ row = []) ∧
        (row = [0] ↔ pi[p.length + 1 + i]? = some p.length) ∧
        (row = [0] ↔ p.length ≤ i + 1 ∧ z[p.length + 1 + (i + 1 - p.length)]? = some p.length) := by
  have hP : ∀ q ∈ [p], q ≠ [] ∧ InAlphabet off N q := by simpa using ⟨hp, hpa⟩
  obtain ⟨a, rows, e1, e2, hl, hrow⟩ := C29_find_all hP ht
  obtain ⟨a', cnt, e1', e3, hcl, hcnt⟩ := C30_find_cnt hP ht
  rw [e1] at e1'; cases e1'
  obtain ⟨pi, e4, hpi⟩ := C56_kmp_search p text sep hsp hst
  obtain ⟨pi', e4', hpl, -⟩ := C27_kmp (p ++ sep :: text)
  rw [e4] at e4'; cases e4'
  obtain ⟨z, e5, hz⟩ := C56_z_search p text sep hst
  have hp0 : 0 < p.length := List.length_pos_iff.2 hp
  have hend : ∀ i, i < text.length → (pi[p.length + 1 + i]? = some p.length ↔ p <:+ text.take (i + 1)) := by
    intro i hi
    obtain ⟨k, h1, -, h2⟩ := hpi i hi
    rw [h1, Option.some_inj, h2]
  refine ⟨a, rows, pi, z, e1, e2, hl, e4, e5, ?_, fun i hi => ?_⟩
  · rw [e3]
    have h1 := (hcnt 0 p rfl).1 (fun k hk => by
      rw [List.getElem?_eq_none (by simpa [Nat.succ_le_iff] using hk)]; simp)
    rcases cnt with _ | ⟨c, _ | ⟨c', cnt⟩⟩
    · simp at hcl
    · have : c = occurrences p text := by simpa using h1
      rw [this]
      congr 2
      have hd : pi.drop (p.length + 1) = (List.range text.length).map fun i => pi.getD (p.length + 1 + i) 0 := by
        apply List.ext_getElem
        · simp [hpl]; omega
        · intro k h1 h2
          simp at h1 h2
          simp [List.getElem?_eq_getElem (show p.length + 1 + k < pi.length by omega)]
      rw [hd, List.count, List.countP_map, occurrences]
      apply List.countP_congr
      intro i hi
      have hi := List.mem_range.1 hi
      obtain ⟨k, h1, -, h2⟩ := hpi i hi
      simp [h1, h2]
    · simp at hcl
  · obtain ⟨row, hr⟩ : ∃ row, rows[i]? = some row := ⟨_, List.getElem?_eq_getElem (by omega)⟩
    obtain ⟨h1, h2⟩ := hrow i row hr
    have h0 : ∀ j, j ∈ row ↔ j = 0 ∧ p <:+ text.take (i + 1) := by
      intro j
      rw [h1 j]
      constructor
      · rintro ⟨q, hq, hs, -⟩
        have : j = 0 := by
          by_contra hc
          rw [List.getElem?_eq_none (by simp; omega)] at hq
          cases hq
        subst this
        have : p = q := by simpa using hq
        exact ⟨rfl, this ▸ hs⟩
      · rintro ⟨rfl, hs⟩
        exact ⟨p, rfl, hs, fun k hk => by rw [List.getElem?_eq_none (by simpa [Nat.succ_le_iff] using hk)]; simp⟩
    have h3 : row = [0] ∧ p <:+ text.take (i + 1) ∨ row = [] ∧ ¬ p <:+ text.take (i + 1) := by
      rcases row with _ | ⟨j, row⟩
      · exact .inr ⟨rfl, fun hs => by have := (h0 0).2 ⟨rfl, hs⟩; simp at this⟩
      · obtain ⟨rfl, hs⟩ := (h0 j).1 (by simp)
        refine .inl ⟨?_, hs⟩
        rcases row with _ | ⟨k, row⟩
        · rfl
        · obtain ⟨rfl, -⟩ := (h0 k).1 (by simp)
          have := (List.pairwise_cons.1 h2).1 0 (by simp)
          exact absurd this (lt_irrefl _)
    have h4 : row = [0] ↔ p <:+ text.take (i + 1) := by
      rcases h3 with ⟨rfl, hs⟩ | ⟨rfl, hs⟩
      · simp [hs]
      · simp [hs]
    refine ⟨row, hr, h3.imp And.left And.left, by rw [h4, hend i hi], ?_⟩
    rw [h4]
    constructor
    · intro hs
      have hle := hs.length_le
      rw [List.length_take] at hle
      have hle : p.length ≤ i + 1 := by omega
      refine ⟨hle, ?_⟩
      obtain ⟨k, h5, -, h6⟩ := hz (i + 1 - p.length) (by omega)
      rw [h5, Option.some_inj, h6]
      obtain ⟨w, hw⟩ := hs
      have hwl : w.length = i + 1 - p.length := by
        have := congrArg List.length hw
        simp at this; omega
      refine ⟨text.drop (i + 1), ?_⟩
      rw [← hwl]
      conv_rhs => rw [← List.take_append_drop (i + 1) text, ← hw, List.append_assoc, List.drop_left]
    · rintro ⟨hle, h5⟩
      obtain ⟨k, h6, -, h7⟩ := hz (i + 1 - p.length) (by omega)
      rw [h5, Option.some_inj] at h6
      obtain ⟨w, hw⟩ := h7.1 h6.symm
      refine ⟨text.take (i + 1 - p.length), ?_⟩
      conv_rhs => rw [show i + 1 = (i + 1 - p.length) + p.length by omega, List.take_add, ← hw, List.take_left]

/-- `ab` in `abab`, with `#` between them. -/
example : bytes "ab" ≠ [] ∧ InAlphabet 97 26 (bytes "ab") ∧ InAlphabet 97 26 (bytes "abab") ∧ 35 ∉ bytes "ab" ∧
    35 ∉ bytes "abab" ∧ kmp (bytes "ab#abab") = ok [0, 0, 0, 1, 2, 1, 2] ∧
    zFunction (bytes "ab#abab") = ok [0, 0, 0, 2, 0, 2, 0] := by
  unfold InAlphabet
  decide +kernel

/-! ### Inverses modulo a prime -/

/-- **C96.** Four ways to the inverse of `a` modulo a prime below `2^31`: Euclid's algorithm in `inv_gcd`, Fermat's
theorem with `pow_mod`, the first coefficient of `ex_gcd`, and the congruence `a x = 1` given to `ex_crt`. -/
theorem C96_inverse {p : Nat} {a : Int} (hp : p.Prime) (hp2 : p < 2 ^ 31) (ha : 0 ≤ a) (ha2 : a * p ≤ 2 ^ 62)
    (hpa : ¬ (p : Int) ∣ a) :
    ∃ x c y, invGcd a p = ok (1, x) ∧ powMod a (p - 2 : Nat) p = ok x ∧ exGcd i64 a p = ok (c, y, 1) ∧ x = c % p ∧
      exCrt [a] [1] [(p : Int)] = ok (some (x, (p : Int))) := by
  have h2 := hp.two_le
  have hpi : (2 : Int) ≤ p := by exact_mod_cast h2
  have hp31 : (p : Int) < 2 ^ 31 := by exact_mod_cast hp2
  have ha3 : a ≤ 2 ^ 61 := by nlinarith
  have hai : i64.In a := by
    constructor <;> (simp [IntTy.mn, IntTy.mx, i64]; omega)
  have hpin : i64.In p := by
    have h1 : i64.mn = -2 ^ 63 := by decide
    have h2 : i64.mx = 2 ^ 63 - 1 := by decide
    exact ⟨by omega, by omega⟩
  have hgcd : Int.gcd a p = 1 := by
    rw [Int.gcd_comm]
    exact Int.isCoprime_iff_gcd_eq_one.1 ((Nat.prime_iff_prime_int.1 hp).irreducible.coprime_iff_not_dvd.2 hpa)
  obtain ⟨g, x, e1, hg, h3, h4, h5⟩ := C40_inv_gcd hai (by omega) hpin
  rw [hgcd] at hg
  have hg1 : g = 1 := by exact_mod_cast hg
  subst hg1
  rw [Int.ediv_one] at h5
  -- two inverses in `[0, p)` are equal
  have huniq : ∀ y : Int, 0 ≤ y → y < p → (p : Int) ∣ y * a - 1 → y = x := by
    intro y hy1 hy2 hy3
    have hd : (p : Int) ∣ (y - x) * a := by
      have := Int.dvd_sub hy3 h3
      have h : y * a - 1 - (x * a - 1) = (y - x) * a := by ring
      rwa [h] at this
    rcases (Nat.prime_iff_prime_int.1 hp).dvd_or_dvd hd with hd | hd
    · have := Int.eq_zero_of_abs_lt_dvd hd (by rw [abs_lt]; constructor <;> omega)
      omega
    · exact absurd hd hpa
  have hpow : powMod a (p - 2 : Nat) p = ok (a ^ (p - 2) % p) := C38_pow_mod hai (by omega) (by omega) hp2
  have hx : a ^ (p - 2) % p = x := by
    refine huniq _ (Int.emod_nonneg _ (by omega)) (Int.emod_lt_of_pos _ (by omega)) ?_
    have hf := Int.ModEq.pow_card_sub_one_eq_one hp (n := a) ((Nat.prime_iff_prime_int.1 hp).irreducible.coprime_iff_not_dvd.2 hpa).symm
    have h6 : a ^ (p - 2) % p * a ≡ 1 [ZMOD p] := by
      calc a ^ (p - 2) % p * a ≡ a ^ (p - 2) * a [ZMOD p] := (Int.mod_modEq _ _).mul_right _
        _ = a ^ (p - 1) := by rw [← pow_succ]; congr 1; omega
        _ ≡ 1 [ZMOD p] := hf
    exact (Int.modEq_iff_dvd.1 h6.symm)
  obtain ⟨c, y, g, e2, h6, h7, h8, -⟩ := C34_ex_gcd (ty := i64) rfl (by decide) hai hpin (by
    rintro (⟨-, h⟩ | ⟨h, -⟩) <;> omega)
  have hg1 : g = 1 := by
    have := h8 ha (by omega)
    rw [hgcd] at h7; omega
  subst hg1
  have hc : c % p = x := by
    refine huniq _ (Int.emod_nonneg _ (by omega)) (Int.emod_lt_of_pos _ (by omega)) ?_
    have h9 : c % p * a ≡ c * a [ZMOD p] := (Int.mod_modEq _ _).mul_right _
    have h10 : c * a ≡ 1 [ZMOD p] := by
      rw [Int.modEq_iff_dvd]
      exact ⟨y, by rw [← h6]; ring⟩
    exact Int.modEq_iff_dvd.1 (h9.trans h10).symm
  have hcin : CongrInput [a] [1] [(p : Int)] := by
    refine ⟨by simp, by simp, fun i hi => ?_⟩
    have : i = 0 := by simpa using hi
    subst this
    simp; omega
  have hcs : CongrSmall [a] [1] [(p : Int)] p := by
    refine ⟨by omega, by omega, fun i hi => ?_⟩
    have : i = 0 := by simpa using hi
    subst this
    simp; omega
  obtain ⟨r, e3, h11, h12⟩ := C35_no_overflow hcin hcs
  have hsol : ∀ w : Int, CongrSol [a] [1] [(p : Int)] w ↔ (p : Int) ∣ w * a - 1 := by
    intro w
    unfold CongrSol
    simp [mul_comm]
  refine ⟨x, c, y, e1, by rw [hpow, hx], e2, hc.symm, ?_⟩
  rw [e3]
  rcases r with _ | ⟨w, l⟩
  · exact absurd ((hsol x).2 h3) (h11.1 rfl x)
  · obtain ⟨h13, h14, h15⟩ := h12 w l rfl
    have hw := (hsol w).1 ((h15 w).2 ⟨0, by ring⟩)
    have hl1 : (p : Int) ∣ l := by
      have hwl := (hsol (w + 1 * l)).1 ((h15 _).2 ⟨1, rfl⟩)
      have := Int.dvd_sub hwl hw
      have h : (w + 1 * l) * a - 1 - (w * a - 1) = l * a := by ring
      rw [h] at this
      exact ((Nat.prime_iff_prime_int.1 hp).dvd_or_dvd this).resolve_right hpa
    have hl2 : l ∣ (p : Int) := by
      have hwp : (p : Int) ∣ (w + p) * a - 1 := by
        have h : (w + p) * a - 1 = (w * a - 1) + p * a := by ring
        rw [h]; exact Int.dvd_add hw (Dvd.intro _ rfl)
      obtain ⟨k, hk⟩ := (h15 _).1 ((hsol (w + p)).2 hwp)
      exact ⟨k, by linarith [mul_comm k l]⟩
    have hlp : l = p := Int.dvd_antisymm (by omega) (by omega) hl2 hl1
    subst hlp
    rw [huniq w h13 h14 hw]

/-- The inverse of 3 modulo 7 is 5. -/
example : (7 : Nat).Prime ∧ ¬ ((7 : Nat) : Int) ∣ 3 ∧ invGcd 3 7 = ok (1, 5) ∧ powMod 3 5 7 = ok 5 ∧
    exGcd i64 3 7 = ok (-2, 1, 1) ∧ exCrt [3] [1] [7] = ok (some (5, 7)) := by
  refine ⟨by norm_num, by decide, ?_⟩
  decide +kernel

end Verif.Props
