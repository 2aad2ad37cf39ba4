import Verif.Proof.CostArith
import Verif.Proof.CostExact
import Verif.Props.Segtree
import Mathlib.Algebra.Order.BigOperators.Group.Finset
/-! C57, C58, C59: how often the inner loops run. The counts come from the instrumented copies in
`Model/Cost.lean`. Each theorem first says that forgetting the count gives the function itself, and the
counts are characterised exactly, in terms of the input alone, so that a copy which counts wrongly would
not satisfy the theorem. -/
namespace Verif.Props
open Res Model CostP

/-- `k` is tried and rejected at position `i`: it is a nonempty proper border of the first `i` elements,
and neither it nor a longer proper border continues with element `i`. -/
def Rejected {α} (s : List α) (i k : Nat) : Prop :=
  1 ≤ k ∧ k < i ∧ s.take k <:+ s.take i ∧
    ∀ k', k ≤ k' → k' < i → s.take k' <:+ s.take i → s[k']? ≠ s[i]?

open Classical Finset in
/-- C57: in a whole run of `kmp` on `n` elements the inner loop runs once for every rejected border, and
at most `n - 2` times. -/
theorem C57_kmp {α} [DecidableEq α] (s : List α) :
    ∃ pi c, kmpCost s = ok (pi, c) ∧ kmp s = ok pi ∧
      c = ∑ i ∈ range s.length, #{k ∈ range i | Rejected s i k} ∧ c ≤ s.length - 2 := by
  obtain ⟨⟨pi, c⟩, e, h⟩ := kmpCost_sat s
  obtain ⟨⟨pi', c'⟩, e', h'⟩ := kmpCost_exact s
  rw [e] at e'; cases e'
  refine ⟨pi, c, e, by rw [← kmpCost_fst, e]; rfl, ?_, h⟩
  simp only at h'
  rw [h']
  refine sum_congr rfl fun i hi => ?_
  have hi := mem_range.1 hi
  unfold nRj
  congr 1
  ext k
  simp only [mem_filter, mem_range]
  refine and_congr_right fun hk => ?_
  unfold Rj Rejected
  refine and_congr_right fun _ => and_congr_right fun _ => and_congr (bd_iff (by omega) (by omega)).symm ?_
  refine forall_congr' fun k' => forall_congr' fun _ => forall_congr' fun h2 => ?_
  rw [bd_iff (by omega) (by omega)]

-- the bound is attained: four elements, two rounds (the borders 2 and 1 at position 3)
example : kmpCost [1, 1, 1, 2] = ok ([0, 1, 2, 0], 2) := by decide
example : Rejected [1, 1, 1, 2] 3 2 ∧ Rejected [1, 1, 1, 2] 3 1 := by
  refine ⟨⟨by decide, by decide, by decide, fun k' h1 h2 _ => ?_⟩,
    by decide, by decide, by decide, fun k' h1 h2 _ => ?_⟩
  · obtain rfl : k' = 2 := by omega
    decide
  · obtain rfl | rfl : k' = 1 ∨ k' = 2 := by omega
    all_goals decide

open Classical Finset in
/-- C57: in a whole run of `z_function` on `n` elements the inner loop runs once for every position that
lies inside a match of a prefix (that is, inside `i .. i + z[i]` for some `i`), so at most `n - 1` times. -/
theorem C57_z {α} [DecidableEq α] (s : List α) :
    ∃ z c, zCost s = ok (z, c) ∧ zFunction s = ok z ∧
      c = #{j ∈ range s.length | ∃ i k : Nat, z[i]? = some k ∧ i ≤ j ∧ j < i + k} ∧
      c ≤ s.length - 1 := by
  obtain ⟨⟨z, c⟩, e, h⟩ := zCost_sat s
  obtain ⟨⟨z', c'⟩, e', h'⟩ := zCost_exact s
  rw [e] at e'; cases e'
  exact ⟨z, c, e, by rw [← zCost_fst, e]; rfl, h', h⟩

example : zCost [1, 1, 1, 1] = ok ([0, 3, 2, 1], 3) := by decide
example : zCost [1, 2, 3, 1, 2, 3, 1, 5] = ok ([0, 0, 0, 4, 0, 0, 1, 0], 4) := by decide

/-- C57: both bounds are attained, for every length `n ≥ 2`: that of `kmp` by `n - 1` equal elements with a
different one after them, that of `z_function` by `n` equal elements. -/
theorem C57_attained {α} [DecidableEq α] {a b : α} (hab : a ≠ b) {n : Nat} (hn : 2 ≤ n) :
    (∃ pi, kmpCost (List.replicate (n - 1) a ++ [b]) = ok (pi, n - 2)) ∧
    ∃ z, zCost (List.replicate n a) = ok (z, n - 1) := by
  classical
  constructor
  · obtain ⟨pi, c, e, _, h1, h2⟩ := C57_kmp (List.replicate (n - 1) a ++ [b])
    have hl : (List.replicate (n - 1) a ++ [b]).length = n := by simp; omega
    rw [hl] at h1 h2
    have h3 : n - 2 ≤ c := by
      rw [h1]
      refine le_trans ?_ (Finset.single_le_sum (fun _ _ => Nat.zero_le _) (Finset.mem_range.2 (show n - 1 < n by omega)))
      have : (Finset.Ico 1 (n - 1)).card = n - 2 := by simp; omega
      rw [← this]
      refine Finset.card_le_card fun k hk => ?_
      rw [Finset.mem_Ico] at hk
      refine Finset.mem_filter.2 ⟨Finset.mem_range.2 hk.2, hk.1, hk.2, ?_, fun k' _ h _ => ?_⟩
      · rw [List.take_append_of_le_length (by simp; omega), List.take_append_of_le_length (by simp), List.take_replicate,
          List.take_replicate]
        exact ⟨List.replicate (n - 1 - k) a, by rw [List.replicate_append_replicate]; congr 1; omega⟩
      · rw [List.getElem?_append_left (by simpa using h), List.getElem?_append_right (by simp)]
        simp [h, hab]
    exact ⟨pi, by rw [e, show c = n - 2 by omega]⟩
  · obtain ⟨z, c, e, e2, h1, h2⟩ := C57_z (List.replicate n a)
    obtain ⟨z', e3, hz, _, h⟩ := zFunction_spec (List.replicate n a)
    rw [e2] at e3; cases e3
    rw [List.length_replicate] at h1 h2 hz
    obtain ⟨k, hk⟩ : ∃ k, z[1]? = some k := ⟨_, List.getElem?_eq_getElem (by omega)⟩
    have hk2 := (h 1 k (le_refl _) hk).2.2 (n - 1) (by simp) (by
      rw [List.take_replicate, List.drop_replicate, show min (n - 1) n = n - 1 by omega])
    have h3 : n - 1 ≤ c := by
      rw [h1]
      have : (Finset.Ico 1 n).card = n - 1 := by simp
      rw [← this]
      refine Finset.card_le_card fun j hj => ?_
      rw [Finset.mem_Ico] at hj
      exact Finset.mem_filter.2 ⟨Finset.mem_range.2 hj.2, 1, k, hk, hj.1, by omega⟩
    exact ⟨z, by rw [e, show c = n - 1 by omega]⟩

example : kmpCost (List.replicate 5 'a' ++ ['b']) = ok ([0, 1, 2, 3, 4, 0], 4) ∧
    zCost (List.replicate 6 'a') = ok ([0, 5, 4, 3, 2, 1], 5) := by decide

/-- C58 (Lamé): whenever `gcd(a, b)` returns, it has made as many divisions as Euclid's algorithm on `|a|`
and `|b|` (`euclid`: none for `(a, 0)`, else one more than for `(b, a mod b)`), and this number `k` satisfies
`fib (k + 1) ≤ |b|` (or `b = 0` and none at all). -/
theorem C58_gcd (ty : IntTy) (a b : Int) :
    (gcdCost ty a b >>= fun r => ok r.1) = gcd ty a b ∧
    ∀ x k, gcdCost ty a b = ok (x, k) → k = euclid a.natAbs b.natAbs ∧
      ((b = 0 ∧ k = 0) ∨ Nat.fib (k + 1) ≤ b.natAbs) := by
  refine ⟨gcdCost_fst ty a b, fun x k h => ⟨gcdCost_eq h, ?_⟩⟩
  rw [gcdCost_eq h]
  by_cases hb : b = 0
  · subst hb; left; simp [euclid_zero]
  · right; exact lame _ _ (by omega)

/-- C58: consecutive Fibonacci numbers are the worst case, so the bound is exact for every `k`. -/
theorem C58_gcd_worst (ty : IntTy) (n : Nat) (hn : 1 ≤ n) (x : Int) (k : Nat)
    (h : gcdCost ty (Nat.fib (n + 2)) (Nat.fib (n + 1)) = ok (x, k)) : k = n := by
  rw [gcdCost_eq h, Int.natAbs_natCast, Int.natAbs_natCast, euclid_fib n hn]

example : gcdCost ⟨true, 32⟩ 13 8 = ok (1, 5) := by decide

theorem euclid_i64 {a b : Int} (hb : i64.In b) : euclid a.natAbs b.natAbs ≤ 91 := by
  by_cases h0 : b = 0
  · subst h0; simp [euclid_zero]
  · have h1 := lame a.natAbs b.natAbs (by omega)
    have h2 : b.natAbs ≤ 2 ^ 63 := by
      obtain ⟨h3, h4⟩ := hb
      have e1 : i64.mn = -2 ^ 63 := rfl
      have e2 : i64.mx = 2 ^ 63 - 1 := rfl
      omega
    by_contra hc
    have h3 : Nat.fib 93 ≤ Nat.fib (euclid a.natAbs b.natAbs + 1) := Nat.fib_mono (by omega)
    have h4 : (2 : Nat) ^ 63 < Nat.fib 93 := by
      decide +kernel
    omega

/-- C58: `gcd` on `i64` makes at most 91 divisions. -/
theorem C58_gcd_i64 (a b x : Int) (k : Nat) (hb : i64.In b) (h : gcdCost i64 a b = ok (x, k)) :
    k ≤ 91 := by
  rw [gcdCost_eq h]; exact euclid_i64 hb

/-- C58: the recursion of `ex_gcd` on `i64` is at most 92 calls deep: fuel 92 gives the same result,
panics included, as the fuel of the model. -/
theorem C58_exGcd_depth (a b : Int) (hb : i64.In b) : exGcdAux i64 92 a b = exGcd i64 a b := by
  have h1 := euclid_i64 (a := a) hb
  have h2 := euclid_le a.natAbs b.natAbs
  exact exGcdAux_fuel _ _ _ _ (by omega) (by omega)

/-- Both bounds are attained, at `fib 91` and `fib 92`. -/
theorem C58_attained : gcdCost i64 4660046610375530309 7540113804746346429 = ok (1, 91) ∧
    exGcdAux i64 91 4660046610375530309 7540113804746346429 = diverge := by
  constructor <;> decide +kernel

/-- C59: `pref(i)` of a Fenwick tree makes exactly as many rounds as `i` has one bits. -/
theorem C59_fenwick_pref {T : Type} (add : T → T → Res T) (zero : T) (t : Fenwick T) (i : Nat) :
    (t.prefCost add zero i >>= fun r => ok r.1) = t.pref add zero i ∧
    ∀ x k, t.prefCost add zero i = ok (x, k) → k = ones i :=
  ⟨prefCost_fst add zero t i, fun _ _ h => prefCost_eq h⟩

open Finset in
/-- C59: `add(i)` to a Fenwick tree of `n` elements makes one round for every node `j` whose range, from
`j & (j - 1)` up to `j`, contains `i`, which is at most `log2 n + 1`. -/
theorem C59_fenwick_add {T : Type} (add : T → T → Res T) (t : Fenwick T) (i : Nat) (v : T) :
    (t.addAtCost add i v >>= fun r => ok r.1) = t.addAt add i v ∧
    ∀ t' k, t.addAtCost add i v = ok (t', k) →
      k = #{j ∈ range (t.n + 1) | j &&& (j - 1) ≤ i ∧ i < j} ∧ (k = 0 ∨ 2 ^ (k - 1) ≤ t.n) :=
  ⟨addAtCost_fst add t i v, fun _ _ h => ⟨addAtCost_eq h, addAtCost_le h⟩⟩

example : (Fenwick.new 0 8).prefCost (addU 64) 0 7 = ok (0, 3) ∧ ones 7 = 3 ∧
    (Fenwick.new 0 8).addAtCost (addU 64) 0 5 =
      ok ({ n := 8, ary := [5, 5, 0, 5, 0, 0, 0, 5] }, 4) := by decide +kernel

/-- C59: `prod(l, r)` of any reachable segment tree over `n` elements makes exactly as many rounds as there
are block sizes `2 ^ j` with an aligned block inside `l .. r`, which is at most `⌈log2 n⌉ + 1`. -/
theorem C59_segtree_prod {S : Type} [Monoid S] {M : MonoidOps S} {Fits : S → Prop} (a : List S)
    (ops : List (Nat × S)) (h : SegHyp M Fits a ops) (t : Segtree S) (ht : SegReached M a ops t)
    (l r : Nat) :
    (t.prodCost M l r >>= fun r => ok r.1) = t.prod M l r ∧
    ∀ x k, t.prodCost M l r = ok (x, k) →
      (∀ j, j < k ↔ ∃ b, l ≤ b * 2 ^ j ∧ (b + 1) * 2 ^ j ≤ r) ∧ (k ≤ 1 ∨ 2 ^ (k - 2) < a.length) := by
  refine ⟨prodCost_fst M t l r, fun x k hk => ?_⟩
  have R := ht.rep h
  have hn : t.n ≤ t.size := by rw [R.n]; exact R.le
  refine ⟨prodCost_eq R.size hn hk, ?_⟩
  have hle := prodCost_le R.size hn hk
  have hl := R.logn
  rw [setAll_length] at hl
  by_cases h1 : k ≤ 1
  · exact Or.inl h1
  · right
    have := lt_bitLen_iff.1 (show k - 2 < bitLen (a.length - 1) by omega)
    have := Nat.two_pow_pos (k - 2)
    omega

-- five elements in a tree of size 8: three rounds for the range 0..5
example : (do
    let t ← Segtree.from catOps ([1, 2, 3, 4, 5].map FreeMonoid.of)
    let (x, k) ← t.prodCost catOps 0 5
    ok (x.toList, k) : Res _) = ok ([1, 2, 3, 4, 5], 3) := by decide +kernel

end Verif.Props
