import Mathlib.Data.Nat.Fib.Basic
import Mathlib.Data.Finset.Card
import Mathlib.Data.Finset.Range
import Verif.Proof.Cost
import Verif.Prelude.Bits
import Verif.Proof.Segtree
/-! Round counts of the Fenwick tree, the segment tree and Euclid's algorithm. -/
namespace Verif
open Res Model

/-- The number of one bits. -/
def ones (n : Nat) : Nat := if n = 0 then 0 else n % 2 + ones (n / 2)
decreasing_by omega

/-- The number of divisions of Euclid's algorithm. -/
def euclid (a b : Nat) : Nat := if h : b = 0 then 0 else euclid b (a % b) + 1
termination_by b
decreasing_by exact Nat.mod_lt _ (by omega)

namespace CostP

theorem ones_zero : ones 0 = 0 := by unfold ones; simp
theorem ones_two_mul (n : Nat) : ones (2 * n) = ones n := by
  conv_lhs => unfold ones
  split
  · have : n = 0 := by omega
    subst this; rw [ones_zero]
  · rw [show 2 * n % 2 = 0 by omega, show 2 * n / 2 = n by omega]; omega
theorem ones_two_mul_add (n : Nat) : ones (2 * n + 1) = ones n + 1 := by
  conv_lhs => unfold ones
  rw [if_neg (by omega), show (2 * n + 1) % 2 = 1 by omega, show (2 * n + 1) / 2 = n by omega]; omega

theorem ones_and_pred (i : Nat) (h : 0 < i) : ones (i &&& (i - 1)) + 1 = ones i := by
  rw [and_pred i h]
  obtain ⟨q, k, rfl⟩ := exists_odd i h
  rw [low_odd_mul]
  have : (2 * q + 1) * 2 ^ k - 2 ^ k = 2 * q * 2 ^ k := by
    rw [Nat.add_mul, Nat.one_mul, Nat.add_sub_cancel]
  rw [this]
  have e : ∀ x k, ones (x * 2 ^ k) = ones x := by
    intro x k
    induction k with
    | zero => simp
    | succ k ih =>
      rw [show x * 2 ^ (k + 1) = 2 * (x * 2 ^ k) by ring, ones_two_mul, ih]
  rw [e, e, ones_two_mul, ones_two_mul_add]

theorem prefCost_fst {T : Type} (add : T → T → Res T) (zero : T) (t : Fenwick T) (i : Nat) :
    (t.prefCost add zero i >>= fun r => ok r.1) = t.pref add zero i := by
  unfold Fenwick.prefCost Fenwick.pref
  rw [← whileCount_fst]
  simp only [bind_bind_res, ok_bind]

theorem prefCost_eq {T : Type} {add : T → T → Res T} {zero : T} {t : Fenwick T} {i : Nat} {x : T}
    {k : Nat} (h : t.prefCost add zero i = ok (x, k)) : k = ones i := by
  unfold Fenwick.prefCost at h
  obtain ⟨⟨⟨j, s⟩, k'⟩, h1, h2⟩ := bind_eq_ok.1 h
  cases h2
  obtain ⟨h3, h4⟩ := whileCount_inv (I := fun m (st : Nat × T) => m + ones st.1 = ones i) (by
    rintro m ⟨j, s⟩ ⟨j', s'⟩ hI hc hb
    simp only [ok.injEq, decide_eq_true_eq] at hc
    obtain ⟨x, -, hb⟩ := bind_eq_ok.1 hb
    obtain ⟨y, -, hb⟩ := bind_eq_ok.1 hb
    cases hb
    have := ones_and_pred j hc
    simp only at hI ⊢
    omega) _ 0 _ _ _ (by simp) h1
  simp only [ok.injEq, decide_eq_false_iff_not] at h3 h4
  have : j = 0 := by omega
  subst this
  rw [ones_zero] at h3
  omega

theorem addAtCost_fst {T : Type} (add : T → T → Res T) (t : Fenwick T) (i : Nat) (v : T) :
    (t.addAtCost add i v >>= fun r => ok r.1) = t.addAt add i v := by
  unfold Fenwick.addAtCost Fenwick.addAt
  simp only [← whileCount_fst, bind_bind_res, ok_bind]

theorem addAtCost_le {T : Type} {add : T → T → Res T} {t t' : Fenwick T} {i : Nat} {v : T}
    {k : Nat} (h : t.addAtCost add i v = ok (t', k)) : k = 0 ∨ 2 ^ (k - 1) ≤ t.n := by
  unfold Fenwick.addAtCost at h
  obtain ⟨i1, h0, h⟩ := bind_eq_ok.1 h
  obtain ⟨⟨⟨j, s⟩, k'⟩, h1, h2⟩ := bind_eq_ok.1 h
  cases h2
  have hi1 : 0 < i1 ∧ i1 < 2 ^ 64 := by
    unfold addU at h0; split at h0
    · cases h0; omega
    · cases h0
  obtain ⟨h3, -⟩ := whileCount_inv (I := fun m (st : Nat × List T) =>
      0 < st.1 ∧ st.1 < 2 ^ 64 ∧ 2 ^ m ≤ low st.1 ∧ (m = 0 ∨ 2 ^ (m - 1) ≤ t.n)) (by
    rintro m ⟨j, s⟩ ⟨j', s'⟩ ⟨g1, g2, g3, g4⟩ hc hb
    simp only [ok.injEq, decide_eq_true_eq] at hc
    obtain ⟨x, -, hb⟩ := bind_eq_ok.1 hb
    obtain ⟨y, -, hb⟩ := bind_eq_ok.1 hb
    obtain ⟨z, -, hb⟩ := bind_eq_ok.1 hb
    obtain ⟨w, hw, hb⟩ := bind_eq_ok.1 hb
    cases hb
    simp only at g1 g2 g3 hw ⊢
    rw [and_wneg j g1 g2] at hw
    unfold addU at hw; split at hw
    · cases hw
      have h1 := low_add_low g1
      have h2 := low_le j
      refine ⟨by omega, by omega, by rw [pow_succ]; omega, Or.inr ?_⟩
      rw [Nat.add_sub_cancel]; omega
    · cases hw) _ 0 _ _ _ ⟨hi1.1, hi1.2, by have := low_pos hi1.1; simp only [pow_zero]; omega, Or.inl rfl⟩ h1
  simpa using h3.2.2.2

/-- `add` visits exactly the nodes whose range contains `i`. -/
theorem addAtCost_eq {T : Type} {add : T → T → Res T} {t t' : Fenwick T} {i : Nat} {v : T}
    {k : Nat} (h : t.addAtCost add i v = ok (t', k)) :
    k = ((Finset.range (t.n + 1)).filter fun j => j &&& (j - 1) ≤ i ∧ i < j).card := by
  unfold Fenwick.addAtCost at h
  obtain ⟨i1, h0, h⟩ := bind_eq_ok.1 h
  obtain ⟨⟨⟨j, s⟩, k'⟩, h1, h2⟩ := bind_eq_ok.1 h
  cases h2
  have hi1 : i1 = i + 1 ∧ i1 < 2 ^ 64 := by
    unfold addU at h0; split at h0
    · cases h0; omega
    · cases h0
  obtain ⟨rfl, hi2⟩ := hi1
  obtain ⟨h3, h4⟩ := whileCount_inv (I := fun m (st : Nat × List T) =>
      st.1 < 2 ^ 64 ∧ i < st.1 ∧ st.1 - low st.1 ≤ i ∧
      m = ((Finset.range (min st.1 (t.n + 1))).filter fun j => j &&& (j - 1) ≤ i ∧ i < j).card) (by
    rintro m ⟨j, s⟩ ⟨j', s'⟩ ⟨g1, g2, g3, g4⟩ hc hb
    simp only [ok.injEq, decide_eq_true_eq] at hc
    obtain ⟨x, -, hb⟩ := bind_eq_ok.1 hb
    obtain ⟨y, -, hb⟩ := bind_eq_ok.1 hb
    obtain ⟨z, -, hb⟩ := bind_eq_ok.1 hb
    obtain ⟨w, hw, hb⟩ := bind_eq_ok.1 hb
    cases hb
    simp only at g1 g2 g3 g4 hw ⊢
    rw [and_wneg j (by omega) g1] at hw
    unfold addU at hw; split at hw
    · cases hw
      have h1 := low_add_low (show 0 < j by omega)
      have h2 := low_le j
      have h3 := low_pos (show 0 < j by omega)
      refine ⟨by omega, by omega, by omega, ?_⟩
      rw [g4, Nat.min_eq_left (by omega), ← Finset.card_insert_of_notMem (a := j)]
      · congr 1
        ext q
        simp only [Finset.mem_insert, Finset.mem_filter, Finset.mem_range]
        constructor
        · rintro (rfl | ⟨q1, q2⟩)
          · exact ⟨by omega, by rw [and_pred _ (by omega)]; exact g3, g2⟩
          · exact ⟨by omega, q2⟩
        · rintro ⟨q1, q2, q3⟩
          by_cases e : q = j
          · exact .inl e
          · right
            refine ⟨?_, q2, q3⟩
            by_contra hge
            rw [and_pred _ (by omega)] at q2
            have := low_between (show 0 < j by omega) (show j < q by omega) (by omega)
            omega
      · simp
    · cases hw) _ 0 _ _ _ ⟨hi2, by simp, by
      have := low_pos (show 0 < i + 1 by omega); simp only; omega, by
      symm
      rw [Finset.card_eq_zero, Finset.filter_eq_empty_iff]
      intro q hq
      have := Finset.mem_range.1 hq
      omega⟩ h1
  simp only [ok.injEq, decide_eq_false_iff_not] at h3 h4
  rw [Nat.min_eq_right (by omega)] at h3
  omega

theorem prodCost_fst {S : Type} (M : MonoidOps S) (t : Segtree S) (l r : Nat) :
    (t.prodCost M l r >>= fun r => ok r.1) = t.prod M l r := by
  unfold Segtree.prodCost Segtree.prod
  simp only [← whileCount_fst, bind_bind_res, ok_bind, bind_ok_res]

theorem prodCost_le {S : Type} {M : MonoidOps S} {t : Segtree S} {l r : Nat} {x : S} {k : Nat}
    (hs : t.size = 2 ^ t.log) (hn : t.n ≤ t.size)
    (h : t.prodCost M l r = ok (x, k)) : k ≤ t.log + 1 := by
  unfold Segtree.prodCost at h
  obtain ⟨_, ha, h⟩ := bind_eq_ok.1 h
  obtain ⟨⟨⟨l', r', sl, sr⟩, k'⟩, h1, h2⟩ := bind_eq_ok.1 h
  obtain ⟨y, -, h2⟩ := bind_eq_ok.1 h2
  cases h2
  have hlr : l ≤ r ∧ r ≤ t.n := by
    by_contra hc
    rw [assert_false hc] at ha; cases ha
  have hsz : 0 < t.size := by rw [hs]; exact Nat.two_pow_pos _
  obtain ⟨h3, -⟩ := whileCount_inv (I := fun m (st : Nat × Nat × S × S) =>
      1 ≤ st.1 ∧ st.2.1 * 2 ^ m ≤ 2 ^ (t.log + 1) ∧ m ≤ t.log + 1) (by
    rintro m ⟨l, r, a, b⟩ ⟨l', r', a', b'⟩ ⟨g1, g2, g3⟩ hc hb
    simp only [ok.injEq, decide_eq_true_eq] at hc g1 g2 g3
    obtain ⟨⟨l1, a1⟩, e1, hb⟩ := bind_eq_ok.1 hb
    obtain ⟨⟨r1, b1⟩, e2, hb⟩ := bind_eq_ok.1 hb
    cases hb
    have hl1 : l ≤ l1 ∧ l1 % 2 = 0 := by
      have := SegP.and_one_ne (l := l)
      split at e1
      · obtain ⟨_, -, e1⟩ := bind_eq_ok.1 e1
        obtain ⟨_, -, e1⟩ := bind_eq_ok.1 e1
        cases e1; omega
      · cases e1; omega
    have hr1 : r1 ≤ r := by
      split at e2
      · obtain ⟨_, -, e2⟩ := bind_eq_ok.1 e2
        obtain ⟨_, -, e2⟩ := bind_eq_ok.1 e2
        cases e2; omega
      · cases e2; omega
    simp only [Nat.shiftRight_eq_div_pow, pow_one]
    refine ⟨by omega, ?_, ?_⟩
    · calc r1 / 2 * 2 ^ (m + 1) = r1 / 2 * 2 * 2 ^ m := by ring
        _ ≤ r * 2 ^ m := Nat.mul_le_mul_right _ (by omega)
        _ ≤ _ := g2
    · by_contra hm
      have hm : m = t.log + 1 := by omega
      subst hm
      have : 2 * 2 ^ (t.log + 1) ≤ r * 2 ^ (t.log + 1) := Nat.mul_le_mul_right _ (by omega)
      have := Nat.two_pow_pos (t.log + 1)
      omega) _ 0 _ _ _ ⟨by simp only; omega, by simp only; rw [pow_succ]; omega, by omega⟩ h1
  simpa using h3.2.2

/-- The rounds are the sizes for which an aligned block fits into the range. -/
theorem prodCost_eq {S : Type} {M : MonoidOps S} {t : Segtree S} {l r : Nat} {x : S} {k : Nat}
    (hs : t.size = 2 ^ t.log) (hn : t.n ≤ t.size)
    (h : t.prodCost M l r = ok (x, k)) (j : Nat) :
    j < k ↔ ∃ x, l ≤ x * 2 ^ j ∧ (x + 1) * 2 ^ j ≤ r := by
  unfold Segtree.prodCost at h
  obtain ⟨_, ha, h⟩ := bind_eq_ok.1 h
  obtain ⟨⟨⟨l', r', sl, sr⟩, k'⟩, h1, h2⟩ := bind_eq_ok.1 h
  obtain ⟨y, -, h2⟩ := bind_eq_ok.1 h2
  cases h2
  have hlr : l ≤ r ∧ r ≤ t.n := by
    by_contra hc
    rw [assert_false hc] at ha; cases ha
  have hsz : 0 < t.size := by rw [hs]; exact Nat.two_pow_pos _
  have hsm : ∀ m, m ≤ t.log → t.size = 2 ^ (t.log - m) * 2 ^ m := by
    intro m hm
    rw [hs, ← pow_add]; congr 1; omega
  obtain ⟨⟨b1, b2, b3, b4, b5, b6⟩, h4⟩ := whileCount_inv (I := fun m (st : Nat × Nat × S × S) =>
      m ≤ t.log + 1 ∧ l + t.size ≤ st.1 * 2 ^ m ∧ st.1 * 2 ^ m < l + t.size + 2 ^ m ∧
      st.2.1 * 2 ^ m ≤ r + t.size ∧ r + t.size < st.2.1 * 2 ^ m + 2 ^ m ∧
      ∀ j, j < m → ∃ x, l ≤ x * 2 ^ j ∧ (x + 1) * 2 ^ j ≤ r) (by
    rintro m ⟨a, b, _, _⟩ ⟨a', b', _, _⟩ ⟨g1, g2, g3, g4, g5, g6⟩ hc hb
    simp only [ok.injEq, decide_eq_true_eq] at hc g1 g2 g3 g4 g5 g6
    obtain ⟨⟨l1, a1⟩, e1, hb⟩ := bind_eq_ok.1 hb
    obtain ⟨⟨r1, c1⟩, e2, hb⟩ := bind_eq_ok.1 hb
    cases hb
    have hl1 : a ≤ l1 ∧ l1 ≤ a + 1 ∧ l1 % 2 = 0 := by
      have := SegP.and_one_ne (l := a)
      split at e1
      · obtain ⟨_, -, e1⟩ := bind_eq_ok.1 e1
        obtain ⟨_, -, e1⟩ := bind_eq_ok.1 e1
        cases e1; omega
      · cases e1; omega
    have hr1 : r1 ≤ b ∧ b ≤ r1 + 1 ∧ r1 % 2 = 0 := by
      have := SegP.and_one_ne (l := b)
      split at e2
      · obtain ⟨_, -, e2⟩ := bind_eq_ok.1 e2
        obtain ⟨_, -, e2⟩ := bind_eq_ok.1 e2
        cases e2; omega
      · cases e2; omega
    have hw := Nat.two_pow_pos m
    have hml : m ≤ t.log := by
      by_contra hm
      have hm : m = t.log + 1 := by omega
      have : (a + 1) * 2 ^ m ≤ b * 2 ^ m := Nat.mul_le_mul_right _ hc
      rw [Nat.add_mul] at this
      have : 2 ^ m = 2 * t.size := by rw [hm, pow_succ, hs, Nat.mul_comm]
      omega
    simp only [Nat.shiftRight_eq_div_pow, pow_one]
    have el : l1 / 2 * 2 ^ (m + 1) = l1 * 2 ^ m := by
      rw [pow_succ, show l1 / 2 * (2 ^ m * 2) = l1 / 2 * 2 * 2 ^ m by ring,
        show l1 / 2 * 2 = l1 by omega]
    have er : r1 / 2 * 2 ^ (m + 1) = r1 * 2 ^ m := by
      rw [pow_succ, show r1 / 2 * (2 ^ m * 2) = r1 / 2 * 2 * 2 ^ m by ring,
        show r1 / 2 * 2 = r1 by omega]
    rw [el, er]
    have m1 : a * 2 ^ m ≤ l1 * 2 ^ m := Nat.mul_le_mul_right _ hl1.1
    have m2 : l1 * 2 ^ m ≤ (a + 1) * 2 ^ m := Nat.mul_le_mul_right _ hl1.2.1
    have m3 : r1 * 2 ^ m ≤ b * 2 ^ m := Nat.mul_le_mul_right _ hr1.1
    have m4 : b * 2 ^ m ≤ (r1 + 1) * 2 ^ m := Nat.mul_le_mul_right _ hr1.2.1
    rw [Nat.add_mul, Nat.one_mul] at m2 m4
    have ew : 2 ^ (m + 1) = 2 * 2 ^ m := by rw [pow_succ, Nat.mul_comm]
    refine ⟨by omega, by omega, by omega, by omega, by omega, ?_⟩
    intro j hj
    rcases Nat.lt_or_ge j m with hj' | hj'
    · exact g6 j hj'
    · have : j = m := by omega
      subst this
      have m5 : (a + 1) * 2 ^ j ≤ b * 2 ^ j := Nat.mul_le_mul_right _ hc
      have e := hsm j hml
      have hq : 2 ^ (t.log - j) ≤ a := by
        by_contra hq
        have : (a + 1) * 2 ^ j ≤ 2 ^ (t.log - j) * 2 ^ j := Nat.mul_le_mul_right _ (by omega)
        rw [Nat.add_mul] at this
        omega
      obtain ⟨q, hq⟩ := Nat.exists_eq_add_of_le hq
      refine ⟨q, ?_, ?_⟩
      · rw [hq, Nat.add_mul] at g2; omega
      · rw [hq] at m5
        rw [Nat.add_mul, Nat.add_mul] at m5
        rw [Nat.add_mul]; omega) _ 0 _ _ _ (by
      simp only [pow_zero]
      exact ⟨by omega, by omega, by omega, by omega, by omega, fun j hj => by omega⟩) h1
  simp only [Nat.zero_add, ok.injEq, decide_eq_false_iff_not] at b1 b2 b3 b4 b5 b6 h4
  refine ⟨b6 j, fun ⟨z, z1, z2⟩ => ?_⟩
  by_contra hj
  -- a smaller aligned block
  obtain ⟨q, hq⟩ := Nat.exists_eq_add_of_le (show k ≤ j by omega)
  have hblk : l ≤ z * 2 ^ q * 2 ^ k ∧ (z * 2 ^ q + 1) * 2 ^ k ≤ r := by
    have e : z * 2 ^ q * 2 ^ k = z * 2 ^ j := by rw [hq, pow_add]; ring
    have h2 : 2 ^ k ≤ 2 ^ j := Nat.pow_le_pow_right (by omega) (by omega)
    rw [Nat.add_mul] at z2 ⊢
    rw [e]
    omega
  generalize z * 2 ^ q = y at hblk
  obtain ⟨y1, y2⟩ := hblk
  rw [Nat.add_mul, Nat.one_mul] at y2
  have hw := Nat.two_pow_pos k
  by_cases hkl : k ≤ t.log
  · have e := hsm k hkl
    have c1 : l' ≤ y + 2 ^ (t.log - k) := by
      by_contra hlt
      have : (y + 2 ^ (t.log - k) + 1) * 2 ^ k ≤ l' * 2 ^ k := Nat.mul_le_mul_right _ (by omega)
      rw [Nat.add_mul, Nat.add_mul] at this
      omega
    have c2 : y + 2 ^ (t.log - k) + 1 ≤ r' := by
      by_contra hlt
      have : r' * 2 ^ k ≤ (y + 2 ^ (t.log - k)) * 2 ^ k := Nat.mul_le_mul_right _ (by omega)
      rw [Nat.add_mul] at this
      omega
    omega
  · have : 2 ^ k = 2 * t.size := by rw [show k = t.log + 1 by omega, pow_succ, hs, Nat.mul_comm]
    omega

/-! ### Euclid -/

theorem euclid_zero (a : Nat) : euclid a 0 = 0 := by unfold euclid; simp
theorem euclid_pos (a : Nat) {b : Nat} (h : 0 < b) : euclid a b = euclid b (a % b) + 1 := by
  conv_lhs => unfold euclid
  rw [dif_neg (by omega)]

/-- Lamé: `n` divisions need a divisor of at least `fib (n + 1)`. -/
theorem lame (a b : Nat) (h : 0 < b) : Nat.fib (euclid a b + 1) ≤ b := by
  induction b using Nat.strong_induction_on generalizing a with
  | _ b ih =>
    rw [euclid_pos a h]
    have hlt := Nat.mod_lt a h
    by_cases h1 : a % b = 0
    · rw [h1, euclid_zero]; exact h
    · have i1 := ih (a % b) hlt b (by omega)
      rw [euclid_pos b (by omega)] at i1 ⊢
      have hle : Nat.fib (euclid (a % b) (b % (a % b)) + 1) ≤ b - a % b := by
        by_cases h2 : b % (a % b) = 0
        · rw [h2, euclid_zero]; simp; omega
        · have hlt2 := Nat.mod_lt b (show 0 < a % b by omega)
          have i2 := ih (b % (a % b)) (by omega) (a % b) (by omega)
          have : b % (a % b) ≤ b - a % b := by
            have h3 := Nat.mod_add_div b (a % b)
            have h4 : 1 ≤ b / (a % b) := (Nat.one_le_div_iff (by omega)).2 (by omega)
            have h5 : a % b * 1 ≤ a % b * (b / (a % b)) := Nat.mul_le_mul_left _ h4
            omega
          omega
      rw [Nat.fib_add_two]
      omega

/-- Consecutive Fibonacci numbers are the worst case. -/
theorem euclid_fib (n : Nat) (hn : 1 ≤ n) : euclid (Nat.fib (n + 2)) (Nat.fib (n + 1)) = n := by
  induction n with
  | zero => omega
  | succ n ih =>
    rw [euclid_pos _ (Nat.fib_pos.2 (by omega))]
    by_cases h : n = 0
    · subst h; simp [euclid_zero, Nat.fib]
    · have hlt : Nat.fib (n + 1) < Nat.fib (n + 1 + 1) := Nat.fib_lt_fib_succ (by omega)
      rw [show n + 1 + 2 = (n + 1) + 2 by rfl, Nat.fib_add_two (n := n + 1), Nat.add_mod_right,
        Nat.mod_eq_of_lt hlt, ih (by omega)]

theorem rem_ok {ty : IntTy} {a b r : Int} (h : ty.rem a b = ok r) :
    b ≠ 0 ∧ r.natAbs = a.natAbs % b.natAbs := by
  unfold IntTy.rem at h
  split at h
  · cases h
  · split at h
    · cases h
    · rename_i hb _
      cases h
      exact ⟨hb, Int.natAbs_tmod a b⟩

theorem gcdCost_fst (ty : IntTy) (a b : Int) :
    (gcdCost ty a b >>= fun r => ok r.1) = gcd ty a b := loopCount_fst _ _ _

theorem gcdLoop_eq {ty : IntTy} (fuel : Nat) : ∀ (a b x : Int) (k : Nat),
    loopCount fuel ((a, b) : Int × Int) (fun (a, b) =>
      if b ≠ 0 then do
        let r ← ty.rem a b
        ok (.next (b, r))
      else ok (.done a)) = ok (x, k) → k = euclid a.natAbs b.natAbs := by
  induction fuel with
  | zero => intro a b x k h; cases h
  | succ fuel ih =>
    intro a b x k h
    simp only [loopCount] at h
    by_cases hb : b = 0
    · simp only [hb, ne_eq, not_true_eq_false, if_false, ok_bind] at h
      cases h; subst hb; simp [euclid_zero]
    · simp only [ne_eq, hb, not_false_eq_true, if_true] at h
      obtain ⟨c, h1, h2⟩ := bind_eq_ok.1 h
      obtain ⟨r, h3, h4⟩ := bind_eq_ok.1 h1
      cases h4
      obtain ⟨⟨y, k'⟩, h5, h6⟩ := bind_eq_ok.1 h2
      cases h6
      rw [ih _ _ _ _ h5, (rem_ok h3).2, ← euclid_pos _ (by omega)]

theorem gcdCost_eq {ty : IntTy} {a b x : Int} {k : Nat} (h : gcdCost ty a b = ok (x, k)) :
    k = euclid a.natAbs b.natAbs := gcdLoop_eq _ _ _ _ _ h

/-- Fuel `n + 1` serves `ex_gcd` as soon as Euclid's algorithm takes at most `n` divisions. -/
theorem exGcdAux_fuel {ty : IntTy} : ∀ (f f' : Nat) (a b : Int),
    euclid a.natAbs b.natAbs < f → euclid a.natAbs b.natAbs < f' →
    exGcdAux ty f a b = exGcdAux ty f' a b := by
  intro f
  induction f with
  | zero => intro f' a b h; omega
  | succ f ih =>
    intro f' a b h1 h2
    obtain ⟨f', rfl⟩ : ∃ k, f' = k + 1 := ⟨f' - 1, by omega⟩
    unfold exGcdAux
    by_cases hb : b = 0
    · simp [hb]
    · simp only [hb, if_false]
      cases hr : ty.rem a b with
      | panic => rfl
      | diverge => rfl
      | ok r =>
        simp only [ok_bind]
        have e := (rem_ok hr).2
        rw [euclid_pos _ (show 0 < b.natAbs by omega), ← e] at h1 h2
        rw [ih f' b r (by omega) (by omega)]

theorem euclid_le (a b : Nat) : euclid a b ≤ b := by
  induction b using Nat.strong_induction_on generalizing a with
  | _ b ih =>
    by_cases h : b = 0
    · subst h; rw [euclid_zero]
    · have := Nat.mod_lt a (show 0 < b by omega)
      have := ih (a % b) this b
      rw [euclid_pos a (by omega)]; omega

/-- With less fuel the recursion is cut off (unless a remainder overflows). -/
theorem exGcdAux_diverge {ty : IntTy} : ∀ (f : Nat) (a b : Int),
    f ≤ euclid a.natAbs b.natAbs → exGcdAux ty f a b = diverge ∨ exGcdAux ty f a b = panic := by
  intro f
  induction f with
  | zero => intro a b _; left; rfl
  | succ f ih =>
    intro a b h
    unfold exGcdAux
    by_cases hb : b = 0
    · subst hb; simp [euclid_zero] at h
    · simp only [hb, if_false]
      cases hr : ty.rem a b with
      | panic => right; rfl
      | diverge => left; rfl
      | ok r =>
        simp only [ok_bind]
        have e := (rem_ok hr).2
        rw [euclid_pos _ (show 0 < b.natAbs by omega), ← e] at h
        rcases ih b r (by omega) with h' | h' <;> rw [h']
        · left; rfl
        · right; rfl

end CostP
end Verif
