import Mathlib.Algebra.BigOperators.Group.List.Basic
/-! Products of contiguous ranges (proof helper). -/
namespace Verif

/-- `c lo * c (lo+1) * … * c (hi-1)`. -/
@[to_additive rsum /-- `c lo + c (lo+1) + … + c (hi-1)`. -/]
def rprod {S} [Monoid S] (c : ℕ → S) (lo hi : ℕ) : S := ((List.range' lo (hi - lo)).map c).prod

variable {S : Type*} [Monoid S] {c c' : ℕ → S} {lo mid hi : ℕ}

@[to_additive rsum_of_le]
theorem rprod_of_le (h : hi ≤ lo) : rprod c lo hi = 1 := by
  simp [rprod, Nat.sub_eq_zero_of_le h]

@[to_additive (attr := simp) rsum_self]
theorem rprod_self : rprod c lo lo = 1 := rprod_of_le (Nat.le_refl _)

@[to_additive (attr := simp) rsum_single]
theorem rprod_single : rprod c lo (lo + 1) = c lo := by simp [rprod]

@[to_additive rsum_split]
theorem rprod_split (h1 : lo ≤ mid) (h2 : mid ≤ hi) :
    rprod c lo mid * rprod c mid hi = rprod c lo hi := by
  unfold rprod
  rw [← List.prod_append, ← List.map_append]
  congr 2
  have := List.range'_append (s := lo) (m := mid - lo) (n := hi - mid) (step := 1)
  rw [show lo + 1 * (mid - lo) = mid by omega,
    show mid - lo + (hi - mid) = hi - lo by omega] at this
  exact this

@[to_additive rsum_congr]
theorem rprod_congr (h : ∀ i, lo ≤ i → i < hi → c i = c' i) : rprod c lo hi = rprod c' lo hi := by
  unfold rprod
  congr 1
  apply List.map_congr_left
  intro i hi'
  rw [List.mem_range'_1] at hi'
  exact h i (by omega) (by omega)

@[to_additive rsum_succ]
theorem rprod_succ (h : lo ≤ hi) : rprod c lo (hi + 1) = rprod c lo hi * c hi := by
  rw [← rprod_split h (Nat.le_succ hi), rprod_single]

@[to_additive rsum_cons]
theorem rprod_cons (h : lo < hi) : rprod c lo hi = c lo * rprod c (lo + 1) hi := by
  rw [← rprod_split (Nat.le_succ lo) h, rprod_single]

@[to_additive rsum_zero]
theorem rprod_one (h : ∀ i, lo ≤ i → i < hi → c i = 1) : rprod c lo hi = 1 := by
  rw [rprod_congr (c' := fun _ => 1) h]; simp [rprod]

@[to_additive rsum_shift]
theorem rprod_shift (k : ℕ) : rprod c (lo + k) (hi + k) = rprod (fun i => c (i + k)) lo hi := by
  unfold rprod
  rw [show hi + k - (lo + k) = hi - lo by omega, List.range'_eq_map_range, List.range'_eq_map_range]
  simp only [List.map_map]
  congr 2
  funext i; simp [Nat.add_right_comm]

@[to_additive rsum_list]
theorem rprod_list (a : List S) (lo hi : ℕ) :
    rprod (fun i => a.getD i 1) lo hi = ((a.take hi).drop lo).prod := by
  by_cases h : hi ≤ lo
  · rw [rprod_of_le h]
    rw [List.drop_of_length_le (by rw [List.length_take]; omega)]; rfl
  · obtain ⟨d, rfl⟩ : ∃ d, hi = lo + d := ⟨hi - lo, by omega⟩
    clear h
    induction d with
    | zero => rw [rprod_of_le (by omega), List.drop_of_length_le (by rw [List.length_take]; omega)]; rfl
    | succ d ih =>
      rw [← Nat.add_assoc, rprod_succ (by omega), ih]
      by_cases hl : lo + d < a.length
      · rw [List.take_succ_eq_append_getElem hl, List.drop_append]
        simp only [List.length_take, Nat.min_eq_left (Nat.le_of_lt hl)]
        rw [show lo - (lo + d) = 0 by omega]
        simp [hl]
      · rw [List.take_of_length_le (i := lo + d) (by omega),
          List.take_of_length_le (i := lo + d + 1) (by omega)]
        simp [List.getElem?_eq_none (show a.length ≤ lo + d by omega)]

end Verif
