import Verif.Props.SparseTable
import Mathlib.Data.List.Forall2
import Mathlib.Tactic.Common
/-! C73: the sparse table with any operation. -/
namespace Verif.Props
open Res Model Spec SparseP

variable {T A : Type}

/-- C73: for any operation that returns or panics, `from` panics if some product of `2 ^ c` consecutive elements of the
slice panics, otherwise it returns. -/
theorem C73_from (op : T → T → Res T) (hop : ∀ x y, op x y ≠ .diverge) (v : List T) (init : T) (h0 : v ≠ [])
    (hn : v.length < 2 ^ 64) :
    ((∃ c i, i + 2 ^ c ≤ v.length ∧ block op v c i = .panic) → SparseTable.from v init op = .panic) ∧
    ((¬ ∃ c i, i + 2 ^ c ≤ v.length ∧ block op v c i = .panic) → ∃ t, SparseTable.from v init op = ok t) := by
  have h := from_satOr hop (init := init) h0 hn
  refine ⟨fun hb => h.panic ?_, fun hb => ?_⟩
  · rintro t ⟨-, ht⟩
    obtain ⟨c, i, hi, e⟩ := hb
    have hp := Nat.two_pow_pos c
    obtain ⟨row, -, -, h3⟩ := ht c (by omega)
    obtain ⟨x, -, h4⟩ := h3 i (by omega)
    rw [if_pos hi, e] at h4
    cases h4
  · obtain ⟨t, e, -⟩ := h.sat hb
    exact ⟨t, e⟩

/-- C73: what `get(l, r)` does for any operation and all arguments, also beyond the end of the slice: with `c` the
logarithm of `r - l`, it combines the products of the `2 ^ c` elements from `l` on and before `r`; a product that would
end beyond the slice is replaced by `init`. It panics for `l ≥ r` and if `c` or one of the two indices is too large. -/
theorem C73_get (op : T → T → Res T) (hop : ∀ x y, op x y ≠ .diverge) (v : List T) (init : T) (h0 : v ≠ [])
    (hn : v.length < 2 ^ 64) (t : SparseTable T) (ht : SparseTable.from v init op = ok t) (l r : Nat) (hr : r < 2 ^ 64) :
    t.get op l r =
      if l < r ∧ Nat.log2 (r - l) ≤ Nat.log2 v.length ∧ l < v.length ∧ r - 2 ^ Nat.log2 (r - l) < v.length then do
        let x ← cell op v init (Nat.log2 (r - l)) l
        let y ← cell op v init (Nat.log2 (r - l)) (r - 2 ^ Nat.log2 (r - l))
        op x y
      else .panic := by
  have hlen : v.length ≠ 0 := by simpa using h0
  have h := from_satOr hop (init := init) h0 hn
  rw [ht, satOr_ok] at h
  obtain ⟨hd, hrow⟩ := h
  unfold SparseTable.get
  by_cases hlr : l < r
  swap
  · rw [assert_false hlr, if_neg (fun h => hlr h.1)]; rfl
  rw [assert_true hlr, ok_bind, lg_eq (by omega) (by omega), ok_bind]
  generalize hc : Nat.log2 (r - l) = c
  have hpr : 2 ^ c ≤ r - l := by rw [← hc]; exact Nat.log2_self_le (by omega)
  by_cases hcn : c ≤ Nat.log2 v.length
  swap
  · rw [idx_panic (by omega), if_neg (fun h => hcn h.2.1)]; rfl
  obtain ⟨row, h1, h2, h3⟩ := hrow c ((Nat.le_log2 hlen).1 hcn)
  rw [idx_of_some h1, ok_bind]
  have hcell : ∀ i, i < v.length → ∃ x, row[i]? = some x ∧ cell op v init c i = ok x := by
    intro i hi
    obtain ⟨x, h4, h5⟩ := h3 i hi
    refine ⟨x, h4, ?_⟩
    unfold cell
    split
    · rw [if_pos (by assumption)] at h5; exact h5
    · rw [if_neg (by assumption)] at h5; rw [h5]
  by_cases hl : l < v.length
  swap
  · rw [idx_panic (by omega), if_neg (fun h => hl h.2.2.1)]; rfl
  obtain ⟨x, h4, h5⟩ := hcell l hl
  rw [idx_of_some h4, ok_bind, Nat.one_shiftLeft, subU_of_le (by omega), ok_bind]
  by_cases hj : r - 2 ^ c < v.length
  swap
  · rw [idx_panic (by omega), if_neg (fun h => hj h.2.2.2)]; rfl
  obtain ⟨y, h6, h7⟩ := hcell _ hj
  rw [idx_of_some h6, ok_bind, if_pos ⟨hlr, hcn, hl, hj⟩, h5, ok_bind, h7, ok_bind]

/-- C73: a query that ends beyond the slice never returns a product of the slice alone: where it does not panic its second
argument is the filler. -/
theorem C73_beyond (op : T → T → Res T) (hop : ∀ x y, op x y ≠ .diverge) (v : List T) (init : T) (h0 : v ≠ [])
    (hn : v.length < 2 ^ 64) (t : SparseTable T) (ht : SparseTable.from v init op = ok t) (l r : Nat) (hr : r < 2 ^ 64)
    (h : v.length < r) : t.get op l r = .panic ∨ ∃ x, t.get op l r = op x init := by
  rw [C73_get op hop v init h0 hn t ht l r hr]
  split
  swap
  · exact .inl rfl
  rename_i hc
  have hpr : 2 ^ Nat.log2 (r - l) ≤ r - l := Nat.log2_self_le (by omega)
  have e : cell op v init (Nat.log2 (r - l)) (r - 2 ^ Nat.log2 (r - l)) = ok init := by
    unfold cell; rw [if_neg (by omega)]
  rw [e]
  cases hx : cell op v init (Nat.log2 (r - l)) l with
  | ok x => exact .inr ⟨x, rfl⟩
  | panic => exact .inl rfl
  | diverge =>
    exfalso
    have hb : ∀ c i, block op v c i ≠ .diverge := by
      intro c
      induction c with
      | zero =>
        intro i h
        unfold block idx at h
        split at h <;> cases h
      | succ c ih =>
        intro i h
        rw [block] at h
        cases h1 : block op v c i with
        | ok x =>
          rw [h1, ok_bind] at h
          cases h2 : block op v c (i + 2 ^ c) with
          | ok y => rw [h2, ok_bind] at h; exact hop x y h
          | panic => rw [h2] at h; cases h
          | diverge => exact ih _ h2
        | panic => rw [h1] at h; cases h
        | diverge => exact ih _ h1
    unfold cell at hx
    split at hx
    · exact hb _ _ hx
    · cases hx

theorem block_rep {R : T → A → Prop} {op : T → T → Res T} {op' : A → A → A}
    (hop : ∀ x y a b, R x a → R y b → op x y = .panic ∨ ∃ z, op x y = ok z ∧ R z (op' a b)) {v : List T} {w : List A}
    (hv : List.Forall₂ R v w) : ∀ c i, i + 2 ^ c ≤ v.length → block op v c i = .panic ∨
      ∃ x a, block op v c i = ok x ∧ block (tot op') w c i = ok a ∧ R x a := by
  intro c
  induction c with
  | zero =>
    intro i hi
    rw [Nat.pow_zero] at hi
    have hw : i < w.length := by rw [← hv.length_eq]; exact hi
    refine .inr ⟨v[i], w[i], ?_, ?_, ?_⟩
    · rw [block, idx_of_some (List.getElem?_eq_getElem hi)]
    · rw [block, idx_of_some (List.getElem?_eq_getElem hw)]
    · exact List.Forall₂.get hv hi hw
  | succ c ih =>
    intro i hi
    rw [Nat.pow_succ] at hi
    simp only [block]
    rcases ih i (by omega) with e | ⟨x, a, e1, e2, h1⟩
    · rw [e]; exact .inl rfl
    rcases ih (i + 2 ^ c) (by omega) with e | ⟨y, b, e3, e4, h2⟩
    · rw [e1, e]; exact .inl rfl
    rw [e1, ok_bind, e3, ok_bind, e2, ok_bind, e4, ok_bind]
    rcases hop x y a b h1 h2 with e | ⟨z, e, h3⟩
    · exact .inl e
    · exact .inr ⟨z, _, e, rfl, h3⟩

/-- C73: let the operation panic at will but be right whenever it returns: its values represent those of an associative
idempotent operation. Then building the table and every query within the slice either panic or represent the left fold
of the range. -/
theorem C73_represents (R : T → A → Prop) (op : T → T → Res T) (op' : A → A → A)
    (hop : ∀ x y a b, R x a → R y b → op x y = .panic ∨ ∃ z, op x y = ok z ∧ R z (op' a b))
    (hnd : ∀ x y, op x y ≠ .diverge)
    (ha : ∀ x y z, op' (op' x y) z = op' x (op' y z)) (hi : ∀ x, op' x x = x) (v : List T) (w : List A)
    (hv : List.Forall₂ R v w) (init : T) (h0 : v ≠ []) (hn : v.length < 2 ^ 64) :
    SparseTable.from v init op = .panic ∨ ∃ t, SparseTable.from v init op = ok t ∧
      ∀ l r, l < r → r ≤ v.length → ∀ a as, (w.drop l).take (r - l) = a :: as →
        t.get op l r = .panic ∨ ∃ z, t.get op l r = ok z ∧ R z (as.foldl op' a) := by
  have hlen : v.length = w.length := hv.length_eq
  have hw0 : w ≠ [] := by rintro rfl; exact h0 (List.length_eq_zero_iff.1 hlen)
  by_cases hb : ∃ c i, i + 2 ^ c ≤ v.length ∧ block op v c i = .panic
  · exact .inl ((C73_from op hnd v init h0 hn).1 hb)
  obtain ⟨t, ht⟩ := (C73_from op hnd v init h0 hn).2 hb
  refine .inr ⟨t, ht, fun l r hlr hr a as hs => ?_⟩
  obtain ⟨a0, -⟩ : ∃ a0, a0 ∈ w := List.exists_mem_of_ne_nil w hw0
  have hf : ∀ i, i < w.length → w[i]? = some (w.getD i a0) := by intro i h; simp [h]
  rw [C73_get op hnd v init h0 hn t ht l r (by omega)]
  have hpr : 2 ^ Nat.log2 (r - l) ≤ r - l := Nat.log2_self_le (by omega)
  have hp2 := Nat.lt_log2_self (n := r - l)
  rw [Nat.pow_succ] at hp2
  have hp := Nat.two_pow_pos (Nat.log2 (r - l))
  rw [if_pos ⟨hlr, (Nat.le_log2 (by omega)).2 (by omega), by omega, by omega⟩]
  generalize Nat.log2 (r - l) = c at *
  unfold cell
  rw [if_pos (by omega), if_pos (by omega)]
  rcases block_rep hop hv c l (by omega) with e | ⟨x, p, e1, e2, h1⟩
  · rw [e]; exact .inl rfl
  rcases block_rep hop hv c (r - 2 ^ c) (by omega) with e | ⟨y, q, e3, e4, h2⟩
  · rw [e1, e]; exact .inl rfl
  rw [e1, ok_bind, e3, ok_bind]
  rcases hop x y p q h1 h2 with e | ⟨z, e, h3⟩
  · exact .inl e
  refine .inr ⟨z, e, ?_⟩
  rw [block_tot ha hf c l (by omega)] at e2
  rw [block_tot ha hf c _ (by omega)] at e4
  cases e2; cases e4
  have := fold_overlap ha hi (w.getD · a0) l (2 ^ c - 1) (r - l - 2 ^ c) (by omega)
  rw [show l + (r - l - 2 ^ c) = r - 2 ^ c by omega] at this
  rw [this, show 2 ^ c - 1 + (r - l - 2 ^ c) = r - l - 1 by omega,
    fold_list hf (by omega) (by rw [show r - l - 1 + 1 = r - l by omega]; exact hs)] at h3
  exact h3

/-- Every table with this operation answers every query by the left fold of the range. -/
def TableRight (op : T → T → T) : Prop :=
  ∀ (v : List T) (init : T), v ≠ [] → v.length < 2 ^ 64 →
    ∃ t, SparseTable.from v init (fun x y => ok (op x y)) = ok t ∧
      ∀ l r, l < r → r ≤ v.length → ∀ x xs, (v.drop l).take (r - l) = x :: xs →
        t.get (fun x y => ok (op x y)) l r = ok (xs.foldl op x)

/-- C73: the hypotheses of C09 are necessary: the table is right for an operation exactly if it is associative and
idempotent. -/
theorem C73_right_iff (op : T → T → T) :
    TableRight op ↔ (∀ x y z, op (op x y) z = op x (op y z)) ∧ ∀ x, op x x = x := by
  refine ⟨fun h => ?_, fun h v init h0 hn => C09_range_fold op h.1 h.2 v init h0 hn⟩
  have key : ∀ (v : List T) (x : T) (xs : List T), v = x :: xs → v.length < 2 ^ 64 →
      (do let a ← cell (fun x y => ok (op x y)) v x (Nat.log2 v.length) 0
          let b ← cell (fun x y => ok (op x y)) v x (Nat.log2 v.length) (v.length - 2 ^ Nat.log2 v.length)
          ok (op a b)) = ok (xs.foldl op x) := by
    rintro v x xs rfl hn
    obtain ⟨t, e, ht⟩ := h (x :: xs) x (by simp) hn
    have e2 := ht 0 (x :: xs).length (by simp) (Nat.le_refl _) x xs (by simp)
    rw [C73_get _ (fun x y h => by cases h) _ x (by simp) hn t e 0 _ hn] at e2
    rw [if_pos] at e2
    · simpa using e2
    · refine ⟨by simp, by simp, by simp, ?_⟩
      have := Nat.two_pow_pos (Nat.log2 ((x :: xs).length - 0))
      simp only [List.length_cons] at this ⊢
      omega
  have hidem : ∀ x, op x x = x := by
    intro x
    have e := key [x] x [] rfl (by simp)
    rw [show Nat.log2 [x].length = 0 from by simp [Nat.log2_def]] at e
    simpa [cell, block, idx] using e
  refine ⟨fun x y z => ?_, hidem⟩
  have h4 := key [x, x, y, z] x [x, y, z] rfl (by simp)
  rw [show Nat.log2 [x, x, y, z].length = 2 from by simp [Nat.log2_def]] at h4
  simp [cell, block, idx, hidem] at h4
  exact h4.symm

/-- Addition of `u8` values: building `[200, 100]` overflows; `[200, 50, 7]` does not, but the overlap counts twice. -/
example : SparseTable.from [200, 100] 0 (addU 8) = .panic ∧
    (do let t ← SparseTable.from [200, 50, 7] 0 (addU 8); t.get (addU 8) 1 2) = ok 100 ∧
    (do let t ← SparseTable.from [200, 50, 7] 0 (addU 8); t.get (addU 8) 0 3) = .panic ∧
    (do let t ← SparseTable.from [20, 50, 7] 0 (addU 8); t.get (addU 8) 0 3) = ok (20 + 50 + 50 + 7) := by
  decide +kernel

/-- A least common multiple of `u8` values that panics when it does not fit is right whenever it returns. -/
example : ∀ x y a b, x = a → y = b → (fun x y => if Nat.lcm x y < 256 then ok (Nat.lcm x y) else .panic : Nat → Nat → Res Nat) x y
    = .panic ∨ ∃ z, (fun x y => if Nat.lcm x y < 256 then ok (Nat.lcm x y) else .panic : Nat → Nat → Res Nat) x y = ok z ∧
      z = Nat.lcm a b := by
  rintro x y _ _ rfl rfl
  simp only
  split
  · exact .inr ⟨_, rfl, rfl⟩
  · exact .inl rfl

end Verif.Props
