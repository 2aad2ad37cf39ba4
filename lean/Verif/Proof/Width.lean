import Verif.Model.Width
import Verif.Prelude.Bits
import Verif.Prelude.NoDiv
import Verif.Prelude.Rls
import Verif.Prelude.SatOr
import Verif.Proof.Util
/-! The functions of `Model/Width.lean`: equal to the ordinary model at 64 bits; `lg`, the sparse table and the Fenwick
tree at 32 bits. -/
namespace Verif.WidthP
open Res Model

/-! ### `lg` -/

theorem lg64 (i : Nat) : Width.lg 64 i = lg i := rfl

theorem lg_at {w i : Nat} (hw : w ≤ 64) (h0 : 0 < w) (hi : i < 2 ^ w) :
    Width.lg w i = if 64 - w + bitLen i = 0 then .panic else ok (64 - w + bitLen i - 1) := by
  have hb : bitLen i ≤ w := bitLen_le_iff.2 hi
  have e : leadingZeros w i = w - bitLen i := rfl
  simp only [Width.lg, e, subU, show (1 : Nat) ≤ 64 by decide, if_true, ok_bind]
  split
  · rw [if_neg (by omega)]; congr 1; omega
  · rw [if_pos (by omega)]

/-! ### Loops with equal bodies -/

theorem forRange_congr {σ : Type} {f f' : Nat → σ → Res σ} {lo hi : Nat} {s : σ}
    (h : ∀ i s, lo ≤ i → i < hi → f i s = f' i s) : forRange lo hi s f = forRange lo hi s f' := by
  unfold forRange
  have : ∀ cnt i s, lo ≤ i → i + cnt ≤ max lo hi → forCount cnt i s f = forCount cnt i s f' := by
    intro cnt
    induction cnt with
    | zero => intros; rfl
    | succ cnt ih =>
      intro i s h1 h2
      show f i s >>= _ = f' i s >>= _
      rw [h i s h1 (by omega)]
      congr 1; funext s'
      exact ih (i + 1) s' (by omega) (by omega)
  exact this _ _ _ (Nat.le_refl _) (by omega)

theorem forRangeRev_congr {σ : Type} {f f' : Nat → σ → Res σ} (I : σ → Prop) {lo hi : Nat} {s : σ} (hs : I s)
    (h : ∀ i s, I s → lo ≤ i → i < hi → f i s = f' i s) (hI : ∀ i s s', I s → f' i s = ok s' → I s') :
    forRangeRev lo hi s f = forRangeRev lo hi s f' := by
  unfold forRangeRev
  have : ∀ cnt s, I s → lo + cnt ≤ max lo hi → forRevCount cnt lo s f = forRevCount cnt lo s f' := by
    intro cnt
    induction cnt with
    | zero => intros; rfl
    | succ cnt ih =>
      intro s hs h2
      show f (lo + cnt) s >>= _ = f' (lo + cnt) s >>= _
      rw [h _ s hs (by omega) (by omega)]
      cases e : f' (lo + cnt) s with
      | ok s' => exact ih s' (hI _ _ _ hs e) (by omega)
      | panic => rfl
      | diverge => rfl
  exact this _ _ hs (by omega)

theorem whileLoop_eq {σ : Type} {c : σ → Res Bool} {f f' : σ → Res σ} (I : σ → Prop)
    (h : ∀ s, I s → c s = ok true → f s = f' s) (hI : ∀ s s', I s → f' s = ok s' → I s') :
    ∀ (k : Nat) (s : σ), I s → whileLoop k s c f = whileLoop k s c f'
  | 0, _, _ => rfl
  | k + 1, s, hs => by
    unfold whileLoop
    cases hc : c s with
    | panic => rfl
    | diverge => rfl
    | ok b =>
      simp only [ok_bind]
      cases b with
      | false => rfl
      | true =>
        simp only [if_true]
        rw [h s hs hc]
        cases e : f' s with
        | ok s' => exact whileLoop_eq I h hI k s' (hI _ _ hs e)
        | panic => rfl
        | diverge => rfl

/-! ### Fenwick tree -/

theorem and_wneg_at {w : Nat} (i : Nat) (h0 : 0 < i) (h : i < 2 ^ w) : i &&& wnegU w i = low i := by
  have hw : wnegU w i = 2 ^ w - ((i - 1) + 1) := by
    unfold wnegU
    rw [Nat.mod_eq_of_lt h, Nat.mod_eq_of_lt (by omega)]; congr 1; omega
  obtain ⟨q, k, rfl⟩ := exists_odd i h0
  rw [low_odd_mul, hw]
  have hk : k < w := by
    apply Nat.lt_of_not_le; intro hle
    have h1 : 2 ^ w ≤ 2 ^ k := Nat.pow_le_pow_right (by omega) hle
    have h2 : 2 ^ k ≤ (2 * q + 1) * 2 ^ k := Nat.le_mul_of_pos_left _ (by omega)
    omega
  apply Nat.eq_of_testBit_eq
  intro t
  rw [Nat.testBit_and, Nat.testBit_two_pow_sub_succ (by omega), testBit_odd_mul,
    testBit_odd_mul_pred, Nat.testBit_two_pow]
  rcases Nat.lt_trichotomy t k with h | h | h
  · have h1 : ¬ t = k := by omega
    have h2 : ¬ k < t := by omega
    have h3 : ¬ k = t := by omega
    simp [h1, h2, h3]
  · subst h; simp [hk]
  · have h1 : ¬ t = k := by omega
    have h2 : ¬ t < k := by omega
    have h3 : ¬ k = t := by omega
    simp [h1, h2, h3]
    exact fun a b _ => ⟨a, b⟩

/-- `i + (i & i.wrapping_neg())` is the same at both widths. -/
theorem next_at {w i : Nat} (hw : w ≤ 64) (h0 : 0 < i) (h : i + i < 2 ^ w) :
    addU w i (i &&& wnegU w i) = addU 64 i (i &&& wnegU 64 i) ∧
      addU 64 i (i &&& wnegU 64 i) = ok (i + low i) := by
  have hp : (2 : Nat) ^ w ≤ 2 ^ 64 := Nat.pow_le_pow_right (by omega) hw
  have hl := low_le i
  rw [and_wneg_at i h0 (by omega), and_wneg_at i h0 (by omega), addU_of_lt (by omega), addU_of_lt (by omega)]
  exact ⟨rfl, rfl⟩

variable {T U : Type}

theorem fenwick_from {w : Nat} (hw : w ≤ 64) (add : T → T → Res T) (zero : T) (a : List T)
    (h : a.length + a.length < 2 ^ w) : Width.Fenwick.from w add zero a = Fenwick.from add zero a := by
  unfold Width.Fenwick.from Fenwick.from
  simp only
  rw [forRange_congr]
  intro i ary h1 h2
  rw [(next_at hw (by omega) (by omega)).1]

theorem fenwick_add {w : Nat} (hw : w ≤ 64) (add : T → U → Res T) (t : Fenwick T) (i : Nat) (val : U)
    (h : t.n + t.n < 2 ^ w) (hi : i + 1 < 2 ^ w) : Width.Fenwick.addAt w add t i val = Fenwick.addAt add t i val := by
  have hp : (2 : Nat) ^ w ≤ 2 ^ 64 := Nat.pow_le_pow_right (by omega) hw
  unfold Width.Fenwick.addAt Fenwick.addAt
  rw [addU_of_lt hi, addU_of_lt (w := 64) (by omega)]
  simp only [ok_bind]
  rw [whileLoop_eq (I := fun st : Nat × List T => 0 < st.1)]
  · rintro ⟨j, ary⟩ hj hc
    have hjn : j ≤ t.n := by simpa using hc
    simp only at hj
    simp only [(next_at hw hj (by omega)).1]
  · rintro ⟨j, ary⟩ ⟨j', ary'⟩ hj hc
    simp only at hj ⊢
    obtain ⟨x, -, hc⟩ := bind_ok_inv hc
    obtain ⟨s, -, hc⟩ := bind_ok_inv hc
    obtain ⟨ary1, -, hc⟩ := bind_ok_inv hc
    obtain ⟨j1, e, hc⟩ := bind_ok_inv hc
    unfold addU at e
    split at e
    · cases e; cases hc; omega
    · cases e
  · show 0 < i + 1
    omega

theorem fenwick_partition {w : Nat} (hw : w ≤ 64) (h0 : 0 < w) (add : T → T → Res T) (zero : T) (t : Fenwick T)
    (pred : T → Bool) (h : t.n + t.n < 2 ^ w) :
    Width.Fenwick.partitionPoint w add zero t pred = Fenwick.partitionPoint add zero t pred := by
  have hp : (2 : Nat) ^ w ≤ 2 ^ 64 := Nat.pow_le_pow_right (by omega) hw
  have hbw : bitLen t.n ≤ w := bitLen_le_iff.2 (by omega)
  unfold Width.Fenwick.partitionPoint Fenwick.partitionPoint
  rw [subU_of_le (by omega), ok_bind]
  have e1 : subU (w - 1) (leadingZeros w t.n) = subU (usizeBits - 1) (leadingZeros usizeBits t.n) := by
    show subU (w - 1) (w - bitLen t.n) = subU (64 - 1) (64 - bitLen t.n)
    unfold subU
    by_cases hb : bitLen t.n = 0
    · rw [if_neg (by omega), if_neg (by omega)]
    · rw [if_pos (by omega), if_pos (by omega)]; congr 1; omega
  rw [e1]
  cases e2 : subU (usizeBits - 1) (leadingZeros usizeBits t.n) with
  | panic => rfl
  | diverge => rfl
  | ok hi =>
    have hhi : bitLen t.n ≠ 0 ∧ hi + 1 = bitLen t.n := by
      have e2 : subU (64 - 1) (64 - bitLen t.n) = ok hi := e2
      unfold subU at e2
      split at e2
      · cases e2; omega
      · cases e2
    simp only [ok_bind]
    rw [forRangeRev_congr (I := fun st : Nat × T => st.1 ≤ t.n)]
    · exact Nat.zero_le _
    · rintro i ⟨pos, sum⟩ hpos - hi'
      simp only at hpos
      have h2 : 2 ^ i ≤ t.n := lt_bitLen_iff.1 (by omega)
      have hsh : (1 : Nat) <<< i = 2 ^ i := Nat.one_shiftLeft i
      have e3 : Width.shl1 w i = ok (1 <<< i) := if_pos (by omega)
      simp only [e3, ok_bind, hsh]
      rw [addU_of_lt (w := w) (by omega), addU_of_lt (w := 64) (by omega)]
    · rintro i ⟨pos, sum⟩ ⟨pos', sum'⟩ hpos he
      simp only at hpos he ⊢
      obtain ⟨nx, -, he⟩ := bind_ok_inv he
      obtain ⟨b, e4, he⟩ := bind_ok_inv he
      by_cases hn : nx ≤ t.n
      · split at he
        · obtain ⟨x, -, he⟩ := bind_ok_inv he
          obtain ⟨s, -, he⟩ := bind_ok_inv he
          cases he; exact hn
        · cases he; exact hpos
      · rw [if_neg hn] at e4
        cases e4
        simp only [Bool.false_eq_true, if_false] at he
        cases he; exact hpos

/-! ### Sparse table -/

theorem satOr_nd {α : Type} {x : Res α} (h : x ≠ .diverge) : SatOr True x (fun _ => True) := by
  cases x with
  | ok a => exact satOr_ok.2 trivial
  | panic => exact satOr_panic trivial
  | diverge => exact absurd rfl h

theorem sparse64 (v : List T) (init : T) (op : T → T → Res T) (h : v.length < 2 ^ 64) :
    Width.SparseTable.from 64 v init op = SparseTable.from v init op := by
  unfold Width.SparseTable.from SparseTable.from
  simp only [lg64]
  by_cases h0 : v.length = 0
  · rw [h0, lg_zero]; rfl
  have hk : Nat.log2 v.length < 64 := (Nat.log2_lt h0).2 h
  simp only [lg_eq h0 h, ok_bind]
  congr 1
  funext data
  rw [forRange_congr]
  intro c data h1 h2
  have e : Width.shl1 64 c = ok (1 <<< c) := if_pos (by omega)
  have e' : Width.shl1 64 (c - 1) = ok (1 <<< (c - 1)) := if_pos (by omega)
  simp only [e, e', ok_bind]

theorem lifting_dfs64 (fuel : Nat) : ∀ (g : List (List Nat)) (u p : Nat) (t : BinaryLifting) (τ : Nat),
    Width.BinaryLifting.dfs 64 fuel g u p t τ = BinaryLifting.dfs fuel g u p t τ := by
  induction fuel with
  | zero => intros; rfl
  | succ fuel ih =>
    intro g u p t τ
    unfold Width.BinaryLifting.dfs BinaryLifting.dfs
    simp only [ih]

theorem lifting64 (g : List (List Nat)) (root : Nat) :
    Width.BinaryLifting.from 64 g root = BinaryLifting.from g root := by
  unfold Width.BinaryLifting.from BinaryLifting.from
  simp only [lg64, lifting_dfs64]

/-- With a table of more than `log2 n + 1` rows the debug build panics. -/
theorem sparse_panics {w : Nat} (v : List T) (init : T) (op : T → T → Res T) (hnd : ∀ a b, op a b ≠ .diverge)
    {k : Nat} (hk : Width.lg w v.length = ok k) (hc : bitLen v.length ≤ k) (hk1 : 1 ≤ k) :
    Width.SparseTable.from w v init op = .panic := by
  refine SatOr.panic (b := True) (P := fun _ => False) ?_ (fun _ h => h)
  unfold Width.SparseTable.from
  simp only [hk, ok_bind]
  refine satOr_bind ((satOr_nd nd_upd).mono fun data _ => ?_)
  refine satOr_bind ((forRange_satOr (I := fun c _ => c ≤ max (bitLen v.length) 1) (by omega) (by omega) ?_).mono ?_)
  · intro c data h1 h2 h3
    refine satOr_bind ?_
    unfold Width.shl1
    split
    · simp only [satOr_ok]
      refine satOr_bind ?_
      unfold subU
      split
      · rename_i hle
        rw [Nat.one_shiftLeft] at hle
        have := lt_bitLen_iff.2 hle
        simp only [satOr_ok]
        refine (satOr_nd (nd_forRange fun i data => ?_)).mono fun _ _ => by omega
        refine nd_bind nd_idx fun row => nd_bind nd_idx fun x => nd_bind ?_ fun sh => nd_bind nd_idx fun y =>
          nd_bind (hnd _ _) fun z => nd_bind nd_idx fun cur => nd_bind nd_upd fun cur => nd_upd
        split
        · exact nd_ok
        · exact nd_panic
      · exact satOr_panic trivial
    · exact satOr_panic trivial
  · intro data h
    omega

/-- The release build: every row has `n` entries, and the first row that does not fit is walked until the index leaves
it. -/
theorem sparse_release_panics {w : Nat} (v : List T) (init : T) (op : T → T → Res T) (hnd : ∀ a b, op a b ≠ .diverge)
    {k : Nat} (hk : Width.lg w v.length = ok k) (hc : bitLen v.length ≤ k) (hk1 : 1 ≤ k)
    (hw : bitLen v.length < w) (hw1 : 1 < w) : Width.SparseTable.fromRelease w v init op = .panic := by
  refine SatOr.panic (b := True) (P := fun _ => False) ?_ (fun _ h => h)
  unfold Width.SparseTable.fromRelease
  simp only [hk, ok_bind]
  rw [upd_of_lt (by simp)]
  simp only [ok_bind]
  refine satOr_bind ((forRange_satOr (I := fun c (data : List (List T)) => c ≤ max (bitLen v.length) 1 ∧
    ∀ row ∈ data, row.length = v.length) (by omega) ⟨by omega, ?_⟩ ?_).mono ?_)
  · intro row hr
    rcases List.mem_or_eq_of_mem_set hr with hr | rfl
    · rw [List.eq_of_mem_replicate hr]; simp
    · rfl
  · rintro c data h1 h2 ⟨h3, h4⟩
    have hcw : c % w = c := Nat.mod_eq_of_lt (by omega)
    have hpw : (2 : Nat) ^ c < 2 ^ w := Nat.pow_lt_pow_right (by omega) (by omega)
    have hvw : v.length < 2 ^ w := bitLen_le_iff.1 (by omega)
    simp only [hcw, Nat.one_shiftLeft]
    by_cases hcb : c < bitLen v.length
    · refine (forRange_satOr (I := fun _ (data : List (List T)) => ∀ row ∈ data, row.length = v.length) (by omega)
        h4 ?_).mono fun data h => ⟨by omega, h⟩
      intro i data _ _ hd
      refine satOr_bind ((satOr_nd nd_idx).mono fun row _ => ?_)
      refine satOr_bind ((satOr_nd nd_idx).mono fun x _ => ?_)
      refine satOr_bind ((satOr_nd nd_idx).mono fun y _ => ?_)
      refine satOr_bind ((satOr_nd (hnd _ _)).mono fun z _ => ?_)
      cases hcur : idx data c with
      | panic => exact satOr_panic trivial
      | diverge => exact absurd hcur nd_idx
      | ok cur =>
        simp only [ok_bind]
        by_cases hi : i < cur.length
        · rw [upd_of_lt hi, ok_bind]
          by_cases hcd : c < data.length
          · rw [upd_of_lt hcd, satOr_ok]
            intro row hr
            rcases List.mem_or_eq_of_mem_set hr with hr | rfl
            · exact hd row hr
            · rw [List.length_set]
              refine hd cur ?_
              unfold idx at hcur
              split at hcur
              · rename_i e; cases hcur; exact List.mem_of_getElem? e
              · cases hcur
          · rw [upd_panic (by omega)]; exact satOr_panic trivial
        · rw [upd_panic (by omega)]; exact satOr_panic trivial
    · -- the first row that does not fit
      have hbig : v.length < 2 ^ c := bitLen_le_iff.1 (by omega)
      have hb : wsubU w v.length (2 ^ c) = v.length + (2 ^ w - 2 ^ c) := by
        unfold wsubU
        rw [Nat.mod_eq_of_lt hpw, Nat.mod_eq_of_lt (by omega)]
      rw [hb]
      refine (forRange_satOr (I := fun i (data : List (List T)) => i ≤ v.length ∧
        ∀ row ∈ data, row.length = v.length) (by omega) ⟨by omega, h4⟩ ?_).mono fun data h => by omega
      rintro i data _ _ ⟨hi, hd⟩
      cases hrow : idx data (c - 1) with
      | panic => exact satOr_panic trivial
      | diverge => exact absurd hrow nd_idx
      | ok row =>
        simp only [ok_bind]
        have hrl : row.length = v.length := by
          refine hd row ?_
          unfold idx at hrow
          split at hrow
          · rename_i e; cases hrow; exact List.mem_of_getElem? e
          · cases hrow
        by_cases hin : i < v.length
        swap
        · rw [idx_panic (by omega)]; exact satOr_panic trivial
        refine satOr_bind ((satOr_nd nd_idx).mono fun x _ => ?_)
        refine satOr_bind ((satOr_nd nd_idx).mono fun y _ => ?_)
        refine satOr_bind ((satOr_nd (hnd _ _)).mono fun z _ => ?_)
        cases hcur : idx data c with
        | panic => exact satOr_panic trivial
        | diverge => exact absurd hcur nd_idx
        | ok cur =>
          simp only [ok_bind]
          by_cases hi : i < cur.length
          · rw [upd_of_lt hi, ok_bind]
            by_cases hcd : c < data.length
            · rw [upd_of_lt hcd, satOr_ok]
              refine ⟨by omega, ?_⟩
              intro row hr
              rcases List.mem_or_eq_of_mem_set hr with hr | rfl
              · exact hd row hr
              · rw [List.length_set]
                refine hd cur ?_
                unfold idx at hcur
                split at hcur
                · rename_i e; cases hcur; exact List.mem_of_getElem? e
                · cases hcur
            · rw [upd_panic (by omega)]; exact satOr_panic trivial
          · rw [upd_panic (by omega)]; exact satOr_panic trivial
  · rintro data ⟨h, -⟩
    omega

end Verif.WidthP
