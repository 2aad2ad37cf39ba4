import Verif.Model.SparseTable
import Verif.Spec.SparseTable
import Verif.Proof.Util
import Verif.Prelude.SatOr
namespace Verif.SparseP
open Res Model Spec

variable {T : Type} {op : T → T → T}

/-- fold of the `k + 1` values `c lo, …, c (lo + k)`. -/
def fold (op : T → T → T) (c : Nat → T) (lo : Nat) : Nat → T
  | 0 => c lo
  | k + 1 => op (fold op c lo k) (c (lo + k + 1))

theorem fold_split (ha : ∀ x y z, op (op x y) z = op x (op y z)) (c : Nat → T) (lo a b : Nat) :
    op (fold op c lo a) (fold op c (lo + a + 1) b) = fold op c lo (a + b + 1) := by
  induction b with
  | zero => rfl
  | succ b ih =>
    rw [fold, ← ha, ih]
    show _ = op (fold op c lo (a + b + 1)) _
    congr 2
    omega

/-- Two overlapping (or touching) windows of the same width cover the range. -/
theorem fold_overlap (ha : ∀ x y z, op (op x y) z = op x (op y z)) (hi : ∀ x, op x x = x)
    (c : Nat → T) (l w d : Nat) (hd : d ≤ w + 1) :
    op (fold op c l w) (fold op c (l + d) w) = fold op c l (w + d) := by
  rcases Nat.eq_zero_or_pos d with rfl | hp
  · exact hi _
  · by_cases h : d = w + 1
    · subst h
      have := fold_split ha c l w w
      rw [show l + (w + 1) = l + w + 1 by omega, this]; congr 1
    · -- A = [l, l+d), B = [l+d, l+w], C = (l+w, l+d+w]
      have e1 : fold op c l w = op (fold op c l (d - 1)) (fold op c (l + d) (w - d)) := by
        have := fold_split ha c l (d - 1) (w - d)
        rw [show l + (d - 1) + 1 = l + d by omega, show d - 1 + (w - d) + 1 = w by omega] at this
        exact this.symm
      have e2 : fold op c (l + d) w =
          op (fold op c (l + d) (w - d)) (fold op c (l + w + 1) (d - 1)) := by
        have := fold_split ha c (l + d) (w - d) (d - 1)
        rw [show l + d + (w - d) + 1 = l + w + 1 by omega,
          show w - d + (d - 1) + 1 = w by omega] at this
        exact this.symm
      rw [e2, ← ha]
      have e3 : op (fold op c l w) (fold op c (l + d) (w - d)) = fold op c l w := by
        rw [e1, ha, hi]
      rw [e3]
      have := fold_split ha c l w (d - 1)
      rw [this]; congr 1; omega

/-- Row `c` of the finished table: blocks, and the filler where a block would end beyond the slice. -/
def RowIs (op : T → T → Res T) (v : List T) (init : T) (data : List (List T)) (c : Nat) : Prop :=
  ∃ row, data[c]? = some row ∧ row.length = v.length ∧
    ∀ i, i < v.length → ∃ x, row[i]? = some x ∧ if i + 2 ^ c ≤ v.length then block op v c i = ok x else x = init

section exact
variable {op : T → T → Res T}

theorem from_satOr (hop : ∀ x y, op x y ≠ diverge) {v : List T} {init : T} (h0 : v ≠ []) (hn : v.length < 2 ^ 64) :
    SatOr (∃ c i, i + 2 ^ c ≤ v.length ∧ block op v c i = panic) (SparseTable.from v init op)
      (fun t => t.data.length = Nat.log2 v.length + 1 ∧ ∀ c, 2 ^ c ≤ v.length → RowIs op v init t.data c) := by
  have hlen : v.length ≠ 0 := by simpa using h0
  unfold SparseTable.from
  simp only [lg_eq hlen hn]
  simp only [ok_bind]
  rw [upd_of_lt (by simp), ok_bind]
  refine satOr_bind ((forRange_satOr (I := fun k (data : List (List T)) => data.length = Nat.log2 v.length + 1 ∧
      (∀ c, c < k → RowIs op v init data c) ∧
      (∀ c, k ≤ c → c < Nat.log2 v.length + 1 → data[c]? = some (List.replicate v.length init)))
    (by omega) ?_ ?_).mono ?_)
  · refine ⟨by simp, ?_, ?_⟩
    · intro c hc
      have : c = 0 := by omega
      subst this
      refine ⟨v, by simp, rfl, fun i hi => ⟨v[i], by simp [hi], ?_⟩⟩
      rw [if_pos (by rw [Nat.pow_zero]; exact hi), block, idx_of_some (List.getElem?_eq_getElem hi)]
    · intro c h1 h2
      rw [List.getElem?_set_ne (by omega), List.getElem?_replicate, if_pos h2]
  · rintro c data h1 h2 ⟨hl, hlo, hhi⟩
    have hpow : 2 ^ c ≤ v.length := (Nat.le_log2 hlen).1 (by omega)
    rw [Nat.one_shiftLeft, subU_of_le hpow, ok_bind]
    obtain ⟨prow, p1, p2, p3⟩ := hlo (c - 1) (by omega)
    have hc2 : 2 ^ c = 2 ^ (c - 1) + 2 ^ (c - 1) := by
      rw [← Nat.two_mul, ← Nat.pow_succ']; congr 1; omega
    have hp := Nat.two_pow_pos (c - 1)
    refine (forRange_satOr (I := fun i (d : List (List T)) => d.length = data.length ∧
        (∀ j, j ≠ c → d[j]? = data[j]?) ∧
        ∃ row, d[c]? = some row ∧ row.length = v.length ∧
          (∀ j, j < i → ∃ x, row[j]? = some x ∧ block op v c j = ok x) ∧
          ∀ j, i ≤ j → j < v.length → row[j]? = some init)
      (by omega) ?_ ?_).mono ?_
    · refine ⟨rfl, fun _ _ => rfl, _, hhi c (Nat.le_refl _) h2, by simp, by omega, ?_⟩
      intro j _ hj
      rw [List.getElem?_replicate, if_pos hj]
    · rintro i d - hi ⟨hd, hne, row, r1, r2, r3, r4⟩
      obtain ⟨x, q1, q2⟩ := p3 i (by omega)
      obtain ⟨y, q3, q4⟩ := p3 (i + 2 ^ (c - 1)) (by omega)
      rw [if_pos (by omega)] at q2 q4
      rw [idx_of_some (by rw [hne _ (by omega)]; exact p1), ok_bind, idx_of_some q1, ok_bind, Nat.one_shiftLeft,
        idx_of_some q3, ok_bind]
      have hb : block op v c i = op x y := by
        obtain ⟨c', rfl⟩ : ∃ c', c = c' + 1 := ⟨c - 1, by omega⟩
        rw [block]
        simp only [Nat.add_sub_cancel] at q2 q4
        rw [q2, ok_bind, q4, ok_bind]
      cases hz : op x y with
      | diverge => exact absurd hz (hop x y)
      | panic => exact satOr_panic ⟨c, i, by omega, by rw [hb, hz]⟩
      | ok z =>
        rw [ok_bind, idx_of_some r1, ok_bind, upd_of_lt (by omega), ok_bind, upd_of_lt (by omega), satOr_ok]
        refine ⟨by simp [hd], ?_, _, List.getElem?_set_self (by omega), by simp [r2], ?_, ?_⟩
        · intro j hj
          rw [List.getElem?_set_ne (by omega)]; exact hne j hj
        · intro j hj
          by_cases e : j = i
          · subst e
            exact ⟨z, List.getElem?_set_self (by omega), by rw [hb, hz]⟩
          · rw [List.getElem?_set_ne (by omega)]
            exact r3 j (by omega)
        · intro j h3 h4
          rw [List.getElem?_set_ne (by omega)]
          exact r4 j (by omega) h4
    · rintro d ⟨hd, hne, row, r1, r2, r3, r4⟩
      refine ⟨by omega, ?_, ?_⟩
      · intro c' hc'
        by_cases e : c' = c
        · subst e
          refine ⟨row, r1, r2, fun i hi => ?_⟩
          by_cases h5 : i + 2 ^ c' ≤ v.length
          · simp only [if_pos h5]
            exact r3 i (by omega)
          · simp only [if_neg h5]
            exact ⟨init, r4 i (by omega) hi, rfl⟩
        · obtain ⟨row', q1, q2, q3⟩ := hlo c' (by omega)
          exact ⟨row', by rw [hne _ e]; exact q1, q2, q3⟩
      · intro c' h3 h4
        rw [hne _ (by omega)]
        exact hhi c' (by omega) h4
  · rintro data ⟨hl, h, _⟩
    rw [satOr_ok]
    exact ⟨hl, fun c hc => h c (Nat.lt_succ_of_le ((Nat.le_log2 hlen).2 hc))⟩

end exact

/-- A total operation as one that may panic. -/
def tot (op : T → T → T) (x y : T) : Res T := ok (op x y)

theorem block_tot (ha : ∀ x y z, op (op x y) z = op x (op y z)) {v : List T} {f : Nat → T}
    (hf : ∀ i, i < v.length → v[i]? = some (f i)) : ∀ c i, i + 2 ^ c ≤ v.length →
    block (tot op) v c i = ok (fold op f i (2 ^ c - 1)) := by
  intro c
  induction c with
  | zero => intro i hi; rw [block, idx_of_some (hf i (by omega))]; rfl
  | succ c ih =>
    intro i hi
    rw [Nat.pow_succ] at hi ⊢
    have hp := Nat.two_pow_pos c
    rw [block, ih i (by omega), ok_bind, ih _ (by omega), ok_bind, tot]
    have := fold_split ha f i (2 ^ c - 1) (2 ^ c - 1)
    rw [show i + (2 ^ c - 1) + 1 = i + 2 ^ c by omega] at this
    rw [this]; congr 2; omega

variable (op) in
/-- Row `c` of the finished table. -/
def RowOk (v : List T) (f : Nat → T) (data : List (List T)) (c : Nat) : Prop :=
  ∃ row, data[c]? = some row ∧ row.length = v.length ∧
    ∀ i, i + 2 ^ c ≤ v.length → row[i]? = some (fold op f i (2 ^ c - 1))

theorem from_sat (ha : ∀ x y z, op (op x y) z = op x (op y z)) {v : List T} {init : T}
    {f : Nat → T} (hf : ∀ i, i < v.length → v[i]? = some (f i))
    (h0 : v ≠ []) (hn : v.length < 2 ^ 64) :
    Sat (SparseTable.from v init (tot op))
      (fun t => ∀ c, 2 ^ c ≤ v.length → RowOk op v f t.data c) := by
  refine ((from_satOr (op := tot op) (init := init) (fun x y h => by cases h) h0 hn).sat ?_).mono ?_
  · rintro ⟨c, i, h, e⟩
    rw [block_tot ha hf c i h] at e; cases e
  · rintro t ⟨-, ht⟩ c hc
    obtain ⟨row, h1, h2, h3⟩ := ht c hc
    refine ⟨row, h1, h2, fun i hi => ?_⟩
    have hp := Nat.two_pow_pos c
    obtain ⟨x, h4, h5⟩ := h3 i (by omega)
    rw [if_pos hi, block_tot ha hf c i hi] at h5
    cases h5; exact h4

theorem get_sat (ha : ∀ x y z, op (op x y) z = op x (op y z)) (hi : ∀ x, op x x = x)
    {v : List T} {f : Nat → T} {t : SparseTable T}
    (ht : ∀ c, 2 ^ c ≤ v.length → RowOk op v f t.data c) {l r : Nat} (hlr : l < r)
    (hr : r ≤ v.length) (hn : v.length < 2 ^ 64) :
    Sat (t.get (tot op) l r) (fun x => x = fold op f l (r - l - 1)) := by
  unfold SparseTable.get
  rw [assert_true hlr, lg_eq (by omega) (by omega)]
  have h1 := Nat.log2_self_le (n := r - l) (by omega)
  have h2 := Nat.lt_log2_self (n := r - l)
  rw [Nat.pow_succ] at h2
  obtain ⟨row, r1, r2, r3⟩ := ht (Nat.log2 (r - l)) (by omega)
  simp only [ok_bind, sat_bind, sat_idx, sat_subU, tot, sat_ok, Nat.one_shiftLeft]
  refine ⟨row, r1, _, r3 l (by omega), by omega, _, r3 (r - 2 ^ (r - l).log2) (by omega), ?_⟩
  have hp := Nat.two_pow_pos (r - l).log2
  have := fold_overlap ha hi f l (2 ^ (r - l).log2 - 1) (r - l - 2 ^ (r - l).log2) (by omega)
  rw [show l + (r - l - 2 ^ (r - l).log2) = r - 2 ^ (r - l).log2 by omega] at this
  rw [this]; congr 1; omega

theorem fold_list {v : List T} {f : Nat → T} (hf : ∀ i, i < v.length → v[i]? = some (f i))
    {l k : Nat} (h : l + k < v.length) {x : T} {xs : List T}
    (e : (v.drop l).take (k + 1) = x :: xs) : fold op f l k = xs.foldl op x := by
  induction k generalizing xs with
  | zero =>
    have h1 : (v.drop l)[0]? = some x := by
      have := congrArg (·[0]?) e
      simp at this; simpa using this
    have h2 : xs = [] := by
      have := congrArg List.length e
      simp at this; exact List.length_eq_zero_iff.1 (by omega)
    subst h2
    simp only [List.getElem?_drop, Nat.add_zero] at h1
    rw [hf l (by omega)] at h1
    simpa [fold] using h1
  | succ k ih =>
    have hl : k + 1 < (v.drop l).length := by simp; omega
    rw [List.take_succ_eq_append_getElem hl] at e
    obtain ⟨ys, hys⟩ : ∃ ys, (v.drop l).take (k + 1) = x :: ys := by
      cases hh : (v.drop l).take (k + 1) with
      | nil => have := congrArg List.length hh; simp at this; omega
      | cons z zs => rw [hh] at e; simp at e; exact ⟨zs, by rw [e.1]⟩
    have := ih (by omega) hys
    rw [hys] at e
    simp only [List.cons_append, List.cons.injEq, true_and] at e
    subst e
    rw [List.foldl_append, fold, this]
    simp only [List.foldl_cons, List.foldl_nil]
    congr 1
    have h3 := hf (l + k + 1) (by omega)
    rw [List.getElem?_eq_getElem (by omega)] at h3
    simp only [Option.some.injEq] at h3
    rw [← h3, List.getElem_drop]
    congr 1

end Verif.SparseP
