import Verif.Props.Fenwick
import Verif.Proof.FenwickExact
/-! C74: exactly when a Fenwick tree over a checked type panics. -/
namespace Verif.Props
open Res Model Spec FenwickP

variable {A : Type} [AddCommMonoid A] {add sub : A → A → Res A} {Fits : A → Prop}

theorem segSum_eq (a : List A) (l r : ℕ) : segSum a l r = rsum (fn a) l r := by
  unfold fn; rw [rsum_list]; rfl

/-- Checked signed integers of width `w`. -/
theorem exactAdd_int (w : Nat) :
    ExactAdd (A := Int) (fun a b => ckI w (a + b)) (fun a b => ckI w (a - b)) (InI w) where
  toCheckedAdd := checkedAdd_int w
  zero_fits := by
    have : (0 : Int) < 2 ^ (w - 1) := Int.pow_pos (by decide)
    unfold InI; omega
  add_panic _ _ h := if_neg h
  sub_panic a b _ _ h := if_neg fun hf => h ⟨a - b, hf, by omega⟩

/-- Checked unsigned integers of width `w`. -/
theorem exactAdd_nat (w : Nat) : ExactAdd (A := Nat) (addU w) subU (· < 2 ^ w) where
  toCheckedAdd := checkedAdd_nat w
  zero_fits := Nat.two_pow_pos w
  add_panic _ _ h := if_neg h
  sub_panic a b ha _ h := if_neg fun hle => h ⟨a - b, Nat.lt_of_le_of_lt (Nat.sub_le _ _) ha, by omega⟩

/-- The positions `2 q 2^m .. (2 q + 1) 2^m` covered by a node. -/
theorem node_iff (n : ℕ) (P : ℕ → ℕ → Prop) :
    (∀ j, 0 < j → j ≤ n → P (j - low j) j) ↔
      ∀ m q, (2 * q + 1) * 2 ^ m ≤ n → P (2 * q * 2 ^ m) ((2 * q + 1) * 2 ^ m) := by
  have key : ∀ m q, (2 * q + 1) * 2 ^ m - low ((2 * q + 1) * 2 ^ m) = 2 * q * 2 ^ m := by
    intro m q
    rw [low_odd_mul, Nat.add_mul, Nat.one_mul, Nat.add_sub_cancel]
  constructor
  · intro h m q hle
    have := h _ (Nat.mul_pos (by omega) (Nat.two_pow_pos m)) hle
    rwa [key] at this
  · intro h j hj hle
    obtain ⟨q, m, rfl⟩ := exists_odd j hj
    rw [key]
    exact h m q hle

/-- The sums that `from` computes fit: of each node, the sum of its positions and those of the positions without the
last `2 ^ t`. -/
def FromGood (Fits : A → Prop) (a : List A) : Prop :=
  ∀ m q, (2 * q + 1) * 2 ^ m ≤ a.length →
    Fits (segSum a (2 * q * 2 ^ m) ((2 * q + 1) * 2 ^ m)) ∧
    ∀ t, t < m → Fits (segSum a (2 * q * 2 ^ m) ((2 * q + 1) * 2 ^ m - 2 ^ t))

theorem fromGood_iff (a : List A) : FromGood Fits a ↔ ∀ k, 0 < k → k ≤ a.length → FromFits Fits a k := by
  unfold FromGood
  simp only [segSum_eq]
  constructor
  · intro h k h0 hk
    refine ⟨(node_iff a.length fun l r => Fits (rsum (fn a) l r)).2 (fun m q hle => (h m q hle).1) k h0 hk,
      fun hk2 => ?_⟩
    obtain ⟨t, ht⟩ := low_pow h0
    have hd := low_add_low h0
    have hlp := low_pos h0
    obtain ⟨q, m, hm⟩ := exists_odd (k + low k) (by omega)
    have hlm : low (k + low k) = 2 ^ m := by rw [hm, low_odd_mul]
    have := (h m q (by rw [← hm]; exact hk2)).2 t (by
      rw [← Nat.pow_lt_pow_iff_right (a := 2) (by omega)]; omega)
    rw [← hm, ← ht, Nat.add_sub_cancel] at this
    rw [show k + low k - low (k + low k) = 2 * q * 2 ^ m by
      rw [hlm, hm, Nat.add_mul, Nat.one_mul, Nat.add_sub_cancel]]
    exact this
  · intro h m q hle
    have hpos : 0 < (2 * q + 1) * 2 ^ m := Nat.mul_pos (by omega) (Nat.two_pow_pos m)
    have hl : (2 * q + 1) * 2 ^ m - low ((2 * q + 1) * 2 ^ m) = 2 * q * 2 ^ m := by
      rw [low_odd_mul, Nat.add_mul, Nat.one_mul, Nat.add_sub_cancel]
    refine ⟨?_, fun t ht => ?_⟩
    · have := (h _ hpos hle).1
      rwa [hl] at this
    · have hlt : 2 ^ t < 2 ^ m := (Nat.pow_lt_pow_iff_right (by omega)).2 ht
      have hle2 := low_le ((2 * q + 1) * 2 ^ m)
      rw [low_odd_mul] at hle2
      have hlow := low_sub (j := (2 * q + 1) * 2 ^ m) (m := t) hpos (by rw [low_odd_mul]; exact hlt)
      have := (h ((2 * q + 1) * 2 ^ m - 2 ^ t) (by omega) (by omega)).2
      rw [hlow, Nat.sub_add_cancel (by omega), hl] at this
      exact this hle

/-- C74: `from` returns exactly if the sums it computes fit. -/
theorem C74_from (hc : ExactAdd add sub Fits) (a : List A) (hn : a.length < 2 ^ 63) :
    (FromGood Fits a → ∃ t, Fenwick.from add 0 a = ok t) ∧ (¬ FromGood Fits a → Fenwick.from add 0 a = .panic) := by
  have h := from_satOr' hc hn
  constructor
  · intro hg
    obtain ⟨t, e, -⟩ := h.sat fun ⟨k, h0, hk, hf⟩ => hf ((fromGood_iff a).1 hg k h0 hk)
    exact ⟨t, e⟩
  · intro hg
    exact h.panic fun t ht => hg ((fromGood_iff a).2 ht.2)

/-- The sum of each node fits. -/
def NodesFit (Fits : A → Prop) (a : List A) : Prop :=
  ∀ m q, (2 * q + 1) * 2 ^ m ≤ a.length → Fits (segSum a (2 * q * 2 ^ m) ((2 * q + 1) * 2 ^ m))

theorem nodesFit_iff (a : List A) :
    NodesFit Fits a ↔ ∀ j, 0 < j → j ≤ a.length → Fits (rsum (fn a) (j - low j) j) := by
  rw [node_iff a.length fun l r => Fits (rsum (fn a) l r)]
  simp only [NodesFit, segSum_eq]

theorem add_nodes {a : List A} {p : ℕ} {v : A}
    (h : ∀ j, 0 < j → j ≤ a.length → Fits (rsum (fn a) (j - low j) j))
    (h2 : ∀ j, p < j → j - low j ≤ p → j ≤ a.length → Fits (rsum (fn (addTo a p v)) (j - low j) j)) :
    ∀ j, 0 < j → j ≤ (addTo a p v).length → Fits (rsum (fn (addTo a p v)) (j - low j) j) := by
  intro j h0 hj
  rw [addTo_length] at hj
  by_cases hpn : p < a.length
  · by_cases hin : j - low j ≤ p ∧ p < j
    · exact h2 j hin.2 hin.1 hj
    · rw [rsum_point a p v _ _ hpn, if_neg hin]
      exact h j h0 hj
  · have e : addTo a p v = a := by
      unfold addTo; exact List.modify_eq_self (by omega)
    rw [e]
    exact h j h0 hj

theorem run_rep (hc : ExactAdd add sub Fits) {ops : List (ℕ × A)} : ∀ {a : List A} {t t' : Fenwick A},
    a.length < 2 ^ 63 → Rep t a → (∀ j, 0 < j → j ≤ a.length → Fits (rsum (fn a) (j - low j) j)) →
    fenwickRun add t ops = ok t' →
    Rep t' (addAll a ops) ∧ ∀ j, 0 < j → j ≤ a.length → Fits (rsum (fn (addAll a ops)) (j - low j) j) := by
  induction ops with
  | nil => intro a t t' _ hr hf e; cases e; exact ⟨hr, hf⟩
  | cons p ops ih =>
    obtain ⟨p, v⟩ := p
    intro a t t' hn hr hf e
    rw [fenwickRun] at e
    by_cases hp : p + 1 < 2 ^ 64
    swap
    · unfold Fenwick.addAt at e
      rw [show addU 64 p 1 = .panic from if_neg hp] at e
      cases e
    rcases add_satOr hc hr (p := p) (v := v) hn hp with ⟨t1, e1, h1, h2⟩ | ⟨-, e1⟩
    swap
    · rw [e1] at e; cases e
    rw [e1, ok_bind] at e
    have := ih (a := addTo a p v) (by rw [addTo_length]; exact hn) h1 (add_nodes hf h2) e
    rw [addTo_length] at this
    exact this

theorem reached_rep (hc : ExactAdd add sub Fits) {a : List A} {ops : List (ℕ × A)} {t : Fenwick A}
    (hn : a.length < 2 ^ 63) (hr : FenwickReached add a ops t) :
    Rep t (addAll a ops) ∧ NodesFit Fits (addAll a ops) := by
  obtain ⟨t0, e0, e1⟩ := hr
  have h := from_satOr' hc hn
  rw [e0, satOr_ok] at h
  have := run_rep hc hn h.1 (fun j h0 hj => (h.2 j h0 hj).1) e1
  refine ⟨this.1, (nodesFit_iff _).2 ?_⟩
  rw [addAll_length]
  exact this.2

/-- C74: in every tree that a history leaves, the sum of each node fits. -/
theorem C74_nodes (hc : ExactAdd add sub Fits) (a : List A) (ops : List (ℕ × A)) (t : Fenwick A)
    (hn : a.length < 2 ^ 63) (hr : FenwickReached add a ops t) : NodesFit Fits (addAll a ops) :=
  (reached_rep hc hn hr).2

/-- C74: after any history that returned, `add(p, v)` returns exactly if the new sums of the nodes over `p` fit. -/
theorem C74_add (hc : ExactAdd add sub Fits) (a : List A) (ops : List (ℕ × A)) (t : Fenwick A)
    (hn : a.length < 2 ^ 63) (hr : FenwickReached add a ops t) (p : ℕ) (v : A) (hp : p + 1 < 2 ^ 64) :
    (NodesFit Fits (addAll a (ops ++ [(p, v)])) → ∃ t', t.addAt add p v = ok t') ∧
    (¬ NodesFit Fits (addAll a (ops ++ [(p, v)])) → t.addAt add p v = .panic) := by
  have happ : addAll a (ops ++ [(p, v)]) = addTo (addAll a ops) p v := by
    clear hr hn
    induction ops generalizing a with
    | nil => rfl
    | cons o ops ih => exact ih _
  obtain ⟨h1, h2⟩ := reached_rep hc hn hr
  have h := add_satOr hc h1 (p := p) (v := v) (by rw [addAll_length]; exact hn) hp
  rw [happ, nodesFit_iff]
  constructor
  · intro hg
    obtain ⟨t, e, -⟩ := h.sat fun ⟨j, a1, a2, a3, a4⟩ => a4 (hg j (by omega) (by rw [addTo_length]; exact a3))
    exact ⟨t, e⟩
  · intro hg
    exact h.panic fun t ht => hg (add_nodes ((nodesFit_iff _).1 h2) ht.2)

/-- The sums that `pref(i)` computes: of the positions from `i` rounded down to a multiple of `2 ^ m` on. -/
def PrefFits (Fits : A → Prop) (a : List A) (i : ℕ) : Prop :=
  ∀ m, i / 2 ^ m * 2 ^ m < i → Fits (segSum a (i / 2 ^ m * 2 ^ m) i)

/-- C74: after any history that returned, `pref(i)` is the sum of the first `i` elements if the sums that it computes fit,
otherwise it panics. -/
theorem C74_pref (hc : ExactAdd add sub Fits) (a : List A) (ops : List (ℕ × A)) (t : Fenwick A)
    (hn : a.length < 2 ^ 63) (hr : FenwickReached add a ops t) (i : ℕ) (hi : i ≤ a.length) :
    (PrefFits Fits (addAll a ops) i → t.pref add 0 i = ok (segSum (addAll a ops) 0 i)) ∧
    (¬ PrefFits Fits (addAll a ops) i → t.pref add 0 i = .panic) := by
  have h := pref_satOr hc (reached_rep hc hn hr).1 (i := i) (by rw [addAll_length]; exact hi)
  simp only [PrefFits, segSum_eq]
  constructor
  · intro hg
    obtain ⟨t, e, rfl, -⟩ := h.sat fun ⟨m, a1, a2⟩ => a2 (hg m a1)
    exact e
  · intro hg
    exact h.panic fun t ht => hg ht.2

theorem prefFits_last (hc : ExactAdd add sub Fits) {a : List A} {i : ℕ} (h : PrefFits Fits a i) :
    Fits (segSum a 0 i) := by
  by_cases h0 : i = 0
  · subst h0; simpa [segSum] using hc.zero_fits
  · have e : i / 2 ^ i = 0 := Nat.div_eq_of_lt Nat.lt_two_pow_self
    have := h i (by rw [e]; omega)
    rwa [e, Nat.zero_mul] at this

/-- C74: `sum(l, r)` for all `l`, `r` within the length, also `l > r`: it is the value `c` with
`pref(l) + c = pref(r)` if both prefixes return and there is such a `c` that fits, otherwise it panics. -/
theorem C74_sum (hc : ExactAdd add sub Fits) (a : List A) (ops : List (ℕ × A)) (t : Fenwick A)
    (hn : a.length < 2 ^ 63) (hr : FenwickReached add a ops t) (l r : ℕ) (hl : l ≤ a.length) (hr' : r ≤ a.length) :
    (∀ c, PrefFits Fits (addAll a ops) l → PrefFits Fits (addAll a ops) r → Fits c →
      segSum (addAll a ops) 0 l + c = segSum (addAll a ops) 0 r → t.sum add sub 0 l r = ok c) ∧
    ((¬ ∃ c, PrefFits Fits (addAll a ops) l ∧ PrefFits Fits (addAll a ops) r ∧ Fits c ∧
      segSum (addAll a ops) 0 l + c = segSum (addAll a ops) 0 r) → t.sum add sub 0 l r = .panic) := by
  have h1 := C74_pref hc a ops t hn hr l hl
  have h2 := C74_pref hc a ops t hn hr r hr'
  unfold Fenwick.sum
  constructor
  · intro c a1 a2 a3 a4
    rw [h2.1 a2, ok_bind, h1.1 a1, ok_bind, ← a4]
    exact hc.sub_ok _ _ (by rw [a4]; exact prefFits_last hc a2) (prefFits_last hc a1) a3
  · intro hg
    by_cases a2 : PrefFits Fits (addAll a ops) r
    swap
    · rw [h2.2 a2]; rfl
    rw [h2.1 a2, ok_bind]
    by_cases a1 : PrefFits Fits (addAll a ops) l
    swap
    · rw [h1.2 a1]; rfl
    rw [h1.1 a1, ok_bind]
    exact hc.sub_panic _ _ (prefFits_last hc a2) (prefFits_last hc a1) fun ⟨c, a3, a4⟩ => hg ⟨c, a1, a2, a3, a4⟩

/-- C74: let a predicate hold for exactly the first `k` prefix sums (those that do not fit do not matter). Then
`partition_point` returns `k` if the prefix sums on the way of the binary search to `k` fit, otherwise it panics. -/
theorem C74_partition_point (hc : ExactAdd add sub Fits) (a : List A) (ops : List (ℕ × A)) (t : Fenwick A)
    (hn : a.length < 2 ^ 63) (hr : FenwickReached add a ops t) (h0 : a ≠ []) (pred : A → Bool) (k : ℕ)
    (hk : k ≤ a.length) (hp : ∀ i, i < a.length → Fits (segSum (addAll a ops) 0 (i + 1)) →
      (pred (segSum (addAll a ops) 0 (i + 1)) = true ↔ i < k)) :
    ((∀ i, k / 2 ^ (i + 1) * 2 ^ (i + 1) + 2 ^ i ≤ a.length →
      Fits (segSum (addAll a ops) 0 (k / 2 ^ (i + 1) * 2 ^ (i + 1) + 2 ^ i))) →
      t.partitionPoint add 0 pred = ok k) ∧
    (¬ (∀ i, k / 2 ^ (i + 1) * 2 ^ (i + 1) + 2 ^ i ≤ a.length →
      Fits (segSum (addAll a ops) 0 (k / 2 ^ (i + 1) * 2 ^ (i + 1) + 2 ^ i))) →
      t.partitionPoint add 0 pred = .panic) := by
  simp only [segSum_eq] at hp ⊢
  have hl := addAll_length a ops
  have h := partitionPoint_satOr hc (reached_rep hc hn hr).1 (by rw [hl]; exact hn)
    (by rw [hl]; exact List.length_pos_iff.2 h0) (pred := pred) (k := k) (by rw [hl]; exact hk) (by rw [hl]; exact hp)
  rw [hl] at h
  constructor
  · intro hg
    obtain ⟨r, e, rfl, -⟩ := h.sat fun ⟨i, a1, a2⟩ => a2 (hg i a1)
    exact e
  · intro hg
    exact h.panic fun t ht => hg ht.2

/-- `from(a)` and the additions `ops`. -/
def fenwickHist (add : A → A → Res A) (a : List A) (ops : List (ℕ × A)) : Res (Fenwick A) := do
  let t ← Fenwick.from add 0 a
  fenwickRun add t ops

theorem seg_mono {a : List ℕ} {p v : ℕ} (l r : ℕ) : segSum a l r ≤ segSum (addTo a p v) l r := by
  by_cases hp : p < a.length
  · rw [segSum_eq, segSum_eq, rsum_point a p v l r hp]
    split <;> omega
  · rw [show addTo a p v = a by unfold addTo; exact List.modify_eq_self (by omega)]

theorem seg_mono_all {ops : List (ℕ × ℕ)} : ∀ {a : List ℕ} (l r : ℕ), segSum a l r ≤ segSum (addAll a ops) l r := by
  induction ops with
  | nil => intro a l r; exact Nat.le_refl _
  | cons o ops ih => intro a l r; exact Nat.le_trans (seg_mono l r) (ih l r)

theorem seg_le {a : List ℕ} {l l' r r' : ℕ} (hl : l' ≤ l) (hr : r ≤ r') : segSum a l r ≤ segSum a l' r' := by
  by_cases h : l ≤ r
  · rw [segSum_eq, segSum_eq, ← rsum_split (c := fn a) (lo := l') (mid := l) (hi := r') hl (by omega),
      ← rsum_split (c := fn a) (lo := l) (mid := r) (hi := r') h hr]
    omega
  · rw [segSum_eq, rsum_of_le (by omega)]; omega

theorem run_returns (w : ℕ) {ops : List (ℕ × ℕ)} : ∀ {a : List ℕ} {t : Fenwick ℕ},
    a.length < 2 ^ 63 → Rep t a → (∀ o ∈ ops, o.1 + 1 < 2 ^ 64) → NodesFit (· < 2 ^ w) (addAll a ops) →
    ∃ t', fenwickRun (addU w) t ops = ok t' := by
  induction ops with
  | nil => intro a t _ _ _ _; exact ⟨t, rfl⟩
  | cons o ops ih =>
    obtain ⟨p, v⟩ := o
    intro a t hn hr hx hf
    rw [fenwickRun]
    have h := add_satOr (exactAdd_nat w) hr (p := p) (v := v) hn (hx (p, v) (by simp))
    obtain ⟨t1, e1, h1, -⟩ := h.sat (by
      rintro ⟨j, a1, a2, a3, a4⟩
      refine a4 ?_
      rw [← segSum_eq]
      refine Nat.lt_of_le_of_lt (seg_mono_all (ops := ops) _ _) ?_
      have := (nodesFit_iff _).1 hf j (by omega) (by rw [addAll_length]; exact a3)
      rw [← segSum_eq] at this
      exact this)
    rw [e1, ok_bind]
    exact ih (by rw [addTo_length]; exact hn) h1 (fun o ho => hx o (List.mem_cons_of_mem _ ho)) hf

/-- C74: unsigned integers of `w` bits in closed form. A history returns exactly if in the end the sum of each node is
below `2 ^ w`; then `pref(i)` returns exactly if the sum of the first `i` elements is below `2 ^ w`, and `sum(l, r)` exactly if
this holds for `l` and `r` and the sum up to `l` is not greater than that up to `r`. -/
theorem C74_unsigned (w : ℕ) (a : List ℕ) (ops : List (ℕ × ℕ)) (hn : a.length < 2 ^ 63)
    (hx : ∀ o ∈ ops, o.1 + 1 < 2 ^ 64) :
    (¬ NodesFit (· < 2 ^ w) (addAll a ops) → fenwickHist (addU w) a ops = .panic) ∧
    (NodesFit (· < 2 ^ w) (addAll a ops) → ∃ t, fenwickHist (addU w) a ops = ok t ∧
      (∀ i, i ≤ a.length → t.pref (addU w) 0 i =
        if segSum (addAll a ops) 0 i < 2 ^ w then ok (segSum (addAll a ops) 0 i) else .panic) ∧
      ∀ l r, l ≤ a.length → r ≤ a.length → t.sum (addU w) subU 0 l r =
        if segSum (addAll a ops) 0 l < 2 ^ w ∧ segSum (addAll a ops) 0 r < 2 ^ w ∧
          segSum (addAll a ops) 0 l ≤ segSum (addAll a ops) 0 r
        then ok (segSum (addAll a ops) 0 r - segSum (addAll a ops) 0 l) else .panic) := by
  have hc := exactAdd_nat w
  have hfrom := C74_from hc a hn
  constructor
  · intro hg
    unfold fenwickHist
    by_cases h : FromGood (· < 2 ^ w) a
    swap
    · rw [hfrom.2 h]; rfl
    obtain ⟨t, e⟩ := hfrom.1 h
    rw [e, ok_bind]
    have key : ∀ (ops : List (ℕ × ℕ)) (a : List ℕ) (t : Fenwick ℕ), a.length < 2 ^ 63 → Rep t a →
        (∀ o ∈ ops, o.1 + 1 < 2 ^ 64) →
        fenwickRun (addU w) t ops = .panic ∨ ∃ t', fenwickRun (addU w) t ops = ok t' := by
      intro ops
      induction ops with
      | nil => intro a t _ _ _; exact .inr ⟨t, rfl⟩
      | cons o ops ih =>
        obtain ⟨p, v⟩ := o
        intro a t hn hr hx
        rw [fenwickRun]
        rcases add_satOr hc hr (p := p) (v := v) hn (hx (p, v) (by simp)) with ⟨t1, e1, h1, -⟩ | ⟨-, e1⟩
        · rw [e1, ok_bind]
          exact ih _ t1 (by rw [addTo_length]; exact hn) h1 fun o ho => hx o (List.mem_cons_of_mem _ ho)
        · rw [e1]; exact .inl rfl
    have hrep := from_satOr' hc hn
    rw [e, satOr_ok] at hrep
    rcases key ops a t hn hrep.1 hx with h | ⟨t', e'⟩
    · exact h
    · exact absurd (C74_nodes hc a ops t' hn ⟨t, e, e'⟩) hg
  · intro hg
    have h : FromGood (· < 2 ^ w) a := by
      intro m q hle
      have h1 : segSum a (2 * q * 2 ^ m) ((2 * q + 1) * 2 ^ m) < 2 ^ w :=
        Nat.lt_of_le_of_lt (seg_mono_all (ops := ops) _ _) (hg m q (by rw [addAll_length]; exact hle))
      exact ⟨h1, fun t ht => Nat.lt_of_le_of_lt (seg_le (Nat.le_refl _) (Nat.sub_le _ _)) h1⟩
    obtain ⟨t0, e0⟩ := hfrom.1 h
    have hrep := from_satOr' hc hn
    rw [e0, satOr_ok] at hrep
    obtain ⟨t, e⟩ := run_returns w hn hrep.1 hx hg
    have hr : FenwickReached (addU w) a ops t := ⟨t0, e0, e⟩
    have hpf : ∀ i, PrefFits (· < 2 ^ w) (addAll a ops) i ↔ segSum (addAll a ops) 0 i < 2 ^ w := fun i =>
      ⟨prefFits_last hc, fun h m _ => Nat.lt_of_le_of_lt (seg_le (Nat.zero_le _) (Nat.le_refl _)) h⟩
    refine ⟨t, by rw [fenwickHist, e0, ok_bind, e], fun i hi => ?_, fun l r hl hr' => ?_⟩
    · have := C74_pref hc a ops t hn hr i hi
      rw [hpf] at this
      split
      · exact this.1 (by assumption)
      · exact this.2 (by assumption)
    · have := C74_sum hc a ops t hn hr l r hl hr'
      simp only [hpf] at this
      split
      · rename_i hh
        exact this.1 _ hh.1 hh.2.1 (by omega) (by omega)
      · rename_i hh
        exact this.2 fun ⟨c, a1, a2, a3, a4⟩ => hh ⟨a1, a2, by omega⟩

/-- C74: `add` with a value of another type `U`: if `x += u` is `x + f(u)`, it is the addition of `f(u)`. -/
theorem C74_add_type {U : Type} (addU' : A → U → Res A) (f : U → A) (u : U) (hf : ∀ x, addU' x u = add x (f u))
    (t : Fenwick A) (p : ℕ) : t.addAt addU' p u = t.addAt add p (f u) := by
  unfold Fenwick.addAt
  simp only [hf]

/-- `u8`: the list `[200, 50, 100]` is accepted although its sum does not fit; only `pref(3)` and `sum(_, 3)` panic. -/
example : (do let t ← Fenwick.from (addU 8) 0 [200, 50, 100]; t.pref (addU 8) 0 2) = ok 250 ∧
    (do let t ← Fenwick.from (addU 8) 0 [200, 50, 100]; t.pref (addU 8) 0 3) = .panic ∧
    (do let t ← Fenwick.from (addU 8) 0 [200, 50, 100]; t.sum (addU 8) subU 0 2 3) = .panic ∧
    (do let t ← Fenwick.from (addU 8) 0 [200, 50, 100]; t.sum (addU 8) subU 0 2 1) = .panic ∧
    Fenwick.from (addU 8) 0 [200, 100, 50] = .panic := by decide +kernel

/-- `i8`: `[100, 50, -100, 0]` has a sum that fits, but the first node of two elements does not. -/
example : Fenwick.from (fun a b => ckI 8 (a + b)) 0 [100, 50, -100, 0] = .panic ∧
    (do let t ← Fenwick.from (fun a b => ckI 8 (a + b)) 0 [100, -50, 100, 0]
        t.sum (fun a b => ckI 8 (a + b)) (fun a b => ckI 8 (a - b)) 0 3 1) = .panic ∧
    (do let t ← Fenwick.from (fun a b => ckI 8 (a + b)) 0 [100, -50, 60, 0]
        t.sum (fun a b => ckI 8 (a + b)) (fun a b => ckI 8 (a - b)) 0 3 1) = ok (-10) := by decide +kernel

end Verif.Props
