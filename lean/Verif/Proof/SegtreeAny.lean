import Verif.Model.Segtree
import Verif.Spec.SegtreeAny
import Verif.Prelude.Level
import Verif.Prelude.SatOr
import Verif.Proof.Util
import Mathlib.Tactic.Common
/-! The segment tree with any operation. -/
namespace Verif.SegAny
open Res Model Spec

variable {S : Type} {M : MonoidOps S}

/-- Position of node `k` of height `j` among its level. -/
def posOf (L j k : Nat) : Nat := k - 2 ^ (L - j)

/-- The node is right. -/
def NodeIs (M : MonoidOps S) (L : Nat) (a d : List S) (j k : Nat) : Prop :=
  ∃ x, d[k]? = some x ∧ aligned M.op M.e a j (posOf L j k) = ok x

/-- The tree holds the list. -/
structure Holds (M : MonoidOps S) (t : Segtree S) (a : List S) (L : Nat) : Prop where
  n : t.n = a.length
  size : t.size = 2 ^ L
  log : t.log = L
  log32 : L ≤ 32
  le : a.length ≤ 2 ^ L
  len : t.d.length = 2 * 2 ^ L
  node : ∀ j k, Lvl (2 ^ L) j k → NodeIs M L a t.d j k

theorem Lvl.ge {L j k : Nat} (h : Lvl (2 ^ L) j k) : 2 ^ (L - j) ≤ k := by
  have hj := h.j_le
  have h1 := h.1
  rw [show L = (L - j) + j by omega, Nat.pow_add] at h1
  exact Nat.le_of_mul_le_mul_right h1 (Nat.two_pow_pos j)

theorem posOf_left {L j k : Nat} (h : Lvl (2 ^ L) (j + 1) k) : posOf L j (2 * k) = 2 * posOf L (j + 1) k := by
  have hj := h.j_le
  have hk := Lvl.ge h
  unfold posOf
  rw [show L - j = (L - (j + 1)) + 1 by omega, Nat.pow_succ]
  omega

theorem posOf_right {L j k : Nat} (h : Lvl (2 ^ L) (j + 1) k) : posOf L j (2 * k + 1) = 2 * posOf L (j + 1) k + 1 := by
  have hj := h.j_le
  have hk := Lvl.ge h
  unfold posOf
  rw [show L - j = (L - (j + 1)) + 1 by omega, Nat.pow_succ]
  omega

theorem posOf_lt {L j k : Nat} (h : Lvl (2 ^ L) j k) : (posOf L j k + 1) * 2 ^ j ≤ 2 ^ L := by
  have hj := h.j_le
  have hk := Lvl.ge h
  have he := h.end_le
  have e : 2 ^ L = 2 ^ (L - j) * 2 ^ j := by rw [← Nat.pow_add]; congr 1; omega
  unfold posOf
  rw [show k + 1 = (k - 2 ^ (L - j) + 1) + 2 ^ (L - j) by omega, Nat.add_mul, ← e] at he
  omega

theorem lvl_of_pos {L j q : Nat} (hj : j ≤ L) (h : (q + 1) * 2 ^ j ≤ 2 ^ L) :
    Lvl (2 ^ L) j (q + 2 ^ (L - j)) ∧ posOf L j (q + 2 ^ (L - j)) = q := by
  have e : 2 ^ L = 2 ^ (L - j) * 2 ^ j := by rw [← Nat.pow_add]; congr 1; omega
  refine ⟨Lvl.of_end ?_ ?_, by unfold posOf; omega⟩
  · rw [Nat.add_mul, ← e]; omega
  · rw [show q + 2 ^ (L - j) + 1 = (q + 1) + 2 ^ (L - j) by omega, Nat.add_mul, ← e]; omega

theorem aligned_nd (hnd : ∀ x y, M.op x y ≠ .diverge) (a : List S) : ∀ j q, aligned M.op M.e a j q ≠ .diverge := by
  intro j
  induction j with
  | zero => intro q h; cases h
  | succ j ih =>
    intro q h
    rw [aligned] at h
    cases h1 : aligned M.op M.e a j (2 * q) with
    | diverge => exact ih _ h1
    | panic => rw [h1] at h; cases h
    | ok x =>
      rw [h1, ok_bind] at h
      cases h2 : aligned M.op M.e a j (2 * q + 1) with
      | diverge => exact ih _ h2
      | panic => rw [h2] at h; cases h
      | ok y => rw [h2, ok_bind] at h; exact hnd x y h

/-- `update` makes a node right when its children are, or panics. -/
theorem update_satOr (hnd : ∀ x y, M.op x y ≠ .diverge) {a : List S} {b : Prop} {t : Segtree S} {L j k : Nat}
    (hl : t.d.length = 2 * 2 ^ L) (hlv : Lvl (2 ^ L) (j + 1) k)
    (h1 : NodeIs M L a t.d j (2 * k)) (h2 : NodeIs M L a t.d j (2 * k + 1))
    (hb : aligned M.op M.e a (j + 1) (posOf L (j + 1) k) = .panic → b) :
    SatOr b (t.update M k) (fun t' => ∃ x, aligned M.op M.e a (j + 1) (posOf L (j + 1) k) = ok x ∧
      t' = { t with d := t.d.set k x }) := by
  obtain ⟨x, e1, f1⟩ := h1
  obtain ⟨y, e2, f2⟩ := h2
  rw [posOf_left hlv] at f1
  rw [posOf_right hlv] at f2
  have e : aligned M.op M.e a (j + 1) (posOf L (j + 1) k) = M.op x y := by rw [aligned, f1, ok_bind, f2, ok_bind]
  rw [e] at hb ⊢
  unfold Segtree.update
  rw [idx_of_some e1, ok_bind, idx_of_some e2, ok_bind]
  cases hz : M.op x y with
  | diverge => exact absurd hz (hnd x y)
  | panic => exact satOr_panic (hb hz)
  | ok z =>
    rw [ok_bind, upd_of_lt (by rw [hl]; exact hlv.k_le), ok_bind, satOr_ok]
    exact ⟨z, rfl, rfl⟩

theorem NodeIs.set_self {L j k : Nat} {a d : List S} {x : S} (hk : k < d.length)
    (h : aligned M.op M.e a j (posOf L j k) = ok x) : NodeIs M L a (d.set k x) j k :=
  ⟨x, List.getElem?_set_self hk, h⟩

theorem NodeIs.set_ne {L j k i : Nat} {a d : List S} {x : S} (hk : k ≠ i) (h : NodeIs M L a d j k) :
    NodeIs M L a (d.set i x) j k := by
  obtain ⟨y, e, f⟩ := h
  exact ⟨y, by rw [List.getElem?_set_ne (by omega)]; exact e, f⟩

theorem writeSlice_leaves {L : Nat} {a : List S} {e : S} (hle : a.length ≤ 2 ^ L) :
    writeSlice (List.replicate (2 * 2 ^ L) e) (2 ^ L) a =
      .ok (List.replicate (2 ^ L) e ++ a ++ List.replicate (2 ^ L - a.length) e) := by
  unfold writeSlice
  rw [if_pos (by simp; omega)]
  rw [List.take_replicate, List.drop_replicate]
  rw [show min (2 ^ L) (2 * 2 ^ L) = 2 ^ L by omega,
    show 2 * 2 ^ L - (2 ^ L + a.length) = 2 ^ L - a.length by omega]

theorem leaf_get {L k : Nat} {a : List S} {e : S} (hle : a.length ≤ 2 ^ L) (h1 : 2 ^ L ≤ k) (h2 : k < 2 * 2 ^ L) :
    (List.replicate (2 ^ L) e ++ a ++ List.replicate (2 ^ L - a.length) e)[k]? = some (a.getD (k - 2 ^ L) e) := by
  rw [List.append_assoc, List.getElem?_append_right (by simp; exact h1)]
  simp only [List.length_replicate]
  by_cases h : k - 2 ^ L < a.length
  · rw [List.getElem?_append_left h]
    simp [h]
  · rw [List.getElem?_append_right (by omega), List.getElem?_replicate, if_pos (by omega)]
    simp [List.getElem?_eq_none (show a.length ≤ k - 2 ^ L by omega)]

theorem ceilLog_bitLen {n : Nat} : CeilLog n (bitLen (n - 1)) := by
  intro k
  rw [bitLen_le_iff]
  have := Nat.two_pow_pos k
  omega

theorem ceilLog_eq {n L : Nat} (h : CeilLog n L) : L = bitLen (n - 1) := by
  have h1 := (h _).1 ((ceilLog_bitLen (n := n) _).2 (Nat.le_refl _))
  have h2 := (ceilLog_bitLen _).1 ((h _).2 (Nat.le_refl _))
  omega

/-- Some product of an aligned block panics. -/
def BadBlock (M : MonoidOps S) (a : List S) (L : Nat) : Prop :=
  ∃ j q, (q + 1) * 2 ^ j ≤ 2 ^ L ∧ aligned M.op M.e a j q = .panic

theorem from_satOr (hnd : ∀ x y, M.op x y ≠ .diverge) {a : List S} (hn : a.length < 2 ^ 32) {L : Nat}
    (hL : CeilLog a.length L) : SatOr (BadBlock M a L) (Segtree.from M a) (fun t => Holds M t a L) := by
  have hle : a.length ≤ 2 ^ L := (hL L).2 (Nat.le_refl _)
  have hl32 : L ≤ 32 := (hL 32).1 (by omega)
  unfold Segtree.from
  simp only [Nat.mod_eq_of_lt hn, ceilLg_eq hn, ok_bind, Nat.one_shiftLeft, ← ceilLog_eq hL]
  rw [writeSlice_leaves hle, ok_bind]
  refine (forRangeRev_satOr (I := fun i (t : Segtree S) => t.n = a.length ∧ t.log = L ∧
      t.size = 2 ^ L ∧ t.d.length = 2 * 2 ^ L ∧
      ∀ j k, i ≤ k → Lvl (2 ^ L) j k → NodeIs M L a t.d j k) (Nat.one_le_two_pow) ?_ ?_).mono ?_
  · refine ⟨rfl, rfl, rfl, by simp; omega, ?_⟩
    intro j k hk hlv
    have := hlv.j_zero hk
    subst this
    exact ⟨_, leaf_get hle hk hlv.k_le, rfl⟩
  · rintro i t h1 h2 ⟨a1, a2, a3, a4, a5⟩
    obtain ⟨j, hlv⟩ := Lvl.exists_succ (L := L) (by omega) h2
    refine (update_satOr hnd a4 hlv (a5 j (2 * i) (by omega) hlv.left) (a5 j (2 * i + 1) (by omega) hlv.right)
      fun e => ⟨_, _, posOf_lt hlv, e⟩).mono ?_
    rintro _ ⟨x, hx, rfl⟩
    refine ⟨a1, a2, a3, by simp [a4], ?_⟩
    intro j' k hk hlv'
    by_cases e : k = i
    · subst e
      have := hlv.unique hlv'
      subst this
      exact NodeIs.set_self (by rw [a4]; exact hlv.k_le) hx
    · exact (a5 j' k (by omega) hlv').set_ne e
  · rintro t ⟨a1, a2, a3, a4, a5⟩
    exact ⟨a1, a3, a2, hl32, hle, a4, fun j k hlv => a5 j k hlv.pos hlv⟩

theorem aligned_set {a : List S} {p : Nat} {x : S} {op : S → S → Res S} {e : S} : ∀ j q, p / 2 ^ j ≠ q →
    aligned op e (a.set p x) j q = aligned op e a j q := by
  intro j
  induction j with
  | zero =>
    intro q h
    rw [Nat.pow_zero, Nat.div_one] at h
    simp only [aligned]
    rw [List.getD_eq_getElem?_getD, List.getD_eq_getElem?_getD, List.getElem?_set_ne (by omega)]
  | succ j ih =>
    intro q h
    rw [Nat.pow_succ, ← Nat.div_div_eq_div_mul] at h
    simp only [aligned]
    rw [ih _ (by omega), ih _ (by omega)]

theorem shift_pos {L p j : Nat} (hj : j ≤ L) : posOf L j ((p + 2 ^ L) >>> j) = p / 2 ^ j := by
  have e : 2 ^ L = 2 ^ j * 2 ^ (L - j) := by rw [← Nat.pow_add]; congr 1; omega
  unfold posOf
  rw [Nat.shiftRight_eq_div_pow, e, Nat.add_mul_div_left _ _ (Nat.two_pow_pos j), Nat.add_sub_cancel]

theorem set_satOr (hnd : ∀ x y, M.op x y ≠ .diverge) {t : Segtree S} {a : List S} {L : Nat} (hr : Holds M t a L)
    {p : Nat} {x : S} (hp : p < a.length) :
    SatOr (∃ j, j ≤ L ∧ aligned M.op M.e (a.set p x) j (p / 2 ^ j) = .panic) (t.set M p x)
      (fun t' => Holds M t' (a.set p x) L) := by
  have hle := hr.le
  have hs := hr.size
  unfold Segtree.set
  rw [assert_true (by rw [hr.n]; exact hp), ok_bind]
  simp only [hs, hr.log]
  rw [upd_of_lt (by rw [hr.len]; omega), ok_bind]
  refine (forRange_satOr (I := fun i (t' : Segtree S) => t'.n = a.length ∧ t'.log = L ∧
      t'.size = 2 ^ L ∧ t'.d.length = 2 * 2 ^ L ∧
      ∀ j k, Lvl (2 ^ L) j k → (j < i ∨ k ≠ (p + 2 ^ L) >>> j) →
        NodeIs M L (a.set p x) t'.d j k) (by omega) ?_ ?_).mono ?_
  · refine ⟨hr.n, rfl, rfl, by simp [hr.len], ?_⟩
    intro j k hlv hjk
    rcases Nat.eq_zero_or_pos j with rfl | hj
    · by_cases e : k = p + 2 ^ L
      · subst e
        refine NodeIs.set_self (by rw [hr.len]; omega) ?_
        rw [aligned, show posOf L 0 (p + 2 ^ L) = p by simp [posOf]]
        simp [hp]
      · obtain ⟨y, f1, f2⟩ := hr.node 0 k hlv
        refine NodeIs.set_ne e ⟨y, f1, ?_⟩
        rw [aligned_set _ _ ?_, f2]
        have := Lvl.ge hlv
        unfold posOf
        simp only [Nat.pow_zero, Nat.div_one, Nat.sub_zero] at *
        omega
    · have hk : k ≠ (p + 2 ^ L) >>> j := by omega
      have hkp : k ≠ p + 2 ^ L := by
        rintro rfl
        have h2 := hlv.j_zero (by omega)
        omega
      obtain ⟨y, f1, f2⟩ := hr.node j k hlv
      refine NodeIs.set_ne hkp ⟨y, f1, ?_⟩
      rw [aligned_set _ _ ?_, f2]
      have h3 := shift_pos (p := p) hlv.j_le
      have h4 := Lvl.ge (Lvl.shift (p := p + 2 ^ L) (by omega) (by omega) hlv.j_le)
      have h5 := Lvl.ge hlv
      unfold posOf at h3 ⊢
      omega
  · rintro i t' h1 h2 ⟨a1, a2, a3, a4, a5⟩
    obtain ⟨i, rfl⟩ : ∃ i', i = i' + 1 := ⟨i - 1, by omega⟩
    have hlv : Lvl (2 ^ L) (i + 1) ((p + 2 ^ L) >>> (i + 1)) := Lvl.shift (by omega) (by omega) (by omega)
    refine (update_satOr hnd a4 hlv (a5 i _ hlv.left (Or.inl (by omega))) (a5 i _ hlv.right (Or.inl (by omega)))
      fun e => ⟨i + 1, by omega, by rw [← shift_pos hlv.j_le]; exact e⟩).mono ?_
    rintro _ ⟨y, hy, rfl⟩
    refine ⟨a1, a2, a3, by simp [a4], ?_⟩
    intro j k hlvk hjk
    by_cases e : k = (p + 2 ^ L) >>> (i + 1)
    · subst e
      have := hlv.unique hlvk
      subst this
      exact NodeIs.set_self (by rw [a4]; exact hlv.k_le) hy
    · refine NodeIs.set_ne e (a5 j k hlvk ?_)
      by_cases hj : j < i + 1
      · exact Or.inl hj
      · right
        rintro rfl
        rcases hjk with hjk | hjk
        · have : j = i + 1 := by omega
          subst this; exact e rfl
        · exact hjk rfl
  · rintro t' ⟨a1, a2, a3, a4, a5⟩
    refine ⟨by simp [a1], a3, a2, hr.log32, by simp [hle], a4, ?_⟩
    intro j k hlv
    have := hlv.j_le
    exact a5 j k hlv (Or.inl (by omega))

theorem Holds.block {t : Segtree S} {a : List S} {L : Nat} (hr : Holds M t a L) {j q : Nat} (hj : j ≤ L)
    (h : (q + 1) * 2 ^ j ≤ 2 ^ L) : ∃ x, t.d[q + 2 ^ (L - j)]? = some x ∧ aligned M.op M.e a j q = ok x := by
  obtain ⟨h1, h2⟩ := lvl_of_pos hj h
  obtain ⟨x, e, f⟩ := hr.node _ _ h1
  rw [h2] at f
  exact ⟨x, e, f⟩

theorem Holds.get {t : Segtree S} {a : List S} {L : Nat} (hr : Holds M t a L) {p : Nat} (hp : p < a.length) :
    t.get p = ok a[p] := by
  have hle := hr.le
  obtain ⟨x, e, f⟩ := hr.block (j := 0) (q := p) (by omega) (by simp; omega)
  unfold Segtree.get
  rw [assert_true (by rw [hr.n]; exact hp), ok_bind, hr.size]
  rw [aligned] at f
  cases f
  rw [Nat.sub_zero] at e
  rw [idx_of_some e]
  simp [hp]

theorem Holds.allProd {t : Segtree S} {a : List S} {L : Nat} (hr : Holds M t a L) :
    t.allProd = aligned M.op M.e a L 0 := by
  obtain ⟨x, e, f⟩ := hr.block (j := L) (q := 0) (by omega) (by omega)
  unfold Segtree.allProd
  rw [Nat.sub_self, Nat.pow_zero] at e
  rw [idx_of_some e, f]

theorem firstBlk_succ (l j : Nat) : firstBlk l (j + 1) = (firstBlk l j + 1) / 2 := by
  unfold firstBlk
  have hp := Nat.two_pow_pos j
  rw [← Nat.add_div_right _ hp, Nat.pow_succ, ← Nat.div_div_eq_div_mul]
  congr 2
  omega

theorem endBlk_succ (r j : Nat) : endBlk r (j + 1) = endBlk r j / 2 := by
  unfold endBlk
  rw [Nat.pow_succ, ← Nat.div_div_eq_div_mul]

theorem blk_ge {l r j : Nat} (h : endBlk r j ≤ firstBlk l j) : ∀ i, endBlk r (j + i) ≤ firstBlk l (j + i) := by
  intro i
  induction i with
  | zero => exact h
  | succ i ih =>
    rw [← Nat.add_assoc, firstBlk_succ, endBlk_succ]
    omega

theorem parts_stop {op : S → S → Res S} {e : S} {a : List S} {L l r j : Nat} (h : endBlk r j ≤ firstBlk l j) :
    ∀ i, leftPart op e a L l r (j + i) = leftPart op e a L l r j ∧
      rightPart op e a L l r (j + i) = rightPart op e a L l r j := by
  intro i
  induction i with
  | zero => exact ⟨rfl, rfl⟩
  | succ i ih =>
    have h1 := blk_ge h i
    rw [← Nat.add_assoc, leftPart, rightPart, ih.1, ih.2]
    constructor
    · cases leftPart op e a L l r j <;> simp [Nat.not_lt.2 h1]
    · cases rightPart op e a L l r j <;> simp [Nat.not_lt.2 h1]

theorem parts_nd (hnd : ∀ x y, M.op x y ≠ .diverge) (a : List S) (L l r : Nat) : ∀ j,
    leftPart M.op M.e a L l r j ≠ .diverge ∧ rightPart M.op M.e a L l r j ≠ .diverge := by
  intro j
  induction j with
  | zero => constructor <;> (intro h; cases h)
  | succ j ih =>
    constructor
    · rw [leftPart]
      cases h : leftPart M.op M.e a L l r j with
      | diverge => exact absurd h ih.1
      | panic => simp
      | ok x =>
        rw [ok_bind]
        split
        · cases h2 : aligned M.op M.e a j (firstBlk l j) with
          | diverge => exact absurd h2 (aligned_nd hnd a _ _)
          | panic => simp
          | ok y => exact hnd x y
        · intro h; cases h
    · rw [rightPart]
      cases h : rightPart M.op M.e a L l r j with
      | diverge => exact absurd h ih.2
      | panic => simp
      | ok x =>
        rw [ok_bind]
        split
        · cases h2 : aligned M.op M.e a j (endBlk r j - 1) with
          | diverge => exact absurd h2 (aligned_nd hnd a _ _)
          | panic => simp
          | ok y => exact hnd y x
        · intro h; cases h

theorem parts_panic {op : S → S → Res S} {e : S} {a : List S} {L l r j : Nat} : ∀ i,
    (leftPart op e a L l r j = .panic → leftPart op e a L l r (j + i) = .panic) ∧
      (rightPart op e a L l r j = .panic → rightPart op e a L l r (j + i) = .panic) := by
  intro i
  induction i with
  | zero => exact ⟨id, id⟩
  | succ i ih =>
    rw [← Nat.add_assoc, leftPart, rightPart]
    exact ⟨fun h => by rw [ih.1 h]; rfl, fun h => by rw [ih.2 h]; rfl⟩

theorem treeProd_panic (hnd : ∀ x y, M.op x y ≠ .diverge) {a : List S} {L l r j : Nat} (hj : j ≤ L + 1)
    (h : leftPart M.op M.e a L l r j = .panic ∨ rightPart M.op M.e a L l r j = .panic) :
    treeProd M.op M.e a L l r = .panic := by
  unfold treeProd
  have hp := parts_panic (op := M.op) (e := M.e) (a := a) (L := L) (l := l) (r := r) (j := j) (L + 1 - j)
  rw [show j + (L + 1 - j) = L + 1 by omega] at hp
  rcases h with h | h
  · rw [hp.1 h]; rfl
  · cases hl : leftPart M.op M.e a L l r (L + 1) with
    | diverge => exact absurd hl (parts_nd hnd a L l r _).1
    | panic => rfl
    | ok x => rw [ok_bind, hp.2 h]; rfl

theorem firstBlk_zero (l : Nat) : firstBlk l 0 = l := by simp [firstBlk]
theorem endBlk_zero (r : Nat) : endBlk r 0 = r := by simp [endBlk]

theorem firstBlk_le_end {l r : Nat} (h : l ≤ r) : ∀ j, (∀ i, i < j → firstBlk l i < endBlk r i) →
    firstBlk l j ≤ endBlk r j := by
  intro j
  induction j with
  | zero => intro _; rw [firstBlk_zero, endBlk_zero]; exact h
  | succ j ih =>
    intro hi
    have := hi j (Nat.lt_succ_self j)
    rw [firstBlk_succ, endBlk_succ]
    omega

theorem endBlk_mul (r j : Nat) : endBlk r j * 2 ^ j ≤ r := Nat.div_mul_le_self r (2 ^ j)

theorem and_one_ne' {l : Nat} : (l &&& 1 ≠ 0) ↔ l % 2 = 1 := by
  rw [Nat.and_one_is_mod]; omega

theorem pow_mod2 {L j : Nat} (h : j < L) : 2 ^ (L - j) % 2 = 0 ∧ 2 ^ (L - j) = 2 * 2 ^ (L - (j + 1)) := by
  rw [show L - j = (L - (j + 1)) + 1 by omega, Nat.pow_succ]
  omega

theorem prod_eq (hnd : ∀ x y, M.op x y ≠ .diverge) {t : Segtree S} {a : List S} {L : Nat} (hr : Holds M t a L)
    {l r : Nat} (hlr : l ≤ r) (hrn : r ≤ a.length) : t.prod M l r = treeProd M.op M.e a L l r := by
  have hle := hr.le
  unfold Segtree.prod
  rw [assert_true ⟨hlr, by rw [hr.n]; exact hrn⟩, ok_bind, hr.size]
  have key : SatOr (treeProd M.op M.e a L l r = .panic) (whileLoop (r + 2 ^ L + 1)
    ((l + 2 ^ L, r + 2 ^ L, M.e, M.e) : Nat × Nat × S × S)
    (fun s => ok ((fun (s : Nat × Nat × S × S) => decide (s.1 < s.2.1)) s))
    (fun (l, r, sml, smr) => do
      let (l, sml) ← (if l &&& 1 ≠ 0 then do
          let x ← idx t.d l
          let sml ← M.op sml x
          ok (l + 1, sml)
        else ok (l, sml) : Res (Nat × S))
      let (r, smr) ← (if r &&& 1 ≠ 0 then do
          let x ← idx t.d (r - 1)
          let smr ← M.op x smr
          ok (r - 1, smr)
        else ok (r, smr) : Res (Nat × S))
      ok (l >>> 1, r >>> 1, sml, smr)))
    (fun st => (∃ j, j ≤ L + 1 ∧ (∀ i, i < j → firstBlk l i < endBlk r i) ∧
        (j ≤ L → st.1 = firstBlk l j + 2 ^ (L - j) ∧ st.2.1 = endBlk r j + 2 ^ (L - j)) ∧
        (j = L + 1 → st.2.1 ≤ st.1) ∧
        leftPart M.op M.e a L l r j = ok st.2.2.1 ∧ rightPart M.op M.e a L l r j = ok st.2.2.2) ∧
      (fun (s : Nat × Nat × S × S) => decide (s.1 < s.2.1)) st = false) := by
    refine whileLoop_satOr (fun (st : Nat × Nat × S × S) => ∃ j, j ≤ L + 1 ∧ (∀ i, i < j → firstBlk l i < endBlk r i) ∧
        (j ≤ L → st.1 = firstBlk l j + 2 ^ (L - j) ∧ st.2.1 = endBlk r j + 2 ^ (L - j)) ∧
        (j = L + 1 → st.2.1 ≤ st.1) ∧
        leftPart M.op M.e a L l r j = ok st.2.2.1 ∧ rightPart M.op M.e a L l r j = ok st.2.2.2) (fun (st : Nat × Nat × S × S) => st.2.1)
      ?_ _ _ ⟨0, by omega, fun i h => absurd h (by omega), fun _ => ?_, fun h => absurd h (by omega), rfl, rfl⟩ (by simp)
    swap
    · simp [firstBlk_zero, endBlk_zero]
    rintro ⟨x, y, sl, sr⟩ ⟨j, hj, hlt, hxy, hend, el, er⟩ hc
    have hc' : x < y := by simpa using hc
    have hjL : j ≤ L := by
      by_contra h
      have := hend (by omega)
      simp only at this
      omega
    obtain ⟨ex, ey⟩ := hxy hjL
    simp only at ex ey el er
    have hfe : firstBlk l j < endBlk r j := by omega
    have hel : endBlk r j * 2 ^ j ≤ 2 ^ L := by have := endBlk_mul r j; omega
    have hL2 : 2 ^ L = 2 ^ (L - j) * 2 ^ j := by rw [← Nat.pow_add]; congr 1; omega
    have hel2 : endBlk r j ≤ 2 ^ (L - j) := by
      rw [hL2] at hel
      exact Nat.le_of_mul_le_mul_right hel (Nat.two_pow_pos j)
    -- parities
    have hpx : x % 2 = 1 ↔ (firstBlk l j % 2 = 1 ∨ j = L) := by
      rcases Nat.lt_or_ge j L with h | h
      · have := pow_mod2 h; omega
      · have : j = L := by omega
        subst this
        rw [Nat.sub_self, Nat.pow_zero] at *
        omega
    have hpy : y % 2 = 1 ↔ (endBlk r j % 2 = 1 ∧ j ≠ L) := by
      rcases Nat.lt_or_ge j L with h | h
      · have := pow_mod2 h; omega
      · have : j = L := by omega
        subst this
        rw [Nat.sub_self, Nat.pow_zero] at *
        omega
    obtain ⟨nx, gx, hx⟩ := hr.block (j := j) (q := firstBlk l j) hjL
      (Nat.le_trans (Nat.mul_le_mul_right _ hfe) hel)
    obtain ⟨ny, gy, hy⟩ := hr.block (j := j) (q := endBlk r j - 1) hjL
      (by rw [Nat.sub_add_cancel (by omega)]; exact hel)
    rw [← ex] at gx
    rw [show endBlk r j - 1 + 2 ^ (L - j) = y - 1 by omega] at gy
    have eL : leftPart M.op M.e a L l r (j + 1) = if x % 2 = 1 then M.op sl nx else ok sl := by
      rw [leftPart, el, ok_bind]
      simp only [hfe, true_and, ← hpx, hx, ok_bind]
    have eR : rightPart M.op M.e a L l r (j + 1) = if y % 2 = 1 then M.op ny sr else ok sr := by
      rw [rightPart, er, ok_bind]
      simp only [hfe, true_and, ← hpy, hy, ok_bind]
    have stepL : SatOr (treeProd M.op M.e a L l r = .panic) (if x &&& 1 ≠ 0 then do
          let z ← idx t.d x
          let sml ← M.op sl z
          ok (x + 1, sml)
        else ok (x, sl) : Res (Nat × S)) (fun o => o.1 = x + x % 2 ∧ leftPart M.op M.e a L l r (j + 1) = ok o.2) := by
      by_cases h : x % 2 = 1
      · rw [if_pos (and_one_ne'.2 h), idx_of_some gx, ok_bind]
        rw [if_pos h] at eL
        rw [eL]
        cases ho : M.op sl nx with
        | diverge => exact absurd ho (hnd _ _)
        | panic => exact satOr_panic (treeProd_panic hnd (j := j + 1) (by omega) (.inl (by rw [eL, ho])))
        | ok z => rw [ok_bind, satOr_ok]; exact ⟨by simp only; omega, rfl⟩
      · rw [if_neg (fun h' => h (and_one_ne'.1 h')), satOr_ok]
        rw [if_neg h] at eL
        exact ⟨by simp only; omega, eL⟩
    have stepR : SatOr (treeProd M.op M.e a L l r = .panic) (if y &&& 1 ≠ 0 then do
          let z ← idx t.d (y - 1)
          let smr ← M.op z sr
          ok (y - 1, smr)
        else ok (y, sr) : Res (Nat × S)) (fun o => o.1 = y - y % 2 ∧ rightPart M.op M.e a L l r (j + 1) = ok o.2) := by
      by_cases h : y % 2 = 1
      · rw [if_pos (and_one_ne'.2 h), idx_of_some gy, ok_bind]
        rw [if_pos h] at eR
        rw [eR]
        cases ho : M.op ny sr with
        | diverge => exact absurd ho (hnd _ _)
        | panic => exact satOr_panic (treeProd_panic hnd (j := j + 1) (by omega) (.inr (by rw [eR, ho])))
        | ok z => rw [ok_bind, satOr_ok]; exact ⟨by simp only; omega, rfl⟩
      · rw [if_neg (fun h' => h (and_one_ne'.1 h')), satOr_ok]
        rw [if_neg h] at eR
        exact ⟨by simp only; omega, eR⟩
    simp only
    refine satOr_bind (stepL.mono ?_)
    rintro ⟨x', sl'⟩ ⟨h1, h2⟩
    simp only at h1 h2
    refine satOr_bind (stepR.mono ?_)
    rintro ⟨y', sr'⟩ ⟨h3, h4⟩
    simp only at h3 h4
    rw [satOr_ok]
    simp only [Nat.shiftRight_one]
    refine ⟨⟨j + 1, by omega, fun i hi => ?_, fun h => ?_, fun h => ?_, h2, h4⟩, by omega⟩
    · rcases Nat.lt_or_ge i j with h | h
      · exact hlt i h
      · have : i = j := by omega
        subst this; exact hfe
    · have := pow_mod2 (L := L) (j := j) (by omega)
      rw [firstBlk_succ, endBlk_succ]
      omega
    · have : j = L := by omega
      subst this
      rw [Nat.sub_self, Nat.pow_zero] at *
      omega
  rcases key with ⟨st, e, ⟨j, hj, hlt, hxy, hend, el, er⟩, hc⟩ | ⟨hp, e⟩
  · have e' := e
    refine Eq.trans (congrArg (· >>= _) e') ?_
    rw [ok_bind]
    obtain ⟨x, y, sl, sr⟩ := st
    simp only at el er
    have hc' : y ≤ x := by simpa using hc
    have hge : leftPart M.op M.e a L l r (L + 1) = ok sl ∧ rightPart M.op M.e a L l r (L + 1) = ok sr := by
      rcases Nat.lt_or_ge L j with h | h
      · have : j = L + 1 := by omega
        subst this; exact ⟨el, er⟩
      · obtain ⟨ex, ey⟩ := hxy h
        simp only at ex ey
        have := parts_stop (op := M.op) (e := M.e) (a := a) (L := L) (l := l) (r := r) (j := j) (by omega) (L + 1 - j)
        rw [show j + (L + 1 - j) = L + 1 by omega] at this
        rw [this.1, this.2]
        exact ⟨el, er⟩
    unfold treeProd
    rw [hge.1, ok_bind, hge.2, ok_bind]
  · rw [hp]
    exact congrArg (· >>= _) e

theorem size_lt {n : Nat} (h : 2 ^ 32 ≤ n) : (2 : Nat) ^ bitLen (n % 2 ^ 32 - 1) < n := by
  have hm : n % 2 ^ 32 < 2 ^ 32 := Nat.mod_lt _ (by omega)
  have hb : bitLen (n % 2 ^ 32 - 1) ≤ 32 := bitLen_le_iff.2 (by omega)
  have h1 : (2 : Nat) ^ bitLen (n % 2 ^ 32 - 1) ≤ 2 ^ 32 := Nat.pow_le_pow_right (by omega) hb
  rcases Nat.lt_or_ge (2 ^ bitLen (n % 2 ^ 32 - 1)) n with h | h3
  · exact h
  · have : n = 2 ^ 32 := by omega
    rw [this] at h3
    simp [bitLen] at h3

theorem from_too_long {a : List S} (h : 2 ^ 32 ≤ a.length) : Segtree.from M a = .panic := by
  unfold Segtree.from
  have hm : a.length % 2 ^ 32 < 2 ^ 32 := Nat.mod_lt _ (by omega)
  simp only [ceilLg_eq hm, ok_bind, Nat.one_shiftLeft]
  have h2 := size_lt h
  unfold writeSlice
  rw [if_neg (by rw [List.length_replicate]; omega)]
  rfl

end Verif.SegAny
