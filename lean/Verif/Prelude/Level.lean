import Mathlib.Tactic.Ring
import Verif.Prelude.Bits
/-! Levels of a perfect binary tree stored in an array: node `k` at height `j` covers the leaf
numbers `k * 2^j, …, (k+1) * 2^j - 1` (leaves are numbered `N .. 2N`). Proof helper. -/
namespace Verif

/-- node `k` has height `j` in the tree with `N` leaves. -/
def Lvl (N j k : ℕ) : Prop := N ≤ k * 2 ^ j ∧ k * 2 ^ j < 2 * N

theorem Lvl.pos {N j k : ℕ} (h : Lvl N j k) : 0 < k := by
  rcases Nat.eq_zero_or_pos k with rfl | hp
  · have := h.1; have := h.2; omega
  · exact hp

theorem Lvl.j_le {L j k : ℕ} (h : Lvl (2 ^ L) j k) : j ≤ L := by
  have h1 : 2 ^ j ≤ k * 2 ^ j := Nat.le_mul_of_pos_left _ h.pos
  have h2 := h.2
  rw [← Nat.pow_succ'] at h2
  have : 2 ^ j < 2 ^ (L + 1) := by omega
  exact Nat.lt_succ_iff.1 ((Nat.pow_lt_pow_iff_right (by omega)).1 this)

theorem Lvl.end_le {L j k : ℕ} (h : Lvl (2 ^ L) j k) : (k + 1) * 2 ^ j ≤ 2 * 2 ^ L := by
  have hj := h.j_le
  have e : 2 * 2 ^ L = 2 ^ (L + 1 - j) * 2 ^ j := by
    rw [← Nat.pow_add, ← Nat.pow_succ']; congr 1; omega
  have h2 := h.2
  rw [e] at h2 ⊢
  exact Nat.mul_le_mul_right _ (Nat.lt_of_mul_lt_mul_right h2)

theorem Lvl.of_end {N j k : ℕ} (h1 : N ≤ k * 2 ^ j) (h2 : (k + 1) * 2 ^ j ≤ 2 * N) : Lvl N j k := by
  refine ⟨h1, ?_⟩
  have := Nat.two_pow_pos j
  rw [Nat.add_mul, Nat.one_mul] at h2
  omega

theorem Lvl.unique {N i j k : ℕ} (h : Lvl N i k) (h' : Lvl N j k) : i = j := by
  have key : ∀ {i j}, Lvl N i k → Lvl N j k → ¬ i < j := by
    intro i j h h' hlt
    have h1 := h.1
    have h2 := h'.2
    have : 2 ^ (i + 1) ≤ 2 ^ j := Nat.pow_le_pow_right (by omega) hlt
    have : k * 2 ^ (i + 1) ≤ k * 2 ^ j := Nat.mul_le_mul_left _ this
    have e : k * 2 ^ (i + 1) = 2 * (k * 2 ^ i) := by rw [Nat.pow_succ]; ring
    omega
  have := key h h'
  have := key h' h
  omega

theorem Lvl.j_zero {N j k : ℕ} (h : Lvl N j k) (hk : N ≤ k) : j = 0 := by
  have h1 := h.2
  apply Classical.byContradiction; intro hj
  have : 2 ^ 1 ≤ 2 ^ j := Nat.pow_le_pow_right (by omega) (by omega)
  have : k * 2 ^ 1 ≤ k * 2 ^ j := Nat.mul_le_mul_left _ this
  omega

theorem Lvl.j_pos {N j k : ℕ} (h : Lvl N j k) (hk : k < N) : 0 < j := by
  rcases Nat.eq_zero_or_pos j with rfl | hp
  · have := h.1; simp at this; omega
  · exact hp

theorem Lvl.k_le {N j k : ℕ} (h : Lvl N j k) : k < 2 * N := by
  have := h.2
  have : k * 1 ≤ k * 2 ^ j := Nat.mul_le_mul_left _ (Nat.two_pow_pos j)
  omega

/-- start of the left child -/
theorem lc_start (k j : ℕ) : (2 * k) * 2 ^ j = k * 2 ^ (j + 1) := by rw [Nat.pow_succ]; ring
theorem rc_end (k j : ℕ) : (2 * k + 1 + 1) * 2 ^ j = (k + 1) * 2 ^ (j + 1) := by
  rw [Nat.pow_succ]; ring
theorem lc_end (k j : ℕ) : (2 * k + 1) * 2 ^ j = k * 2 ^ (j + 1) + 2 ^ j := by
  rw [Nat.pow_succ]; ring

theorem Lvl.left {L j k : ℕ} (h : Lvl (2 ^ L) (j + 1) k) : Lvl (2 ^ L) j (2 * k) := by
  unfold Lvl; rw [lc_start]; exact h

theorem Lvl.right {L j k : ℕ} (h : Lvl (2 ^ L) (j + 1) k) : Lvl (2 ^ L) j (2 * k + 1) := by
  have h1 := h.end_le
  have h2 := h.1
  apply Lvl.of_end
  · rw [lc_end]; exact Nat.le_add_right_of_le h2
  · rw [rc_end]; exact h1

/-- The ancestors of leaf `p`. -/
theorem Lvl.shift {L p i : ℕ} (h1 : 2 ^ L ≤ p) (h2 : p < 2 * 2 ^ L) (hi : i ≤ L) :
    Lvl (2 ^ L) i (p >>> i) := by
  rw [Nat.shiftRight_eq_div_pow]
  constructor
  · have : 2 ^ L / 2 ^ i ≤ p / 2 ^ i := Nat.div_le_div_right h1
    have h3 : 2 ^ L / 2 ^ i * 2 ^ i = 2 ^ L := Nat.div_mul_cancel (Nat.pow_dvd_pow 2 hi)
    have := Nat.mul_le_mul_right (2 ^ i) this
    omega
  · have := Nat.div_mul_le_self p (2 ^ i)
    omega

theorem Lvl.parent {L j k : ℕ} (h : Lvl (2 ^ L) j k) (hk : 1 < k) : Lvl (2 ^ L) (j + 1) (k / 2) := by
  have hj : j + 1 ≤ L := by
    have h1 : 2 * 2 ^ j ≤ k * 2 ^ j := Nat.mul_le_mul_right _ hk
    have h2 := h.2
    rw [← Nat.pow_succ'] at h2 h1
    have : 2 ^ (j + 1) < 2 ^ (L + 1) := by omega
    exact Nat.lt_succ_iff.1 ((Nat.pow_lt_pow_iff_right (by omega)).1 this)
  have := Lvl.shift h.1 h.2 hj
  rw [Nat.shiftRight_eq_div_pow, Nat.pow_succ, Nat.mul_comm (2 ^ j) 2,
    Nat.mul_div_mul_right _ _ (Nat.two_pow_pos j)] at this
  exact this

/-- A node end that is a power of two times `2^j` is the end of the whole leaf range. -/
theorem end_pow2 {L j m : ℕ} (h1 : 2 ^ L < 2 ^ m * 2 ^ j) (h2 : 2 ^ m * 2 ^ j ≤ 2 * 2 ^ L) :
    2 ^ m * 2 ^ j = 2 * 2 ^ L := by
  rw [← Nat.pow_add] at *
  rw [← Nat.pow_succ'] at *
  have := (Nat.pow_lt_pow_iff_right (a := 2) (by omega)).1 h1
  have := (Nat.pow_le_pow_iff_right (a := 2) (by omega)).1 h2
  congr 1; omega

theorem pow2_of_mul {x j n : ℕ} (h : x * 2 ^ j = 2 ^ n) : ∃ m, x = 2 ^ m := by
  have hx : 0 < x := by
    rcases Nat.eq_zero_or_pos x with rfl | hp
    · have := Nat.two_pow_pos n; omega
    · exact hp
  have hj : j ≤ n := by
    have : 2 ^ j ≤ 2 ^ n := by rw [← h]; exact Nat.le_mul_of_pos_left _ hx
    exact (Nat.pow_le_pow_iff_right (by omega)).1 this
  refine ⟨n - j, ?_⟩
  have e : 2 ^ n = 2 ^ (n - j) * 2 ^ j := by rw [← Nat.pow_add]; congr 1; omega
  rw [e] at h
  exact Nat.eq_of_mul_eq_mul_right (Nat.two_pow_pos j) h

theorem shift_contains (p i : ℕ) : (p >>> i) * 2 ^ i ≤ p ∧ p < (p >>> i + 1) * 2 ^ i := by
  rw [Nat.shiftRight_eq_div_pow]
  refine ⟨Nat.div_mul_le_self p (2 ^ i), ?_⟩
  exact Nat.lt_mul_of_div_lt (Nat.lt_succ_self _) (Nat.two_pow_pos i)

theorem shift_unique {p i k : ℕ} (h1 : k * 2 ^ i ≤ p) (h2 : p < (k + 1) * 2 ^ i) : p >>> i = k := by
  rw [Nat.shiftRight_eq_div_pow]
  exact Nat.div_eq_of_lt_le h1 h2

/-- The ancestor at height `s` of a leaf of node `(j, k)` contains the whole node. -/
theorem anc {i j k s : ℕ} (hs : j < s) (h1 : k * 2 ^ j ≤ i) (h2 : i < (k + 1) * 2 ^ j) :
    (i >>> s) * 2 ^ s ≤ k * 2 ^ j ∧ (k + 1) * 2 ^ j ≤ (i >>> s + 1) * 2 ^ s := by
  have hc := shift_contains i s
  have e : ∀ y : ℕ, y * 2 ^ s = y * 2 ^ (s - j) * 2 ^ j := by
    intro y; rw [Nat.mul_assoc, ← Nat.pow_add]; congr 2; omega
  have hp := Nat.two_pow_pos j
  rw [e, e (i >>> s + 1)] at *
  constructor
  · have : i >>> s * 2 ^ (s - j) * 2 ^ j < (k + 1) * 2 ^ j := by omega
    have := Nat.lt_of_mul_lt_mul_right this
    exact Nat.mul_le_mul_right _ (by omega)
  · have : k * 2 ^ j < (i >>> s + 1) * 2 ^ (s - j) * 2 ^ j := by omega
    have := Nat.lt_of_mul_lt_mul_right this
    exact Nat.mul_le_mul_right _ (by omega)

theorem anc_odd_left {j k s y : ℕ} (hs : j < s) (hk : k % 2 = 1) (h : y * 2 ^ s ≤ k * 2 ^ j) :
    y * 2 ^ s + 2 ^ j ≤ k * 2 ^ j := by
  have e : y * 2 ^ s = y * 2 ^ (s - j - 1) * 2 * 2 ^ j := by
    rw [Nat.mul_assoc, Nat.mul_assoc, ← Nat.pow_succ', ← Nat.pow_add]; congr 2; omega
  rw [e] at h ⊢
  have := Nat.le_of_mul_le_mul_right h (Nat.two_pow_pos j)
  rw [← Nat.succ_mul]
  exact Nat.mul_le_mul_right _ (by omega)

theorem anc_odd_right {j k s y : ℕ} (hs : j < s) (hk : k % 2 = 1) (h : k * 2 ^ j ≤ y * 2 ^ s) :
    k * 2 ^ j + 2 ^ j ≤ y * 2 ^ s := by
  have e : y * 2 ^ s = y * 2 ^ (s - j - 1) * 2 * 2 ^ j := by
    rw [Nat.mul_assoc, Nat.mul_assoc, ← Nat.pow_succ', ← Nat.pow_add]; congr 2; omega
  rw [e] at h ⊢
  have := Nat.le_of_mul_le_mul_right h (Nat.two_pow_pos j)
  rw [← Nat.succ_mul]
  exact Nat.mul_le_mul_right _ (by omega)

theorem Lvl.exists_succ {L i : ℕ} (h1 : 0 < i) (h2 : i < 2 ^ L) : ∃ j, Lvl (2 ^ L) (j + 1) i := by
  have hlg : Nat.log2 i < L := (Nat.log2_lt (by omega)).2 h2
  refine ⟨L - Nat.log2 i - 1, ?_⟩
  rw [show L - Nat.log2 i - 1 + 1 = L - Nat.log2 i by omega]
  have e : 2 ^ L = 2 ^ Nat.log2 i * 2 ^ (L - Nat.log2 i) := by
    rw [← Nat.pow_add]; congr 1; omega
  have hp := Nat.two_pow_pos (L - Nat.log2 i)
  constructor
  · rw [e]; exact Nat.mul_le_mul_right _ (Nat.log2_self_le (by omega))
  · have : i < 2 * 2 ^ Nat.log2 i := by
      rw [← Nat.pow_succ']; exact Nat.lt_log2_self
    have := Nat.mul_lt_mul_of_pos_right this hp
    rw [Nat.mul_assoc, ← e] at this
    exact this

/-- A node strictly contains the boundary `b`. -/
def Str (b s x : ℕ) : Prop := x * 2 ^ s < b ∧ b < (x + 1) * 2 ^ s

theorem Str.shift {b s x : ℕ} (h : Str b s x) : b >>> s = x ∧ (b >>> s) <<< s ≠ b := by
  have e := shift_unique (Nat.le_of_lt h.1) h.2
  refine ⟨e, ?_⟩
  rw [e, Nat.shiftLeft_eq]
  have := h.1; omega

theorem str_of_ne {b s : ℕ} (h : (b >>> s) <<< s ≠ b) : Str b s (b >>> s) := by
  have := shift_contains b s
  rw [Nat.shiftLeft_eq] at h
  exact ⟨by omega, this.2⟩

theorem Str.pred {b s x : ℕ} (h : Str b s x) : (b - 1) >>> s = x :=
  shift_unique (by have := h.1; omega) (by have := h.2; omega)

end Verif
