import Mathlib.Logic.Function.Basic
import Verif.Prelude.Level
import Verif.Prelude.RangeProd
import Verif.Spec.LazySegtree
/-! Lazy segment tree as a pair of functions: effect of `all_apply`, `push`, `update` on the leaf
contents seen from each height. -/
namespace Verif.LazyP
open Model Spec

/-- Functional view of the arrays `d`, `lz`. -/
structure View (S F : Type) where
  D : ℕ → S
  Z : ℕ → F

variable {S F : Type} [Monoid S] {M : MapOps S F}

/-- Contents of leaf `i` including the pending maps of its ancestors at heights `1..h`. -/
def V (M : MapOps S F) (v : View S F) : ℕ → ℕ → S
  | 0, i => v.D i
  | h + 1, i => M.mapping (v.Z (i >>> (h + 1))) (V M v h i)

def applyV (M : MapOps S F) (N : ℕ) (v : View S F) (k : ℕ) (f : F) : View S F :=
  { D := Function.update v.D k (M.mapping f (v.D k))
    Z := if k < N then Function.update v.Z k (M.comp f (v.Z k)) else v.Z }

def pushV (M : MapOps S F) (N : ℕ) (v : View S F) (k : ℕ) : View S F :=
  let w := applyV M N (applyV M N v (2 * k) (v.Z k)) (2 * k + 1) (v.Z k)
  { w with Z := Function.update w.Z k M.idMap }

def updateV (M : MapOps S F) (v : View S F) (k : ℕ) : View S F :=
  { v with D := Function.update v.D k (M.op (v.D (2 * k)) (v.D (2 * k + 1))) }

/-- Node `(j, k)` holds the product of its leaves, pending maps up to its own included. -/
def NI (M : MapOps S F) (v : View S F) (j k : ℕ) : Prop :=
  v.D k = rprod (V M v j) (k * 2 ^ j) ((k + 1) * 2 ^ j)

theorem V_congr {v w : View S F} {h i : ℕ} (hD : v.D i = w.D i)
    (hZ : ∀ s, 1 ≤ s → s ≤ h → v.Z (i >>> s) = w.Z (i >>> s)) : V M v h i = V M w h i := by
  induction h with
  | zero => exact hD
  | succ h ih =>
    simp only [V]
    rw [hZ (h + 1) (by omega) (by omega), ih (fun s h1 h2 => hZ s h1 (by omega))]

theorem V_top (hM : LawfulMap M) {v : View S F} {i j h : ℕ} (hjh : j ≤ h)
    (hZ : ∀ s, j < s → s ≤ h → v.Z (i >>> s) = M.idMap) : V M v h i = V M v j i := by
  induction h with
  | zero => have : j = 0 := by omega
            subst this; rfl
  | succ h ih =>
    rcases Nat.lt_or_ge h j with hlt | hge
    · have : j = h + 1 := by omega
      subst this; rfl
    · simp only [V]
      rw [hZ (h + 1) (by omega) (by omega), hM.id_map,
        ih hge (fun s h1 h2 => hZ s h1 (by omega))]

/-- Upper heights: agreement at `j` and equal pending maps above give agreement above. -/
theorem V_above {v w : View S F} {i j h : ℕ} (hjh : j ≤ h) (h0 : V M v j i = V M w j i)
    (hZ : ∀ s, j < s → s ≤ h → v.Z (i >>> s) = w.Z (i >>> s)) : V M v h i = V M w h i := by
  induction h with
  | zero => have : j = 0 := by omega
            subst this; exact h0
  | succ h ih =>
    rcases Nat.lt_or_ge h j with hlt | hge
    · have : j = h + 1 := by omega
      subst this; exact h0
    · simp only [V]
      rw [hZ (h + 1) (by omega) (by omega), ih hge (fun s h1 h2 => hZ s h1 (by omega))]

theorem map_rprod (hM : LawfulMap M) (f : F) (c : ℕ → S) {lo hi : ℕ} (h : lo < hi) :
    M.mapping f (rprod c lo hi) = rprod (fun i => M.mapping f (c i)) lo hi := by
  induction hi with
  | zero => omega
  | succ hi ih =>
    rcases Nat.lt_or_ge lo hi with h1 | h1
    · rw [rprod_succ (by omega), rprod_succ (by omega), hM.map_op, ih h1]
    · have : lo = hi := by omega
      subst this; simp

/-- Node `(s, i >>> s)` equals node `(j, k)` only at the same height. -/
theorem shift_eq_node {L s j k i : ℕ} (h1 : 2 ^ L ≤ i) (h2 : i < 2 * 2 ^ L) (hs : s ≤ L)
    (hk : Lvl (2 ^ L) j k) (e : i >>> s = k) : s = j := by
  have := Lvl.shift h1 h2 hs
  rw [e] at this
  exact this.unique hk

theorem _root_.Verif.Lvl.lt_of_pos {L j k : ℕ} (h : Lvl (2 ^ L) j k) (hj : 0 < j) : k < 2 ^ L := by
  have h2 := h.2
  have h3 : 2 ^ 1 ≤ 2 ^ j := Nat.pow_le_pow_right (by omega) hj
  have h4 : k * 2 ^ 1 ≤ k * 2 ^ j := Nat.mul_le_mul_left _ h3
  omega

theorem under_iff {i j k : ℕ} : i >>> j = k ↔ k * 2 ^ j ≤ i ∧ i < (k + 1) * 2 ^ j := by
  constructor
  · rintro rfl; exact shift_contains i j
  · rintro ⟨h1, h2⟩; exact shift_unique h1 h2

section apply
variable {L j k : ℕ} {v : View S F} {f : F}

theorem applyV_D_ne {x : ℕ} (h : x ≠ k) : (applyV M (2 ^ L) v k f).D x = v.D x := by
  simp [applyV, h]

theorem applyV_Z_ne {x : ℕ} (h : x ≠ k) : (applyV M (2 ^ L) v k f).Z x = v.Z x := by
  unfold applyV; simp only; split
  · simp [h]
  · rfl

theorem apply_same (hk : Lvl (2 ^ L) j k) {s i : ℕ} (h1 : 2 ^ L ≤ i) (h2 : i < 2 * 2 ^ L)
    (hs : s ≤ L) (h : s < j ∨ i >>> j ≠ k) :
    V M (applyV M (2 ^ L) v k f) s i = V M v s i := by
  apply V_congr
  · apply applyV_D_ne
    rintro rfl
    have e : j = 0 := hk.j_zero h1
    subst e
    rcases h with h | h
    · omega
    · exact h rfl
  · intro s' hs1 hs2
    apply applyV_Z_ne
    intro e
    have := shift_eq_node h1 h2 (by omega) hk e
    subst this
    rcases h with h | h
    · omega
    · exact h e

theorem apply_under (hM : LawfulMap M) (hk : Lvl (2 ^ L) j k) {i : ℕ} (h : i >>> j = k) :
    V M (applyV M (2 ^ L) v k f) j i = M.mapping f (V M v j i) := by
  have hb := under_iff.1 h
  have h1 := hk.1
  have h2 := hk.end_le
  cases j with
  | zero =>
    simp at h; subst h
    simp [V, applyV]
  | succ j =>
    simp only [V]
    rw [apply_same hk (by omega) (by omega) (by have := hk.j_le; omega) (Or.inl (Nat.lt_succ_self j)), h]
    simp only [applyV, hk.lt_of_pos (Nat.succ_pos j), if_true, Function.update_self]
    rw [hM.comp_map]

theorem NI_congr {v w : View S F} {s x : ℕ} (hx : Lvl (2 ^ L) s x) (hD : v.D x = w.D x)
    (hV : ∀ i, 2 ^ L ≤ i → i < 2 * 2 ^ L → i >>> s = x → V M v s i = V M w s i) (h : NI M w s x) :
    NI M v s x := by
  unfold NI at h ⊢
  rw [hD, h]
  apply rprod_congr
  intro i hi1 hi2
  have h1 := hx.1
  have h2 := hx.end_le
  exact (hV i (by omega) (by omega) (under_iff.2 ⟨hi1, hi2⟩)).symm

theorem apply_NI_self (hM : LawfulMap M) (hk : Lvl (2 ^ L) j k) (h : NI M v j k) :
    NI M (applyV M (2 ^ L) v k f) j k := by
  unfold NI at h ⊢
  have hp := Nat.two_pow_pos j
  have : k * 2 ^ j < (k + 1) * 2 ^ j := by rw [Nat.add_mul]; omega
  have e : (applyV M (2 ^ L) v k f).D k = M.mapping f (v.D k) := by simp [applyV]
  rw [e, h, map_rprod hM f _ this]
  apply rprod_congr
  intro i h1 h2
  rw [apply_under hM hk (under_iff.2 ⟨h1, h2⟩)]

theorem apply_NI_ne (hk : Lvl (2 ^ L) j k) {s x : ℕ} (hx : Lvl (2 ^ L) s x) (hne : x ≠ k)
    (hs : s ≤ j ∨ ∀ i, i >>> s = x → i >>> j ≠ k) (h : NI M v s x) :
    NI M (applyV M (2 ^ L) v k f) s x := by
  apply NI_congr hx (applyV_D_ne hne) _ h
  intro i h1 h2 hi
  apply apply_same hk h1 h2 hx.j_le
  rcases hs with hs | hs
  · rcases Nat.lt_or_ge s j with h' | h'
    · exact Or.inl h'
    · have : s = j := by omega
      subst this
      right; rw [hi]; exact hne
  · exact Or.inr (hs i hi)

end apply

section push
variable {L j k : ℕ} {v : View S F}

theorem child_cases {i : ℕ} (h : i >>> (j + 1) = k) : i >>> j = 2 * k ∨ i >>> j = 2 * k + 1 := by
  rw [Nat.shiftRight_succ] at h
  omega

theorem child_parent {i : ℕ} (h : i >>> j = 2 * k ∨ i >>> j = 2 * k + 1) : i >>> (j + 1) = k := by
  rw [Nat.shiftRight_succ]
  omega

theorem push_spec (hM : LawfulMap M) (hk : Lvl (2 ^ L) (j + 1) k)
    (hI : ∀ s x, Lvl (2 ^ L) s x → NI M v s x) :
    (∀ s x, Lvl (2 ^ L) s x → NI M (pushV M (2 ^ L) v k) s x) ∧
    (∀ s i, j + 1 ≤ s → s ≤ L → 2 ^ L ≤ i → i < 2 * 2 ^ L →
      V M (pushV M (2 ^ L) v k) s i = V M v s i) ∧
    (pushV M (2 ^ L) v k).Z k = M.idMap ∧
    (∀ s x, j + 1 ≤ s → Lvl (2 ^ L) s x → v.Z x = M.idMap →
      (pushV M (2 ^ L) v k).Z x = M.idMap) := by
  have hl := hk.left
  have hr := hk.right
  have hpos := hk.pos
  have hjL := hk.j_le
  set w1 := applyV M (2 ^ L) v (2 * k) (v.Z k) with hw1
  set w2 := applyV M (2 ^ L) w1 (2 * k + 1) (v.Z k) with hw2
  have hw : pushV M (2 ^ L) v k = { w2 with Z := Function.update w2.Z k M.idMap } := rfl
  rw [hw]
  set w3 : View S F := { w2 with Z := Function.update w2.Z k M.idMap } with hw3
  have hZ3 : ∀ x, x ≠ k → w3.Z x = w2.Z x := by
    intro x hx; simp [hw3, hx]
  -- heights up to `j`: the last step changes nothing
  have h32 : ∀ s i, s ≤ j → 2 ^ L ≤ i → i < 2 * 2 ^ L → V M w3 s i = V M w2 s i := by
    intro s i hs h1 h2
    apply V_congr (v := w3) (w := w2) (M := M) rfl
    intro s' hs1 hs2
    apply hZ3
    intro e
    have := shift_eq_node h1 h2 (by omega) hk e
    omega
  have hZ : ∀ s x, j + 1 ≤ s → Lvl (2 ^ L) s x → x ≠ k → w3.Z x = v.Z x := by
    intro s x hs hx hne
    have e1 : x ≠ 2 * k := by rintro rfl; have := hx.unique hl; omega
    have e2 : x ≠ 2 * k + 1 := by rintro rfl; have := hx.unique hr; omega
    rw [hZ3 x hne, hw2, applyV_Z_ne e2, hw1, applyV_Z_ne e1]
  have hD : ∀ s x, j + 1 ≤ s → Lvl (2 ^ L) s x → w3.D x = v.D x := by
    intro s x hs hx
    have e1 : x ≠ 2 * k := by rintro rfl; have := hx.unique hl; omega
    have e2 : x ≠ 2 * k + 1 := by rintro rfl; have := hx.unique hr; omega
    show w2.D x = v.D x
    rw [hw2, applyV_D_ne e2, hw1, applyV_D_ne e1]
  have hZk : w3.Z k = M.idMap := by simp [hw3]
  have hbase : ∀ i, 2 ^ L ≤ i → i < 2 * 2 ^ L → V M w3 (j + 1) i = V M v (j + 1) i := by
    intro i h1 h2
    simp only [V]
    rw [h32 j i (Nat.le_refl _) h1 h2]
    by_cases hu : i >>> (j + 1) = k
    · rw [hu, hZk, hM.id_map]
      rcases child_cases hu with hc | hc
      · rw [hw2, apply_same hr h1 h2 (by omega) (Or.inr (by omega)), hw1, apply_under hM hl hc]
      · rw [hw2, apply_under hM hr hc, hw1, apply_same hl h1 h2 (by omega) (Or.inr (by omega))]
    · have n1 : i >>> j ≠ 2 * k := fun h => hu (child_parent (Or.inl h))
      have n2 : i >>> j ≠ 2 * k + 1 := fun h => hu (child_parent (Or.inr h))
      rw [hw2, apply_same hr h1 h2 (by omega) (Or.inr n2), hw1,
        apply_same hl h1 h2 (by omega) (Or.inr n1),
        hZ (j + 1) _ (Nat.le_refl _) (Lvl.shift h1 h2 hjL) hu]
  have hV : ∀ s i, j + 1 ≤ s → s ≤ L → 2 ^ L ≤ i → i < 2 * 2 ^ L → V M w3 s i = V M v s i := by
    intro s i hs hsL h1 h2
    apply V_above hs (hbase i h1 h2)
    intro s' hs1 hs2
    apply hZ s' _ (by omega) (Lvl.shift h1 h2 (by omega))
    intro e
    have := shift_eq_node h1 h2 (by omega) hk e
    omega
  refine ⟨?_, hV, hZk, ?_⟩
  · intro s x hx
    rcases Nat.lt_or_ge j s with hs | hs
    · exact NI_congr hx (hD s x hs hx) (fun i h1 h2 _ => hV s i hs hx.j_le h1 h2) (hI s x hx)
    · apply NI_congr (M := M) hx (v := w3) (w := w2) rfl (fun i h1 h2 _ => h32 s i hs h1 h2)
      have i1 : NI M w1 s x := by
        by_cases e : x = 2 * k
        · subst e
          have := hx.unique hl; subst this
          exact apply_NI_self hM hx (hI _ _ hx)
        · exact apply_NI_ne hl hx e (Or.inl hs) (hI _ _ hx)
      by_cases e : x = 2 * k + 1
      · subst e
        have := hx.unique hr; subst this
        exact apply_NI_self hM hx i1
      · exact apply_NI_ne hr hx e (Or.inl hs) i1
  · intro s x hs hx hz
    by_cases e : x = k
    · rw [e]; exact hZk
    · rw [hZ s x hs hx e]; exact hz

end push

section update
variable {L j k : ℕ} {v : View S F}

theorem updateV_V (hk : Lvl (2 ^ L) (j + 1) k) {s i : ℕ} (h1 : 2 ^ L ≤ i) :
    V M (updateV M v k) s i = V M v s i := by
  apply V_congr
  · have := hk.lt_of_pos (Nat.succ_pos j)
    simp [updateV, show i ≠ k by omega]
  · intros; rfl

theorem update_NI_self (hM : LawfulMap M) (hk : Lvl (2 ^ L) (j + 1) k) (hz : v.Z k = M.idMap)
    (hl : NI M v j (2 * k)) (hr : NI M v j (2 * k + 1)) : NI M (updateV M v k) (j + 1) k := by
  unfold NI at hl hr ⊢
  have e : (updateV M v k).D k = v.D (2 * k) * v.D (2 * k + 1) := by simp [updateV, hM.op_eq]
  have hp := Nat.two_pow_pos j
  have hkp : k * 2 ^ (j + 1) + 2 ^ j ≤ (k + 1) * 2 ^ (j + 1) := by
    rw [← lc_end, ← rc_end]; exact Nat.mul_le_mul_right _ (by omega)
  rw [e, hl, hr, lc_start, rc_end, lc_end, rprod_split (by omega) hkp]
  apply rprod_congr
  intro i h1 h2
  have hk1 := hk.1
  rw [updateV_V hk (by omega)]
  simp only [V]
  rw [under_iff.2 ⟨h1, h2⟩, hz, hM.id_map]

theorem update_NI_ne (hk : Lvl (2 ^ L) (j + 1) k) {s x : ℕ} (hx : Lvl (2 ^ L) s x) (hne : x ≠ k)
    (h : NI M v s x) : NI M (updateV M v k) s x :=
  NI_congr hx (by simp [updateV, hne]) (fun _ h1 _ _ => updateV_V hk h1) h

end update

end Verif.LazyP
