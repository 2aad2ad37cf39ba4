import Verif.Proof.LazyView
import Verif.Spec.LazyFit
/-! Pending maps of a lazy segment tree against the maps applied to each position. -/
namespace Verif.LazyF
open Model Spec LazyP

variable {S F : Type} [Monoid S] {M : MapOps S F}

/-- Composition of the pending maps at heights `s + 1 .. s + n` above leaf `i`. -/
def K (M : MapOps S F) (v : View S F) (i s : ℕ) : ℕ → F
  | 0 => M.idMap
  | n + 1 => M.comp (v.Z (i >>> (s + n + 1))) (K M v i s n)

theorem K_congr {v w : View S F} {i s n : ℕ}
    (hZ : ∀ x, s < x → x ≤ s + n → v.Z (i >>> x) = w.Z (i >>> x)) : K M v i s n = K M w i s n := by
  induction n with
  | zero => rfl
  | succ n ih =>
    simp only [K]
    rw [hZ (s + n + 1) (by omega) (by omega), ih fun x h1 h2 => hZ x h1 (by omega)]

theorem K_id (hG : LawfulComp M) {v : View S F} {i s n : ℕ}
    (hZ : ∀ x, s < x → x ≤ s + n → v.Z (i >>> x) = M.idMap) : K M v i s n = M.idMap := by
  induction n with
  | zero => rfl
  | succ n ih =>
    simp only [K]
    rw [hZ (s + n + 1) (by omega) (by omega), ih fun x h1 h2 => hZ x h1 (by omega), hG.id_left]

theorem K_add (hG : LawfulComp M) {v : View S F} {i s m n : ℕ} :
    K M v i s (m + n) = M.comp (K M v i (s + m) n) (K M v i s m) := by
  induction n with
  | zero => simp only [K, Nat.add_zero, hG.id_left]
  | succ n ih =>
    rw [← Nat.add_assoc]
    simp only [K]
    rw [ih, hG.assoc, show s + (m + n) + 1 = s + m + n + 1 by omega]

theorem K_one (hG : LawfulComp M) {v : View S F} {i s : ℕ} : K M v i s 1 = v.Z (i >>> (s + 1)) := by
  simp only [K, Nat.add_zero, hG.id_right]

section push
variable {L j k : ℕ} {v : View S F}

theorem applyV_Z {N x : ℕ} {f : F} : (applyV M N v k f).Z x =
    if x = k ∧ k < N then M.comp f (v.Z k) else v.Z x := by
  unfold applyV
  simp only
  by_cases h : k < N
  · rw [if_pos h]
    by_cases e : x = k
    · rw [if_pos ⟨e, h⟩, e, Function.update_self]
    · rw [if_neg (fun h => e h.1), Function.update_of_ne e]
  · rw [if_neg h, if_neg (fun k => h k.2)]

/-- The map at a node next to or below the pushed one. -/
theorem pushV_Z {x : ℕ} (h : 0 < k) : (pushV M (2 ^ L) v k).Z x =
    if x = k then M.idMap else if (x = 2 * k ∨ x = 2 * k + 1) ∧ x < 2 ^ L then M.comp (v.Z k) (v.Z x) else v.Z x := by
  unfold pushV
  simp only
  by_cases e : x = k
  · simp [e]
  rw [Function.update_of_ne e, if_neg e, applyV_Z, applyV_Z, applyV_Z]
  by_cases c1 : x = 2 * k
  · subst c1
    rw [if_neg (by omega)]
    simp only [true_and, true_or]
  · by_cases c2 : x = 2 * k + 1
    · subst c2
      rw [if_neg (show ¬ (2 * k + 1 = 2 * k ∧ 2 * k < 2 ^ L) by omega)]
      simp only [true_and, or_true]
    · rw [if_neg (by omega), if_neg (by omega), if_neg (by omega)]

/-- A push keeps the composition of the maps above a leaf from every height, except that it moves the map
of the node itself below it. -/
theorem push_K (hG : LawfulComp M) (hk : Lvl (2 ^ L) (j + 1) k) {i s : ℕ} (h1 : 2 ^ L ≤ i) (h2 : i < 2 * 2 ^ L)
    (hs : s ≤ L) : ∃ s', s' ≤ L ∧ K M (pushV M (2 ^ L) v k) i s (L - s) = K M v i s' (L - s') := by
  have hpos := hk.pos
  have hjL := hk.j_le
  have hl := hk.left
  have hr := hk.right
  -- which node of the path is touched
  have hup : ∀ x, x ≤ L → x ≠ j → x ≠ j + 1 → (pushV M (2 ^ L) v k).Z (i >>> x) = v.Z (i >>> x) := by
    intro x hx n1 n2
    rw [pushV_Z hpos, if_neg, if_neg]
    · rintro ⟨e | e, -⟩
      · exact n1 (shift_eq_node h1 h2 hx hl e)
      · exact n1 (shift_eq_node h1 h2 hx hr e)
    · intro e; exact n2 (shift_eq_node h1 h2 hx hk e)
  by_cases hu : i >>> (j + 1) = k
  · rcases Nat.lt_or_ge j s with hsj | hsj
    · refine ⟨s, hs, K_congr fun x x1 x2 => hup x (by omega) (by omega) (by omega)⟩
    have htop : (pushV M (2 ^ L) v k).Z (i >>> (j + 1)) = M.idMap := by rw [hu, pushV_Z hpos, if_pos rfl]
    have hab : K M (pushV M (2 ^ L) v k) i j (L - j) = K M v i (j + 1) (L - (j + 1)) := by
      rw [show L - j = 1 + (L - (j + 1)) by omega, K_add hG, K_one hG, htop, hG.id_right]
      exact K_congr fun x x1 x2 => hup x (by omega) (by omega) (by omega)
    rcases Nat.lt_or_ge s j with hlt | hge
    · refine ⟨s, hs, ?_⟩
      have hc := child_cases hu
      have hlow : i >>> j < 2 ^ L := (Lvl.shift h1 h2 (by omega) : Lvl (2 ^ L) j (i >>> j)).lt_of_pos (by omega)
      have hne : i >>> j ≠ k := by omega
      have hmid : (pushV M (2 ^ L) v k).Z (i >>> j) = M.comp (v.Z k) (v.Z (i >>> j)) := by
        rw [pushV_Z hpos, if_neg hne, if_pos ⟨hc, hlow⟩]
      have hlo : K M (pushV M (2 ^ L) v k) i s (j - 1 - s) = K M v i s (j - 1 - s) :=
        K_congr fun x x1 x2 => hup x (by omega) (by omega) (by omega)
      have e1 : L - s = (j - 1 - s) + (1 + (L - j)) := by omega
      rw [e1, K_add hG, K_add hG (v := v), show s + (j - 1 - s) = j - 1 by omega, K_add hG, K_one hG,
        K_add hG (v := v), K_one hG, show j - 1 + 1 = j by omega, hab, hmid,
        show K M v i j (L - j) = M.comp (K M v i (j + 1) (L - (j + 1))) (v.Z k) by
          rw [show L - j = 1 + (L - (j + 1)) by omega, K_add hG, K_one hG, hu], hlo]
      simp only [hG.assoc]
    · have : s = j := by omega
      subst this
      exact ⟨s + 1, hjL, hab⟩
  · refine ⟨s, hs, K_congr fun x x1 x2 => ?_⟩
    rw [pushV_Z hpos, if_neg, if_neg]
    · rintro ⟨e, -⟩
      have : x = j := by
        rcases e with e | e
        · exact shift_eq_node h1 h2 (by omega) hl e
        · exact shift_eq_node h1 h2 (by omega) hr e
      subst this
      exact hu (child_parent e)
    · intro e
      have := shift_eq_node h1 h2 (by omega) hk e
      subst this
      exact hu e

end push

section apply
variable {L j k : ℕ} {v : View S F} {f : F}

theorem apply_K_ne (hk : Lvl (2 ^ L) j k) {i s : ℕ} (h1 : 2 ^ L ≤ i) (h2 : i < 2 * 2 ^ L)
    (h : i >>> j ≠ k) (hs : s ≤ L) : K M (applyV M (2 ^ L) v k f) i s (L - s) = K M v i s (L - s) := by
  refine K_congr fun x x1 x2 => applyV_Z_ne ?_
  intro e
  have := shift_eq_node h1 h2 (by omega) hk e
  subst this
  exact h e

theorem apply_K_top (hG : LawfulComp M) (hk : Lvl (2 ^ L) j k) {i s : ℕ} (h1 : 2 ^ L ≤ i) (h2 : i < 2 * 2 ^ L)
    (hs : j ≤ s) (hsL : s ≤ L) (hc : ∀ x, j < x → x ≤ L → v.Z (i >>> x) = M.idMap) :
    K M (applyV M (2 ^ L) v k f) i s (L - s) = M.idMap := by
  refine K_id hG fun x x1 x2 => ?_
  rw [applyV_Z_ne]
  · exact hc x (by omega) (by omega)
  · intro e
    have := shift_eq_node h1 h2 (by omega) hk e
    omega

theorem apply_K_under (hG : LawfulComp M) (hk : Lvl (2 ^ L) j k) {i s : ℕ} (h1 : 2 ^ L ≤ i) (h2 : i < 2 * 2 ^ L)
    (hs : s < j) (hu : i >>> j = k) (hc : ∀ x, j < x → x ≤ L → v.Z (i >>> x) = M.idMap) :
    K M (applyV M (2 ^ L) v k f) i s (L - s) = M.comp f (K M v i s (L - s)) := by
  have hjL := hk.j_le
  have hlt := hk.lt_of_pos (show 0 < j by omega)
  have ht := apply_K_top (f := f) hG hk h1 h2 (Nat.le_refl j) hjL hc
  have ht' : K M v i j (L - j) = M.idMap := K_id hG fun x x1 x2 => hc x x1 (by omega)
  have e1 : L - s = (j - 1 - s) + (1 + (L - j)) := by omega
  rw [e1, K_add hG, K_add hG (v := v), show s + (j - 1 - s) = j - 1 by omega, K_add hG, K_one hG,
    K_add hG (v := v), K_one hG, show j - 1 + 1 = j by omega, ht, ht', hG.id_left, hG.id_left, hu]
  have : (applyV M (2 ^ L) v k f).Z k = M.comp f (v.Z k) := by simp [applyV, hlt]
  rw [this, hG.assoc]
  congr 2
  refine K_congr fun x x1 x2 => applyV_Z_ne ?_
  intro e
  have := shift_eq_node h1 h2 (by omega) hk e
  omega

end apply

end Verif.LazyF
