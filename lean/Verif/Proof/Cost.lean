import Verif.Model.Cost
import Verif.Proof.Strings
/-! Forgetting the counts of `Model/Cost.lean`, and the bounds for the string functions. -/
namespace Verif
open Res Model

theorem forCount_fst {f : Nat → σ → Res σ} {f' : Nat → σ × Nat → Res (σ × Nat)}
    (h : ∀ i s c, (f' i (s, c) >>= fun r => ok r.1) = f i s) :
    ∀ (cnt i : Nat) (s : σ) (c : Nat),
      (forCount cnt i (s, c) f' >>= fun r => ok r.1) = forCount cnt i s f := by
  intro cnt
  induction cnt with
  | zero => intro i s c; rfl
  | succ cnt ih =>
    intro i s c
    simp only [forCount, bind_bind_res]
    rw [← h i s c, bind_bind_res]
    congr 1; funext r
    obtain ⟨s', c'⟩ := r
    exact ih (i + 1) s' c'

theorem forCount_fst_bind {f : Nat → σ → Res σ} {f' : Nat → σ × Nat → Res (σ × Nat)} {k : σ → Res ρ}
    (h : ∀ i s c, (f' i (s, c) >>= fun r => ok r.1) = f i s) (cnt i : Nat) (s : σ) (c : Nat) :
    (forCount cnt i (s, c) f' >>= fun r => k r.1) = forCount cnt i s f >>= k := by
  rw [← forCount_fst h cnt i s c, bind_bind_res]; rfl

theorem bind_ok_res (x : Res α) : (x >>= fun a => ok a) = x := by cases x <;> rfl

theorem kmpFallbackCost_fst [DecidableEq α] (s : List α) (pi : List Nat) (i j : Nat) :
    (kmpFallbackCost s pi i j >>= fun r => ok r.1) = kmpFallback s pi i j :=
  whileCount_fst _ _ _ _

theorem kmpCost_fst [DecidableEq α] (s : List α) :
    (kmpCost s >>= fun r => ok r.1) = kmp s := by
  refine forCount_fst (fun i pi c => ?_) _ _ _ _
  simp only [bind_bind_res, ← kmpFallbackCost_fst, ok_bind, bind_ok_res]

theorem zExtendCost_fst [DecidableEq α] (s : List α) (i : Nat) (z : List Nat) :
    (zExtendCost s i z >>= fun r => ok r.1) = zExtend s i z :=
  whileCount_fst _ _ _ _

theorem zCost_fst [DecidableEq α] (s : List α) :
    (zCost s >>= fun r => ok r.1) = zFunction s := by
  unfold zCost zFunction forRange
  simp only [bind_bind_res, ok_bind]
  refine forCount_fst_bind (k := fun st : List Nat × Nat × Nat => ok st.1) ?_ _ _ _ _
  · rintro i ⟨z, l, r⟩ c
    simp only [bind_bind_res, ← zExtendCost_fst, ok_bind]
    congr 1; funext z
    congr 1; funext zk
    congr 1; funext zi
    split <;> rfl

theorem kmpFallbackCost_sat [DecidableEq α] {s : List α} {pi : List Nat} {i j : Nat}
    (hi : i < s.length) (hlen : pi.length = s.length)
    (hle : ∀ t k : Nat, pi[t]? = some k → k ≤ t) (hj : j < i) :
    Sat (kmpFallbackCost s pi i j) (fun r => r.1 < i ∧ r.1 + r.2 ≤ j) := by
  unfold kmpFallbackCost
  refine (whileCount_sat (I := fun m j' => j' < i ∧ j' + m ≤ j) (μ := fun j => j)
    (fun m j' => j' < i ∧ j' + m ≤ j) ?_ _ 0 _ ⟨hj, by omega⟩ (Nat.lt_succ_self _)).mono ?_
  · intro m j' ⟨h1, h2⟩
    by_cases hj0 : j' > 0
    · have hja : s[j']? = some (s[j']'(by omega)) := by simp
      have hia : s[i]? = some (s[i]) := by simp
      simp only [hj0, if_true, sat_bind, sat_idx, sat_ok]
      refine ⟨_, hia, _, hja, ?_⟩
      by_cases he : s[i] = s[j']
      · simp only [he, ne_eq, not_true_eq_false, decide_false, Bool.false_eq_true, if_false]
        exact ⟨h1, h2⟩
      · simp only [ne_eq, he, not_false_eq_true, decide_true, if_true, sat_idx]
        have hlt : j' - 1 < pi.length := by omega
        have := hle (j' - 1) _ (List.getElem?_eq_getElem hlt)
        exact ⟨pi[j'-1], by simp, ⟨by omega, by omega⟩, by omega⟩
    · simp only [hj0, if_false, sat_ok, Bool.false_eq_true]
      exact ⟨h1, h2⟩
  · rintro ⟨j', m⟩ ⟨h1, h2⟩
    exact ⟨h1, by simpa using h2⟩

theorem kmpCost_sat [DecidableEq α] (s : List α) : Sat (kmpCost s) (fun r => r.2 ≤ s.length - 2) := by
  by_cases hn : s.length = 0
  · have : s = [] := List.length_eq_zero_iff.1 hn
    subst this
    simp [kmpCost, forRange, forCount]
  unfold kmpCost
  refine (forRange_sat (I := fun i (st : List Nat × Nat) => st.1.length = s.length ∧
    (∀ t k : Nat, st.1[t]? = some k → k ≤ t) ∧
    ∀ k, st.1[i - 1]? = some k → st.2 + max 1 k ≤ max 1 (i - 1)) (by omega) ⟨by simp, ?_, ?_⟩ ?_).mono ?_
  · intro t k hk
    simp only [List.getElem?_replicate] at hk
    split at hk
    · cases hk; omega
    · cases hk
  · intro k hk
    simp only [List.getElem?_replicate] at hk
    split at hk
    · cases hk; omega
    · cases hk
  · rintro i ⟨pi, c⟩ hi1 hi2 ⟨hlen, hle, hc⟩
    simp only at hlen hle hc
    have hlt : i - 1 < pi.length := by omega
    simp only [sat_bind, sat_idx, sat_upd, sat_ok]
    refine ⟨pi[i-1], by simp, ?_⟩
    have h0 := hle (i - 1) _ (List.getElem?_eq_getElem hlt)
    have h0c := hc _ (List.getElem?_eq_getElem hlt)
    refine (kmpFallbackCost_sat hi2 hlen hle (by omega)).mono ?_
    rintro ⟨j, k⟩ ⟨h1, h2⟩
    simp only at h1 h2 ⊢
    have hja : s[j]? = some (s[j]'(by omega)) := by simp
    have hia : s[i]? = some (s[i]) := by simp
    refine ⟨_, hia, _, hja, by omega, by simp [hlen], ?_, ?_⟩
    · intro t k' hk'
      by_cases e : t = i
      · subst e
        rw [List.getElem?_set_self (by omega)] at hk'
        cases hk'
        split <;> omega
      · rw [List.getElem?_set_ne (by omega)] at hk'
        exact hle t k' hk'
    · intro k' hk'
      rw [show i + 1 - 1 = i by omega, List.getElem?_set_self (by omega)] at hk'
      cases hk'
      split <;> omega
  · rintro ⟨pi, c⟩ ⟨hlen, -, hc⟩
    simp only at hlen hc ⊢
    have hlt : s.length - 1 < pi.length := by omega
    have := hc _ (List.getElem?_eq_getElem hlt)
    omega

theorem zExtendCost_sat [DecidableEq α] {s : List α} {z : List Nat} {i k : Nat}
    (hi : i < s.length) (hlen : z.length = s.length) (hk : z[i]? = some k) (hm : Mt s i k) :
    Sat (zExtendCost s i z) (fun r => r.1 = z.set i (k + r.2) ∧ IsZ s i (k + r.2)) := by
  unfold zExtendCost
  refine (whileCount_sat (I := fun m z' => z' = z.set i (k + m) ∧ Mt s i (k + m))
    (μ := fun z' => s.length - (z'[i]?).getD 0) (fun m z' => z' = z.set i (k + m) ∧ IsZ s i (k + m))
    ?_ _ 0 _ ?_ ?_).mono ?_
  · rintro m z' ⟨rfl, hm'⟩
    have hii : i < z.length := by omega
    have hget : (z.set i (k + m))[i]? = some (k + m) := by rw [List.getElem?_set_self hii]
    simp only [sat_bind, sat_idx]
    refine ⟨k + m, hget, ?_⟩
    by_cases hlt : i + (k + m) < s.length
    · have ha : s[k + m]? = some (s[k + m]'(by omega)) := by simp
      have hb : s[i + (k + m)]? = some (s[i + (k + m)]) := by simp
      simp only [hlt, if_true, sat_bind, sat_idx, sat_ok]
      refine ⟨_, ha, _, hb, ?_⟩
      by_cases he : s[k + m] = s[i + (k + m)]
      · simp only [he, decide_true, if_true, sat_bind, sat_idx, sat_upd]
        refine ⟨k + m, hget, by simp [hii], ⟨by simp [Nat.add_assoc], ?_, ?_⟩, ?_⟩
        · omega
        · intro t ht
          by_cases e : t = k + m
          · subst e; rw [ha, hb, he]
          · exact hm'.2 t (by omega)
        · rw [hget, List.getElem?_set_self (by simp [hii])]
          simp only [Option.getD_some]; omega
      · simp only [he, decide_false, Bool.false_eq_true, if_false]
        refine ⟨trivial, hm', fun k'' hk'' => ?_⟩
        apply Nat.le_of_not_lt
        intro hlt'
        have := hk''.2 (k + m) hlt'
        rw [ha, hb] at this
        exact he (Option.some.inj this)
    · simp only [hlt, if_false, sat_ok, Bool.false_eq_true]
      refine ⟨trivial, hm', fun k'' hk'' => ?_⟩
      have := hk''.1; omega
  · refine ⟨?_, hm⟩
    apply List.ext_getElem?
    intro t
    rw [List.getElem?_set]
    split
    · subst_vars; rw [if_pos (by omega), hk]; simp
    · rfl
  · omega
  · rintro ⟨z', m⟩ ⟨h1, h2⟩
    simp only [Nat.zero_add] at h1 h2
    exact ⟨h1, h2⟩

theorem zCost_sat [DecidableEq α] (s : List α) : Sat (zCost s) (fun r => r.2 ≤ s.length - 1) := by
  by_cases hn : s.length = 0
  · have : s = [] := List.length_eq_zero_iff.1 hn
    subst this
    simp [zCost, forRange, forCount]
  unfold zCost
  simp only [sat_bind, sat_ok]
  refine (forRange_sat (I := fun i (st : (List Nat × Nat × Nat) × Nat) =>
    st.1.1.length = s.length ∧
    (∀ t k, 1 ≤ t → t < i → st.1.1[t]? = some k → IsZ s t k) ∧
    (∀ t, i ≤ t → t < s.length → st.1.1[t]? = some 0) ∧
    st.1.2.1 < i ∧
    (st.1.2.2 = 0 ∨ (1 ≤ st.1.2.1 ∧ st.1.2.1 ≤ st.1.2.2 + 1 ∧
      Mt s st.1.2.1 (st.1.2.2 + 1 - st.1.2.1))) ∧
    st.2 ≤ st.1.2.2 ∧ st.1.2.2 < s.length)
    (by omega) ?_ ?_).mono ?_
  · refine ⟨by simp, ?_, ?_, by simp, Or.inl rfl, Nat.le_refl _, by simp only; omega⟩
    · intro t k h1 h2; omega
    · intro t h1 h2; simp [h2]
  · rintro i ⟨⟨z, l, r⟩, c⟩ hi1 hi2 ⟨hlen, hZ, hzero, hl, hbox, hc, hr⟩
    simp only at hlen hZ hzero hl hbox hc hr
    have hii : i < z.length := by omega
    simp only [sat_bind]
    -- the initial value is either exact or reaches the end of the box
    have step1 : Sat (if i ≤ r then do
        let zil ← idx z (i - l)
        upd z i (min (r - i + 1) zil)
      else ok z) (fun z' => ∃ k, z' = z.set i k ∧ Mt s i k ∧
        (IsZ s i k ∨ r ≤ i + k - 1)) := by
      by_cases hir : i ≤ r
      · simp only [hir, if_true, sat_bind, sat_idx, sat_upd]
        rcases hbox with h | ⟨hb1, hb2, hb3⟩
        · omega
        have hlt : i - l < z.length := by omega
        refine ⟨z[i-l], by simp, hii, _, rfl, ?_⟩
        have hZil := hZ (i - l) z[i-l] (by omega) (by omega) (by simp)
        have h1 := hb3.1
        have hm : Mt s i (min (r - i + 1) z[i - l]) := by
          refine ⟨by omega, fun t ht => ?_⟩
          have e1 := hZil.1.2 t (by omega)
          have e2 := hb3.2 (i - l + t) (by omega)
          rw [e1, e2]; congr 1; omega
        refine ⟨hm, ?_⟩
        by_cases hlt' : z[i-l] < r - i + 1
        · left
          refine ⟨hm, fun k' hk' => ?_⟩
          rw [Nat.min_eq_right (by omega)]
          apply Nat.le_of_not_lt
          intro hgt
          have : Mt s (i - l) (z[i-l] + 1) := by
            refine ⟨by omega, fun t ht => ?_⟩
            have e1 := hk'.2 t (by omega)
            have e2 := hb3.2 (i - l + t) (by omega)
            rw [e1, e2]; congr 1; omega
          have := hZil.2 _ this
          omega
        · right; omega
      · simp only [hir, if_false, sat_ok]
        refine ⟨0, ?_, ⟨by omega, fun t ht => by omega⟩, Or.inr (by omega)⟩
        apply List.ext_getElem?
        intro t
        rw [List.getElem?_set]
        split
        · subst_vars; exact hzero _ (Nat.le_refl _) hi2
        · rfl
    refine step1.mono ?_
    rintro z1 ⟨k, rfl, hm, hk⟩
    refine (zExtendCost_sat hi2 (by simp [hlen]) (by rw [List.getElem?_set_self hii]) hm).mono ?_
    rintro ⟨z2, m⟩ ⟨hz2, hk'⟩
    simp only at hz2 hk'
    have hset : (z.set i k).set i (k + m) = z.set i (k + m) := by simp
    rw [hset] at hz2
    subst hz2
    have hget : (z.set i (k + m))[i]? = some (k + m) := by rw [List.getElem?_set_self hii]
    simp only [sat_idx]
    refine ⟨k + m, hget, ?_⟩
    have A1 : (z.set i (k + m)).length = s.length := by simp [hlen]
    have A3 : ∀ t k', 1 ≤ t → t < i + 1 → (z.set i (k + m))[t]? = some k' → IsZ s t k' := by
      intro t k' h1 h2 h3
      by_cases e : t = i
      · subst e; rw [hget] at h3; cases h3; exact hk'
      · rw [List.getElem?_set_ne (by omega)] at h3; exact hZ t k' h1 (by omega) h3
    have A4 : ∀ t, i + 1 ≤ t → t < s.length → (z.set i (k + m))[t]? = some 0 := by
      intro t h1 h2
      rw [List.getElem?_set_ne (by omega)]; exact hzero t (by omega) h2
    have hend := hk'.1.1
    -- rounds only happen beyond the old right end
    have hcost : c + m ≤ max r (i + (k + m) - 1) := by
      rcases hk with hk | hk
      · have := hk.2 _ hk'.1
        omega
      · omega
    by_cases hgt : i + (k + m) - 1 > r
    · simp only [hgt, if_true, sat_ok]
      refine ⟨A1, A3, A4, by omega, Or.inr ⟨hi1, by omega, ?_⟩, by omega, by omega⟩
      rw [show i + (k + m) - 1 + 1 - i = k + m by omega]; exact hk'.1
    · simp only [hgt, if_false, sat_ok]
      exact ⟨A1, A3, A4, by omega, hbox, by omega, hr⟩
  · rintro ⟨⟨z, l, r⟩, c⟩ ⟨-, -, -, -, -, h1, h2⟩
    simp only at h1 h2 ⊢
    omega

end Verif
