import Mathlib.Algebra.BigOperators.Intervals
import Verif.Proof.Cost
/-! The exact number of rounds of the inner loops of `kmp` and `z_function`. -/
namespace Verif
open Res Model

/-- At position `i` the border `k` is tried and rejected, pointwise. -/
def Rj (s : List α) (i k : Nat) : Prop :=
  1 ≤ k ∧ k < i ∧ Bd s i k ∧ ∀ k', k ≤ k' → k' < i → Bd s i k' → s[k']? ≠ s[i]?

open Classical in
/-- Number of rejected borders at position `i`. -/
noncomputable def nRj (s : List α) (i j : Nat) : Nat := ((Finset.range j).filter (Rj s i)).card

theorem kmpFallbackCost_exact [DecidableEq α] {s : List α} {pi : List Nat} {i j : Nat}
    (hi : i < s.length) (hpi : ∀ t k, t < i → pi[t]? = some k → IsPi s t k) (hlen : pi.length = s.length)
    (hj : j < i) (hB : Bd s i j) (hmax : ∀ k, k < i → Bd s i k → k ≤ j) :
    Sat (kmpFallbackCost s pi i j) (fun r => (r.1 < i ∧ Bd s i r.1 ∧
      (r.1 = 0 ∨ s[r.1]? = s[i]?) ∧
      ∀ k, k < i → Bd s i k → s[k]? = s[i]? → k ≤ r.1) ∧ r.2 = nRj s i i) := by
  unfold kmpFallbackCost
  refine (whileCount_sat (I := fun m j => j < i ∧ Bd s i j ∧
      (∀ k, k < i → Bd s i k → s[k]? = s[i]? → k ≤ j) ∧ m + nRj s i (j + 1) = nRj s i i) (μ := fun j => j)
    (fun m j => (j < i ∧ Bd s i j ∧ (j = 0 ∨ s[j]? = s[i]?) ∧
      ∀ k, k < i → Bd s i k → s[k]? = s[i]? → k ≤ j) ∧ m = nRj s i i) ?_ _ 0 _
    ⟨hj, hB, fun k h1 h2 _ => hmax k h1 h2, ?_⟩ (Nat.lt_succ_self _)).mono ?_
  · intro m j ⟨h1, h2, h3, hm⟩
    by_cases hj0 : j > 0
    · have hja : s[j]? = some (s[j]'(by omega)) := by simp
      have hia : s[i]? = some (s[i]) := by simp
      simp only [hj0, if_true, sat_bind, sat_idx, sat_ok]
      refine ⟨_, hia, _, hja, ?_⟩
      by_cases he : s[i] = s[j]
      · simp only [he, ne_eq, not_true_eq_false, decide_false, Bool.false_eq_true, if_false]
        have hsj : s[j]? = s[i]? := by rw [hja, hia, he]
        refine ⟨⟨h1, h2, Or.inr hsj, h3⟩, ?_⟩
        have : nRj s i (j + 1) = 0 := by
          unfold nRj
          classical rw [Finset.card_eq_zero, Finset.filter_eq_empty_iff]
          rintro k hk ⟨-, -, -, h⟩
          exact h j (by have := Finset.mem_range.1 hk; omega) h1 h2 hsj
        omega
      · simp only [ne_eq, he, not_false_eq_true, decide_true, if_true]
        have hlt : j - 1 < pi.length := by omega
        refine ⟨pi[j-1], by simp, ?_⟩
        have hp := hpi (j - 1) pi[j-1] (by omega) (by simp)
        obtain ⟨p1, p2, p3⟩ := hp
        rw [show j - 1 + 1 = j by omega] at p2 p3
        have hsj : s[j]? ≠ s[i]? := by
          intro h; rw [hja, hia] at h; exact he (Option.some.inj h).symm
        refine ⟨⟨by omega, h2.trans p2, ?_, ?_⟩, by omega⟩
        · intro k hk hb hs
          have hkj := h3 k hk hb hs
          have hne : k ≠ j := by
            rintro rfl
            exact hsj hs
          exact p3 k (by omega) (h2.down hb hkj)
        · have : nRj s i (j + 1) = nRj s i (pi[j-1] + 1) + 1 := by
            classical
            unfold nRj
            rw [← Finset.card_insert_of_notMem (a := j) (s := (Finset.range (pi[j-1] + 1)).filter (Rj s i))]
            · congr 1
              ext k
              simp only [Finset.mem_filter, Finset.mem_range, Finset.mem_insert]
              constructor
              · rintro ⟨k1, k2⟩
                by_cases e : k = j
                · exact .inl e
                · right
                  refine ⟨?_, k2⟩
                  have := p3 k (by omega) (h2.down k2.2.2.1 (by omega))
                  omega
              · rintro (rfl | ⟨k1, k2⟩)
                · refine ⟨by omega, by omega, h1, h2, fun k' q1 q2 q3 q4 => ?_⟩
                  have := h3 k' q2 q3 q4
                  have : k' = k := by omega
                  subst this
                  exact hsj q4
                · exact ⟨by omega, k2⟩
            · simp only [Finset.mem_filter, Finset.mem_range]
              omega
          omega
    · simp only [hj0, if_false, sat_ok, Bool.false_eq_true]
      refine ⟨⟨h1, h2, Or.inl (by omega), h3⟩, ?_⟩
      have : nRj s i (j + 1) = 0 := by
        unfold nRj
        classical rw [Finset.card_eq_zero, Finset.filter_eq_empty_iff]
        rintro k hk ⟨h, -⟩
        have := Finset.mem_range.1 hk
        omega
      omega
  · rw [Nat.zero_add]
    unfold nRj
    congr 1
    ext k
    simp only [Finset.mem_filter, Finset.mem_range]
    constructor
    · rintro ⟨k1, k2⟩; exact ⟨k2.2.1, k2⟩
    · rintro ⟨k1, k2⟩
      have := hmax k k1 k2.2.2.1
      exact ⟨by omega, k2⟩
  · rintro ⟨j', m⟩ ⟨h1, h2⟩
    exact ⟨h1, by simpa using h2⟩

open Finset in
theorem kmpCost_exact [DecidableEq α] (s : List α) :
    Sat (kmpCost s) (fun r => r.2 = ∑ i ∈ range s.length, nRj s i i) := by
  by_cases hn : s.length = 0
  · have : s = [] := List.length_eq_zero_iff.1 hn
    subst this
    simp [kmpCost, forRange, forCount]
  have hz : IsPi s 0 0 := ⟨Nat.le_refl _, Bd.zero, fun k h _ => h⟩
  unfold kmpCost
  refine (forRange_sat (I := fun i (st : List Nat × Nat) => (st.1.length = s.length ∧
    ∀ t k, t < i → st.1[t]? = some k → IsPi s t k) ∧ st.2 = ∑ i ∈ range i, nRj s i i) (by omega)
    ⟨⟨by simp, ?_⟩, ?_⟩ ?_).mono (fun r h => h.2)
  · intro t k ht hk
    have : t = 0 := by omega
    subst this
    rw [List.getElem?_replicate, if_pos (by omega)] at hk
    cases hk; exact hz
  · have : range 1 = {0} := rfl
    rw [this, Finset.sum_singleton]
    rfl
  · rintro i ⟨pi, c⟩ hi1 hi2 ⟨⟨hlen, hpi⟩, hc⟩
    simp only at hlen hpi hc
    have hlt : i - 1 < pi.length := by omega
    simp only [sat_bind, sat_idx, sat_upd, sat_ok]
    refine ⟨pi[i-1], by simp, ?_⟩
    obtain ⟨p1, p2, p3⟩ := hpi (i - 1) pi[i-1] (by omega) (by simp)
    rw [show i - 1 + 1 = i by omega] at p2 p3
    refine (kmpFallbackCost_exact hi2 hpi hlen (by omega) p2
      (fun k h1 h2 => p3 k (by omega) h2)).mono ?_
    rintro ⟨j, m⟩ ⟨⟨h1, h2, h3, h4⟩, hm⟩
    simp only at h1 h2 h3 h4 hm ⊢
    have hja : s[j]? = some (s[j]'(by omega)) := by simp
    have hia : s[i]? = some (s[i]) := by simp
    refine ⟨_, hia, _, hja, by omega, ⟨by simp [hlen], ?_⟩, by rw [Finset.sum_range_succ, ← hc, hm]⟩
    intro t k ht hk
    by_cases hti : t = i
    · subst hti
      rw [List.getElem?_set_self (by omega)] at hk
      by_cases he : s[t] = s[j]
      · simp only [he, if_true, Option.some.injEq] at hk
        subst hk
        refine ⟨by omega, (bd_succ (by omega)).2 ⟨h2, by rw [hia, hja, he]⟩, ?_⟩
        intro k' hk' hb
        cases k' with
        | zero => omega
        | succ k' =>
          rw [bd_succ (by omega)] at hb
          have := h4 k' (by omega) hb.1 hb.2
          omega
      · simp only [he, if_false, Option.some.injEq] at hk
        subst hk
        have hj0 : j = 0 := by
          rcases h3 with h | h
          · exact h
          · rw [hja, hia] at h; exact absurd (Option.some.inj h).symm he
        subst hj0
        refine ⟨Nat.zero_le _, Bd.zero, ?_⟩
        intro k' hk' hb
        cases k' with
        | zero => omega
        | succ k' =>
          rw [bd_succ (by omega)] at hb
          have := h4 k' (by omega) hb.1 hb.2
          have : k' = 0 := by omega
          subst this
          rw [hja, hia] at hb
          exact absurd (Option.some.inj hb.2).symm he
    · rw [List.getElem?_set_ne (by omega)] at hk
      exact hpi t k (by omega) hk

/-- Position `j` lies inside one of the matches of `z`. -/
def Cov (z : List Nat) (j : Nat) : Prop := ∃ i k : Nat, z[i]? = some k ∧ i ≤ j ∧ j < i + k

open Classical in
theorem zCost_exact [DecidableEq α] (s : List α) : Sat (zCost s) (fun r =>
    r.2 = ((Finset.range s.length).filter (Cov r.1)).card) := by
  by_cases hn : s.length = 0
  · have : s = [] := List.length_eq_zero_iff.1 hn
    subst this
    simp [zCost, forRange, forCount]
  unfold zCost
  simp only [sat_bind, sat_ok]
  refine (forRange_sat (I := fun i (st : (List Nat × Nat × Nat) × Nat) =>
    st.1.1.length = s.length ∧
    (∀ t k, 1 ≤ t → t < i → st.1.1[t]? = some k → IsZ s t k) ∧
    (∀ t, i ≤ t → t < s.length → st.1.1[t]? = some 0) ∧
    st.1.2.1 < i ∧
    (st.1.2.2 = 0 ∨ (1 ≤ st.1.2.1 ∧ st.1.2.1 ≤ st.1.2.2 + 1 ∧
      Mt s st.1.2.1 (st.1.2.2 + 1 - st.1.2.1) ∧ st.1.1[st.1.2.1]? = some (st.1.2.2 + 1 - st.1.2.1))) ∧
    (∀ j, Cov st.1.1 j → j ≤ st.1.2.2) ∧
    st.2 = ((Finset.range s.length).filter (Cov st.1.1)).card)
    (by omega) ?_ ?_).mono (fun r h => h.2.2.2.2.2.2)
  · have hno : ∀ j, ¬ Cov (List.replicate s.length 0) j := by
      rintro j ⟨i, k, h1, h2, h3⟩
      rw [List.getElem?_replicate] at h1
      split at h1
      · cases h1; omega
      · cases h1
    refine ⟨by simp, ?_, ?_, by simp, Or.inl rfl, fun j h => absurd h (hno j), ?_⟩
    · intro t k h1 h2; omega
    · intro t h1 h2; simp [h2]
    · rw [eq_comm, Finset.card_eq_zero, Finset.filter_eq_empty_iff]
      exact fun j _ => hno j
  · rintro i ⟨⟨z, l, r⟩, c⟩ hi1 hi2 ⟨hlen, hZ, hzero, hl, hbox, hcov, hc⟩
    simp only at hlen hZ hzero hl hbox hcov hc
    have hii : i < z.length := by omega
    simp only [sat_bind]
    have step1 : Sat (if i ≤ r then do
        let zil ← idx z (i - l)
        upd z i (min (r - i + 1) zil)
      else ok z) (fun z' => ∃ k, z' = z.set i k ∧ Mt s i k ∧
        (IsZ s i k ∨ r ≤ i + k - 1) ∧ i + k ≤ max (r + 1) i) := by
      by_cases hir : i ≤ r
      · simp only [hir, if_true, sat_bind, sat_idx, sat_upd]
        rcases hbox with h | ⟨hb1, hb2, hb3, -⟩
        · omega
        have hlt : i - l < z.length := by omega
        refine ⟨z[i-l], by simp, hii, _, rfl, ?_⟩
        have hZil := hZ (i - l) z[i-l] (by omega) (by omega) (by simp)
        have h1 := hb3.1
        have hm : Mt s i (min (r - i + 1) z[i - l]) := by
          refine ⟨by omega, fun t ht => ?_⟩
          have e1 := hZil.1.2 t (by omega)
          have e2 := hb3.2 (i - l + t) (by omega)
          rw [e1, e2]; congr 1; omega
        refine ⟨hm, ?_, by omega⟩
        by_cases hlt' : z[i-l] < r - i + 1
        · left
          refine ⟨hm, fun k' hk' => ?_⟩
          rw [Nat.min_eq_right (by omega)]
          apply Nat.le_of_not_lt
          intro hgt
          have : Mt s (i - l) (z[i-l] + 1) := by
            refine ⟨by omega, fun t ht => ?_⟩
            have e1 := hk'.2 t (by omega)
            have e2 := hb3.2 (i - l + t) (by omega)
            rw [e1, e2]; congr 1; omega
          have := hZil.2 _ this
          omega
        · right; omega
      · simp only [hir, if_false, sat_ok]
        refine ⟨0, ?_, ⟨by omega, fun t ht => by omega⟩, Or.inr (by omega), by omega⟩
        apply List.ext_getElem?
        intro t
        rw [List.getElem?_set]
        split
        · subst_vars; exact hzero _ (Nat.le_refl _) hi2
        · rfl
    refine step1.mono ?_
    rintro z1 ⟨k, rfl, hm, hk, hkr⟩
    refine (zExtendCost_sat hi2 (by simp [hlen]) (by rw [List.getElem?_set_self hii]) hm).mono ?_
    rintro ⟨z2, m⟩ ⟨hz2, hk'⟩
    simp only at hz2 hk'
    have hset : (z.set i k).set i (k + m) = z.set i (k + m) := by simp
    rw [hset] at hz2
    subst hz2
    have hget : (z.set i (k + m))[i]? = some (k + m) := by rw [List.getElem?_set_self hii]
    simp only [sat_idx]
    refine ⟨k + m, hget, ?_⟩
    have A1 : (z.set i (k + m)).length = s.length := by simp [hlen]
    have A3 : ∀ t k', 1 ≤ t → t < i + 1 → (z.set i (k + m))[t]? = some k' → IsZ s t k' := by
      intro t k' h1 h2 h3
      by_cases e : t = i
      · subst e; rw [hget] at h3; cases h3; exact hk'
      · rw [List.getElem?_set_ne (by omega)] at h3; exact hZ t k' h1 (by omega) h3
    have A4 : ∀ t, i + 1 ≤ t → t < s.length → (z.set i (k + m))[t]? = some 0 := by
      intro t h1 h2
      rw [List.getElem?_set_ne (by omega)]; exact hzero t (by omega) h2
    have hend := hk'.1.1
    -- rounds only happen beyond the old right end
    have hm' : i + (k + m) - max (r + 1) i = m ∧ (m ≠ 0 → i + k = max (r + 1) i) := by
      rcases hk with hk | hk
      · have := hk.2 _ hk'.1
        omega
      · omega
    have A5 : ∀ j, Cov (z.set i (k + m)) j ↔ Cov z j ∨ (i ≤ j ∧ j < i + (k + m)) := by
      intro j
      constructor
      · rintro ⟨t, k', h1, h2, h3⟩
        by_cases e : t = i
        · subst e; rw [hget] at h1; cases h1; exact .inr ⟨h2, h3⟩
        · rw [List.getElem?_set_ne (by omega)] at h1; exact .inl ⟨t, k', h1, h2, h3⟩
      · rintro (⟨t, k', h1, h2, h3⟩ | ⟨h2, h3⟩)
        · refine ⟨t, k', ?_, h2, h3⟩
          have : t ≠ i := by
            rintro rfl
            rw [hzero t (Nat.le_refl _) hi2] at h1
            cases h1; omega
          rw [List.getElem?_set_ne (by omega)]; exact h1
        · exact ⟨i, k + m, hget, h2, h3⟩
    have A6 : ∀ j, i ≤ j → j ≤ r → Cov z j := by
      intro j h1 h2
      rcases hbox with h | ⟨hb1, hb2, hb3, hb4⟩
      · omega
      · exact ⟨l, _, hb4, by omega, by omega⟩
    have A7 : c + m = ((Finset.range s.length).filter (Cov (z.set i (k + m)))).card := by
      have e1 : (Finset.range s.length).filter (Cov (z.set i (k + m))) =
          (Finset.range s.length).filter (Cov z) ∪ Finset.Ico (max (r + 1) i) (i + (k + m)) := by
        ext j
        simp only [Finset.mem_union, Finset.mem_filter, Finset.mem_range, Finset.mem_Ico, A5]
        constructor
        · rintro ⟨h1, h2 | ⟨h2, h3⟩⟩
          · exact .inl ⟨h1, h2⟩
          · by_cases e : j ≤ r
            · exact .inl ⟨h1, A6 j h2 e⟩
            · exact .inr ⟨by omega, h3⟩
        · rintro (⟨h1, h2⟩ | ⟨h1, h2⟩)
          · exact ⟨h1, .inl h2⟩
          · exact ⟨by omega, .inr ⟨by omega, h2⟩⟩
      rw [e1, Finset.card_union_of_disjoint, ← hc, Nat.card_Ico, hm'.1]
      rw [Finset.disjoint_left]
      intro j h1 h2
      have := hcov j (Finset.mem_filter.1 h1).2
      have := Finset.mem_Ico.1 h2
      omega
    by_cases hgt : i + (k + m) - 1 > r
    · simp only [hgt, if_true, sat_ok]
      refine ⟨A1, A3, A4, by omega, Or.inr ⟨hi1, by omega, ?_, ?_⟩, ?_, A7⟩
      · rw [show i + (k + m) - 1 + 1 - i = k + m by omega]; exact hk'.1
      · rw [show i + (k + m) - 1 + 1 - i = k + m by omega]; exact hget
      · intro j hj
        rcases (A5 j).1 hj with h | h
        · have := hcov j h; omega
        · omega
    · simp only [hgt, if_false, sat_ok]
      refine ⟨A1, A3, A4, by omega, ?_, ?_, A7⟩
      · rcases hbox with h | ⟨hb1, hb2, hb3, hb4⟩
        · exact .inl h
        · exact .inr ⟨hb1, hb2, hb3, by rw [List.getElem?_set_ne (by omega)]; exact hb4⟩
      · intro j hj
        rcases (A5 j).1 hj with h | h
        · exact hcov j h
        · omega

end Verif
