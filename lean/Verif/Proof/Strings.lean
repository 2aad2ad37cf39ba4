import Verif.Model.Strings
namespace Verif
open Res Model

/-- `take k` is a border of `take m`, pointwise. -/
def Bd (s : List α) (m k : Nat) : Prop := k ≤ m ∧ ∀ t, t < k → s[t]? = s[m - k + t]?

theorem bd_iff {s : List α} {m k : Nat} (hm : m ≤ s.length) (hk : k ≤ m) :
    s.take k <:+ s.take m ↔ Bd s m k := by
  rw [List.suffix_iff_eq_drop]
  constructor
  · intro h
    refine ⟨hk, fun t ht => ?_⟩
    have h2 := congrArg (fun l => l[t]?) h
    simp only [List.getElem?_drop, List.length_take, List.getElem?_take] at h2
    rw [Nat.min_eq_left hm, Nat.min_eq_left (by omega)] at h2
    rw [if_pos ht, if_pos (by omega)] at h2
    exact h2
  · intro h
    apply List.ext_getElem?
    intro t
    simp only [List.getElem?_drop, List.length_take, List.getElem?_take]
    rw [Nat.min_eq_left hm, Nat.min_eq_left (by omega)]
    by_cases ht : t < k
    · rw [if_pos ht, if_pos (by omega)]; exact h.2 t ht
    · rw [if_neg ht, if_neg (by omega)]

theorem Bd.trans {s : List α} {m k k' : Nat} (h : Bd s m k) (h' : Bd s k k') : Bd s m k' := by
  refine ⟨Nat.le_trans h'.1 h.1, fun t ht => ?_⟩
  rw [h'.2 t ht, h.2 _ (by have := h'.1; omega)]
  congr 1; have := h.1; have := h'.1; omega

theorem Bd.down {s : List α} {m k k' : Nat} (h : Bd s m k) (h' : Bd s m k') (hl : k' ≤ k) :
    Bd s k k' := by
  refine ⟨hl, fun t ht => ?_⟩
  rw [h'.2 t ht, h.2 (k - k' + t) (by omega)]
  congr 1; have := h.1; omega

theorem bd_succ {s : List α} {m k : Nat} (hk : k ≤ m) :
    Bd s (m + 1) (k + 1) ↔ Bd s m k ∧ s[k]? = s[m]? := by
  constructor
  · intro h
    refine ⟨⟨hk, fun t ht => ?_⟩, ?_⟩
    · rw [h.2 t (by omega)]; congr 1; omega
    · rw [h.2 k (by omega)]; congr 1; omega
  · intro ⟨h, h2⟩
    refine ⟨by omega, fun t ht => ?_⟩
    by_cases e : t = k
    · subst e; rw [h2]; congr 1; omega
    · rw [h.2 t (by omega)]; congr 1; omega

theorem Bd.zero {s : List α} {m : Nat} : Bd s m 0 := ⟨Nat.zero_le _, fun t ht => by omega⟩

/-- `k` is the longest proper border of `take (i+1)`. -/
def IsPi (s : List α) (i k : Nat) : Prop :=
  k ≤ i ∧ Bd s (i + 1) k ∧ ∀ k', k' ≤ i → Bd s (i + 1) k' → k' ≤ k

theorem kmpFallback_sat [DecidableEq α] {s : List α} {pi : List Nat} {i j : Nat}
    (hi : i < s.length) (_hi0 : 1 ≤ i)
    (hpi : ∀ t k, t < i → pi[t]? = some k → IsPi s t k) (hlen : pi.length = s.length)
    (hj : j < i) (hB : Bd s i j) (hmax : ∀ k, k < i → Bd s i k → k ≤ j) :
    Sat (kmpFallback s pi i j) (fun j => j < i ∧ Bd s i j ∧
      (j = 0 ∨ s[j]? = s[i]?) ∧
      ∀ k, k < i → Bd s i k → s[k]? = s[i]? → k ≤ j) := by
  unfold kmpFallback
  refine whileLoop_sat (I := fun j => j < i ∧ Bd s i j ∧
      ∀ k, k < i → Bd s i k → s[k]? = s[i]? → k ≤ j) (μ := fun j => j) _ ?_ _ _
    ⟨hj, hB, fun k h1 h2 _ => hmax k h1 h2⟩ (Nat.lt_succ_self _)
  intro j ⟨h1, h2, h3⟩
  by_cases hj0 : j > 0
  · have hja : s[j]? = some (s[j]'(by omega)) := by simp
    have hia : s[i]? = some (s[i]) := by simp
    simp only [hj0, if_true, sat_bind, sat_idx, sat_ok]
    refine ⟨_, hia, _, hja, ?_⟩
    by_cases he : s[i] = s[j]
    · simp only [he, ne_eq, not_true_eq_false, decide_false, Bool.false_eq_true, if_false]
      refine ⟨h1, h2, Or.inr ?_, h3⟩
      rw [hja, hia, he]
    · simp only [ne_eq, he, not_false_eq_true, decide_true, if_true, sat_idx]
      have hlt : j - 1 < pi.length := by omega
      refine ⟨pi[j-1], by simp, ?_⟩
      have hp := hpi (j - 1) pi[j-1] (by omega) (by simp)
      obtain ⟨p1, p2, p3⟩ := hp
      rw [show j - 1 + 1 = j by omega] at p2 p3
      refine ⟨⟨by omega, h2.trans p2, ?_⟩, by omega⟩
      intro k hk hb hs
      have hkj := h3 k hk hb hs
      have hne : k ≠ j := by
        rintro rfl
        rw [hja, hia] at hs
        exact he (Option.some.inj hs).symm
      exact p3 k (by omega) (h2.down hb hkj)
  · simp only [hj0, if_false, sat_ok, Bool.false_eq_true]
    exact ⟨h1, h2, Or.inl (by omega), h3⟩

theorem kmp_spec [DecidableEq α] (s : List α) :
    ∃ pi, kmp s = .ok pi ∧ pi.length = s.length ∧
      ∀ i k, pi[i]? = some k →
        k ≤ i ∧ s.take k <:+ s.take (i + 1) ∧
        ∀ k', k' ≤ i → s.take k' <:+ s.take (i + 1) → k' ≤ k := by
  by_cases hn : s.length = 0
  · have : s = [] := List.length_eq_zero_iff.1 hn
    subst this
    exact ⟨[], by simp [kmp, forRange, forCount], rfl, by simp⟩
  have hz : IsPi s 0 0 := ⟨Nat.le_refl _, Bd.zero, fun k h _ => h⟩
  have main : Sat (kmp s) (fun pi => pi.length = s.length ∧
      ∀ t k, t < s.length → pi[t]? = some k → IsPi s t k) := by
    unfold kmp
    refine forRange_sat (I := fun i (pi : List Nat) => pi.length = s.length ∧
      ∀ t k, t < i → pi[t]? = some k → IsPi s t k) (by omega) ⟨by simp, ?_⟩ ?_
    · intro t k ht hk
      have : t = 0 := by omega
      subst this
      rw [List.getElem?_replicate, if_pos (by omega)] at hk
      cases hk; exact hz
    · intro i pi hi1 hi2 ⟨hlen, hpi⟩
      have hlt : i - 1 < pi.length := by omega
      simp only [sat_bind, sat_idx, sat_upd]
      refine ⟨pi[i-1], by simp, ?_⟩
      obtain ⟨p1, p2, p3⟩ := hpi (i - 1) pi[i-1] (by omega) (by simp)
      rw [show i - 1 + 1 = i by omega] at p2 p3
      refine (kmpFallback_sat hi2 hi1 hpi hlen (by omega) p2
        (fun k h1 h2 => p3 k (by omega) h2)).mono ?_
      intro j ⟨h1, h2, h3, h4⟩
      have hja : s[j]? = some (s[j]'(by omega)) := by simp
      have hia : s[i]? = some (s[i]) := by simp
      refine ⟨_, hia, _, hja, by omega, by simp [hlen], ?_⟩
      intro t k ht hk
      by_cases hti : t = i
      · subst hti
        rw [List.getElem?_set_self (by omega)] at hk
        by_cases he : s[t] = s[j]
        · simp only [he, if_true, Option.some.injEq] at hk
          subst hk
          refine ⟨by omega, (bd_succ (by omega)).2 ⟨h2, by rw [hia, hja, he]⟩, ?_⟩
          intro k' hk' hb
          cases k' with
          | zero => omega
          | succ k' =>
            rw [bd_succ (by omega)] at hb
            have := h4 k' (by omega) hb.1 hb.2
            omega
        · simp only [he, if_false, Option.some.injEq] at hk
          subst hk
          have hj0 : j = 0 := by
            rcases h3 with h | h
            · exact h
            · rw [hja, hia] at h; exact absurd (Option.some.inj h).symm he
          subst hj0
          refine ⟨Nat.zero_le _, Bd.zero, ?_⟩
          intro k' hk' hb
          cases k' with
          | zero => omega
          | succ k' =>
            rw [bd_succ (by omega)] at hb
            have := h4 k' (by omega) hb.1 hb.2
            have : k' = 0 := by omega
            subst this
            rw [hja, hia] at hb
            exact absurd (Option.some.inj hb.2).symm he
      · rw [List.getElem?_set_ne (by omega)] at hk
        exact hpi t k (by omega) hk
  obtain ⟨pi, e, hlen, hpi⟩ := main
  refine ⟨pi, e, hlen, fun i k hk => ?_⟩
  have hi : i < s.length := by
    have := (List.getElem?_eq_some_iff.1 hk).1; omega
  obtain ⟨p1, p2, p3⟩ := hpi i k hi hk
  refine ⟨p1, (bd_iff (by omega) (by omega)).2 p2, fun k' h1 h2 => p3 k' h1 ?_⟩
  exact (bd_iff (by omega) (by omega)).1 h2

/-! ### Z-function -/

/-- the first `k` elements match at offset `i`. -/
def Mt (s : List α) (i k : Nat) : Prop := i + k ≤ s.length ∧ ∀ t, t < k → s[t]? = s[i + t]?

theorem mt_iff {s : List α} {i k : Nat} (hi : i ≤ s.length) :
    (k ≤ s.length ∧ s.take k <+: s.drop i) ↔ Mt s i k := by
  constructor
  · rintro ⟨hk, h⟩
    have hlen := h.length_le
    simp only [List.length_take, List.length_drop] at hlen
    refine ⟨by omega, fun t ht => ?_⟩
    have h2 := List.prefix_iff_getElem?.1 h t (by simp; omega)
    simp only [List.getElem?_drop, List.getElem_take] at h2
    rw [h2]; simp
  · rintro ⟨h1, h2⟩
    refine ⟨by omega, ?_⟩
    rw [List.prefix_iff_getElem?]
    intro t ht
    simp only [List.length_take] at ht
    simp only [List.getElem?_drop, List.getElem_take]
    rw [← h2 t (by omega)]; simp

/-- `k` is the Z-value at `i`. -/
def IsZ (s : List α) (i k : Nat) : Prop := Mt s i k ∧ ∀ k', Mt s i k' → k' ≤ k

theorem zExtend_sat [DecidableEq α] {s : List α} {z : List Nat} {i k : Nat}
    (hi : i < s.length) (hlen : z.length = s.length) (hk : z[i]? = some k) (hm : Mt s i k) :
    Sat (zExtend s i z) (fun z' => ∃ k', z' = z.set i k' ∧ IsZ s i k') := by
  unfold zExtend
  refine whileLoop_sat (I := fun z' => ∃ k', z' = z.set i k' ∧ Mt s i k')
    (μ := fun z' => s.length - (z'[i]?).getD 0) _ ?_ _ _ ?_ ?_
  · rintro z' ⟨k', rfl, hm'⟩
    have hii : i < z.length := by omega
    have hget : (z.set i k')[i]? = some k' := by rw [List.getElem?_set_self hii]
    simp only [sat_bind, sat_idx]
    refine ⟨k', hget, ?_⟩
    by_cases hlt : i + k' < s.length
    · have ha : s[k']? = some (s[k']'(by omega)) := by simp
      have hb : s[i + k']? = some (s[i + k']) := by simp
      simp only [hlt, if_true, sat_bind, sat_idx, sat_ok]
      refine ⟨_, ha, _, hb, ?_⟩
      by_cases he : s[k'] = s[i + k']
      · simp only [he, decide_true, if_true, sat_bind, sat_idx, sat_upd]
        refine ⟨k', hget, by simp [hii], ⟨k' + 1, by simp, ?_, ?_⟩, ?_⟩
        · omega
        · intro t ht
          by_cases e : t = k'
          · subst e; rw [ha, hb, he]
          · exact hm'.2 t (by omega)
        · rw [hget, List.getElem?_set_self (by simp [hii])]
          simp only [Option.getD_some]; omega
      · simp only [he, decide_false, Bool.false_eq_true, if_false]
        refine ⟨k', rfl, hm', fun k'' hk'' => ?_⟩
        apply Nat.le_of_not_lt
        intro hlt'
        have := hk''.2 k' hlt'
        rw [ha, hb] at this
        exact he (Option.some.inj this)
    · simp only [hlt, if_false, sat_ok, Bool.false_eq_true]
      refine ⟨k', rfl, hm', fun k'' hk'' => ?_⟩
      have := hk''.1; omega
  · refine ⟨k, ?_, hm⟩
    apply List.ext_getElem?
    intro t
    rw [List.getElem?_set]
    split
    · subst_vars; rw [if_pos (by omega), hk]
    · rfl
  · omega

theorem zFunction_spec [DecidableEq α] (s : List α) :
    ∃ z, zFunction s = .ok z ∧ z.length = s.length ∧
      (∀ k, z[0]? = some k → k = 0) ∧
      ∀ i k, 1 ≤ i → z[i]? = some k →
        k ≤ s.length ∧ s.take k <+: s.drop i ∧
        ∀ k', k' ≤ s.length → s.take k' <+: s.drop i → k' ≤ k := by
  by_cases hn : s.length = 0
  · have : s = [] := List.length_eq_zero_iff.1 hn
    subst this
    exact ⟨[], by simp [zFunction, forRange, forCount], rfl, by simp, by simp⟩
  have main : Sat (zFunction s) (fun z => z.length = s.length ∧
      (∀ k, z[0]? = some k → k = 0) ∧
      ∀ t k, 1 ≤ t → t < s.length → z[t]? = some k → IsZ s t k) := by
    unfold zFunction
    simp only [sat_bind, sat_ok]
    refine (forRange_sat (I := fun i (st : List Nat × Nat × Nat) =>
      st.1.length = s.length ∧ (∀ k, st.1[0]? = some k → k = 0) ∧
      (∀ t k, 1 ≤ t → t < i → st.1[t]? = some k → IsZ s t k) ∧
      (∀ t, i ≤ t → t < s.length → st.1[t]? = some 0) ∧
      st.2.1 < i ∧
      (st.2.2 = 0 ∨ (1 ≤ st.2.1 ∧ st.2.1 ≤ st.2.2 + 1 ∧ Mt s st.2.1 (st.2.2 + 1 - st.2.1))))
      (by omega) ?_ ?_).mono ?_
    · refine ⟨by simp, ?_, ?_, ?_, by simp, Or.inl rfl⟩
      · intro k hk
        rw [List.getElem?_replicate, if_pos (by omega)] at hk
        cases hk; rfl
      · intro t k h1 h2; omega
      · intro t h1 h2; simp [h2]
    · rintro i ⟨z, l, r⟩ hi1 hi2 ⟨hlen, hz0, hZ, hzero, hl, hbox⟩
      simp only at hlen hz0 hZ hzero hl hbox
      have hii : i < z.length := by omega
      simp only [sat_bind]
      -- the initial value written at position i
      have step1 : Sat (if i ≤ r then do
          let zil ← idx z (i - l)
          upd z i (min (r - i + 1) zil)
        else ok z) (fun z' => ∃ k, z' = z.set i k ∧ Mt s i k) := by
        by_cases hir : i ≤ r
        · simp only [hir, if_true, sat_bind, sat_idx, sat_upd]
          rcases hbox with h | ⟨hb1, hb2, hb3⟩
          · omega
          have hlt : i - l < z.length := by omega
          refine ⟨z[i-l], by simp, hii, _, rfl, ?_⟩
          have hZil := hZ (i - l) z[i-l] (by omega) (by omega) (by simp)
          have h1 := hb3.1
          refine ⟨by omega, fun t ht => ?_⟩
          have e1 := hZil.1.2 t (by omega)
          have e2 := hb3.2 (i - l + t) (by omega)
          rw [e1, e2]; congr 1; omega
        · simp only [hir, if_false, sat_ok]
          refine ⟨0, ?_, by omega, fun t ht => by omega⟩
          apply List.ext_getElem?
          intro t
          rw [List.getElem?_set]
          split
          · subst_vars; exact hzero _ (Nat.le_refl _) hi2
          · rfl
      refine step1.mono ?_
      rintro z1 ⟨k, rfl, hm⟩
      refine (zExtend_sat hi2 (by simp [hlen]) (by rw [List.getElem?_set_self hii]) hm).mono ?_
      rintro z2 ⟨k', rfl, hk'⟩
      have hset : (z.set i k).set i k' = z.set i k' := by simp
      rw [hset]
      have hget : (z.set i k')[i]? = some k' := by rw [List.getElem?_set_self hii]
      simp only [sat_idx]
      refine ⟨k', hget, ?_⟩
      have A1 : (z.set i k').length = s.length := by simp [hlen]
      have A2 : ∀ k, (z.set i k')[0]? = some k → k = 0 := by
        intro k; rw [List.getElem?_set_ne (by omega)]; exact hz0 k
      have A3 : ∀ t k, 1 ≤ t → t < i + 1 → (z.set i k')[t]? = some k → IsZ s t k := by
        intro t k h1 h2 h3
        by_cases e : t = i
        · subst e; rw [hget] at h3; cases h3; exact hk'
        · rw [List.getElem?_set_ne (by omega)] at h3; exact hZ t k h1 (by omega) h3
      have A4 : ∀ t, i + 1 ≤ t → t < s.length → (z.set i k')[t]? = some 0 := by
        intro t h1 h2
        rw [List.getElem?_set_ne (by omega)]; exact hzero t (by omega) h2
      by_cases hgt : i + k' - 1 > r
      · simp only [hgt, if_true, sat_ok]
        refine ⟨A1, A2, A3, A4, by omega, Or.inr ⟨hi1, by omega, ?_⟩⟩
        rw [show i + k' - 1 + 1 - i = k' by omega]; exact hk'.1
      · simp only [hgt, if_false, sat_ok]
        exact ⟨A1, A2, A3, A4, by omega, hbox⟩
    · rintro ⟨z, l, r⟩ ⟨h1, h2, h3, -⟩
      exact ⟨h1, h2, h3⟩
  obtain ⟨z, e, hlen, h0, hZ⟩ := main
  refine ⟨z, e, hlen, h0, fun i k h1 hk => ?_⟩
  have hi : i < s.length := by
    have := (List.getElem?_eq_some_iff.1 hk).1; omega
  obtain ⟨p1, p2⟩ := hZ i k h1 hi hk
  obtain ⟨q1, q2⟩ := (mt_iff (by omega)).2 p1
  exact ⟨q1, q2, fun k' h1 h2 => p2 k' ((mt_iff (by omega)).1 ⟨h1, h2⟩)⟩

end Verif
