import Verif.Props.Strings
/-! C56: what `kmp` and `z_function` are used for: searching, periods, and each from the other. -/
namespace Verif.Props
open Res Model

variable {α : Type} [DecidableEq α]

/-- C56: searching with `kmp`. In `kmp(p ++ [sep] ++ t)`, with a separator that occurs neither in `p` nor
in `t`, the entry at position `i` of the text is `|p|` exactly when `p` ends there. -/
theorem C56_kmp_search (p t : List α) (sep : α) (hp : sep ∉ p) (ht : sep ∉ t) :
    ∃ pi, kmp (p ++ sep :: t) = .ok pi ∧ ∀ i, i < t.length →
      ∃ k, pi[p.length + 1 + i]? = some k ∧ k ≤ p.length ∧ (k = p.length ↔ p <:+ t.take (i + 1)) := by
  obtain ⟨pi, e, hl, h⟩ := C27_kmp (p ++ sep :: t)
  refine ⟨pi, e, fun i hi => ?_⟩
  have hlt : p.length + 1 + i < pi.length := by rw [hl]; simp; omega
  have hT : (p ++ sep :: t).take (p.length + 1 + i + 1) = p ++ sep :: t.take (i + 1) := by
    rw [show p.length + 1 + i + 1 = p.length + (i + 1 + 1) by omega, List.take_length_add_append]; rfl
  obtain ⟨h1, h2, h3⟩ := h _ _ (List.getElem?_eq_getElem hlt)
  rw [hT] at h2 h3
  have hget := List.getElem?_eq_getElem hlt
  generalize pi[p.length + 1 + i] = k at h1 h2 h3 hget
  -- a border that contains the separator would give a second separator
  have hkp : ∀ k, k ≤ p.length + 1 + i → (p ++ sep :: t).take k <:+ p ++ sep :: t.take (i + 1) →
      k ≤ p.length := by
    intro k hk hs
    apply Nat.le_of_not_lt
    intro hc
    have hkn : k ≤ (p ++ sep :: t).length := by simp; omega
    obtain ⟨w, hw⟩ := hs
    have hw0 : w ≠ [] := by
      rintro rfl
      have := congrArg List.length hw
      simp at this; omega
    obtain ⟨j, rfl⟩ : ∃ j, k = p.length + (j + 1) := ⟨k - p.length - 1, by omega⟩
    rw [List.take_length_add_append, List.take_succ_cons] at hw
    by_cases hsw : sep ∈ w
    · have hc2 := congrArg (List.count sep) hw
      have : List.count sep w ≠ 0 := by rw [Ne, List.count_eq_zero]; simpa using hsw
      have h0 : List.count sep p = 0 := List.count_eq_zero.2 hp
      have h1 : List.count sep (t.take (i + 1)) = 0 :=
        List.count_eq_zero.2 fun h => ht (List.mem_of_mem_take h)
      simp only [List.count_append, List.count_cons_self, h0, h1] at hc2
      omega
    · have hg := congrArg (fun l => l[p.length]?) hw
      have hw1 : 0 < w.length := List.length_pos_iff.2 hw0
      simp only [List.getElem?_append_right (Nat.le_refl p.length), Nat.sub_self,
        List.getElem?_cons_zero] at hg
      by_cases hle : w.length ≤ p.length
      · rw [List.getElem?_append_right hle, List.getElem?_append_left
          (by have := List.length_pos_iff.2 hw0; omega)] at hg
        exact hp (List.mem_of_getElem? hg)
      · rw [List.getElem?_append_left (by omega)] at hg
        exact hsw (List.mem_of_getElem? hg)
  have hkle := hkp k h1 h2
  refine ⟨k, hget, hkle, fun hk => ?_, fun hs => ?_⟩
  · rw [hk, List.take_left] at h2
    obtain ⟨w, hw⟩ := h2
    have hlen := congrArg List.length hw
    simp only [List.length_append, List.length_cons, List.length_take] at hlen
    have hd := congrArg (List.drop (p.length + 1)) hw
    have hpt : (p ++ sep :: t.take (i + 1)).drop (p.length + 1) = t.take (i + 1) := by
      rw [List.drop_length_add_append]; rfl
    rw [hpt] at hd
    by_cases hle : p.length + 1 ≤ w.length
    · rw [List.drop_append_of_le_length hle] at hd
      exact ⟨_, hd⟩
    · -- otherwise the separator would lie in the copy of `p`
      exfalso
      have hg := congrArg (fun l => l[p.length]?) hw
      simp only [List.getElem?_append_right (Nat.le_refl p.length),
        List.getElem?_append_right (show w.length ≤ p.length by omega)] at hg
      simp at hg
      exact hp (List.mem_of_getElem? hg)
  · have := h3 p.length (by omega) (by
      rw [List.take_left]
      obtain ⟨w, hw⟩ := hs
      exact ⟨p ++ sep :: w, by rw [← hw]; simp⟩)
    omega

-- "aba" in "ababa" with separator 9: it ends at positions 2 and 4 of the text
example : kmp [1, 2, 1, 9, 1, 2, 1, 2, 1] = .ok [0, 0, 1, 0, 1, 2, 3, 2, 3] := by decide

/-- C56: searching with `z_function`: in `z_function(p ++ [sep] ++ t)` the entry at position `i` of the
text is `|p|` exactly when `p` starts there. (The separator need not avoid `p`.) -/
theorem C56_z_search (p t : List α) (sep : α) (ht : sep ∉ t) :
    ∃ z, zFunction (p ++ sep :: t) = .ok z ∧ ∀ i, i < t.length →
      ∃ k, z[p.length + 1 + i]? = some k ∧ k ≤ p.length ∧ (k = p.length ↔ p <+: t.drop i) := by
  obtain ⟨z, e, hl, -, h⟩ := C28_z (p ++ sep :: t)
  refine ⟨z, e, fun i hi => ?_⟩
  have hlt : p.length + 1 + i < z.length := by rw [hl]; simp; omega
  have hD : (p ++ sep :: t).drop (p.length + 1 + i) = t.drop i := by
    rw [Nat.add_assoc, List.drop_length_add_append, Nat.add_comm, List.drop_succ_cons]
  have hget := List.getElem?_eq_getElem hlt
  obtain ⟨h1, h2, h3⟩ := h _ _ (by omega) hget
  generalize z[p.length + 1 + i] = k at h1 h2 h3 hget
  rw [hD] at h2 h3
  have hk : k ≤ p.length := by
    apply Nat.le_of_not_lt
    intro hc
    obtain ⟨j, rfl⟩ : ∃ j, k = p.length + (j + 1) := ⟨k - p.length - 1, by omega⟩
    rw [List.take_length_add_append, List.take_succ_cons] at h2
    exact ht (List.mem_of_mem_drop (h2.subset (by simp)))
  refine ⟨k, hget, hk, fun hk => ?_, fun hs => ?_⟩
  · rwa [hk, List.take_left] at h2
  · have := h3 p.length (by simp) (by rwa [List.take_left])
    omega

example : zFunction [1, 2, 1, 9, 1, 2, 1, 2, 1] = .ok [0, 0, 1, 0, 3, 0, 3, 0, 1] := by decide

/-- `d` is a period of `s`: elements at distance `d` are equal. -/
def HasPeriod (s : List α) (d : Nat) : Prop := ∀ i, i + d < s.length → s[i]? = s[i + d]?

omit [DecidableEq α] in
/-- Borders of length `n - d` are periods `d`. -/
theorem border_iff_period (s : List α) (d : Nat) (hd : d ≤ s.length) :
    s.take (s.length - d) <:+ s ↔ HasPeriod s d := by
  rw [List.suffix_iff_eq_drop]
  have hl : s.length - (s.take (s.length - d)).length = d := by simp; omega
  rw [hl]
  constructor
  · intro h i hi
    have := congrArg (fun l => l[i]?) h
    simp only [List.getElem?_drop] at this
    rw [List.getElem?_take_of_lt (by omega)] at this
    rw [this, Nat.add_comm]
  · intro h
    apply List.ext_getElem?
    intro i
    rw [List.getElem?_drop, List.getElem?_take]
    split
    · rw [h i (by omega), Nat.add_comm]
    · rw [List.getElem?_eq_none (by omega)]

/-- C56: the last entry of `kmp` gives the least period: if it is `k`, then `|s| - k` is a period of `s`
and no smaller positive number is. -/
theorem C56_period (s : List α) (hs : s ≠ []) :
    ∃ pi k, kmp s = .ok pi ∧ pi.getLast? = some k ∧ k < s.length ∧ HasPeriod s (s.length - k) ∧
      ∀ d, 1 ≤ d → HasPeriod s d → s.length - k ≤ d := by
  obtain ⟨pi, e, hl, h⟩ := C27_kmp s
  have hn : 0 < s.length := List.length_pos_iff.2 hs
  have hlt : s.length - 1 < pi.length := by omega
  have hget := List.getElem?_eq_getElem hlt
  obtain ⟨h1, h2, h3⟩ := h _ _ hget
  generalize pi[s.length - 1] = k at h1 h2 h3 hget
  rw [show s.length - 1 + 1 = s.length by omega, List.take_length] at h2 h3
  refine ⟨pi, k, e, ?_, by omega, ?_, fun d hd hp => ?_⟩
  · rw [List.getLast?_eq_getElem?, hl, hget]
  · rw [← border_iff_period s _ (by omega), show s.length - (s.length - k) = k by omega]
    exact h2
  · by_cases hds : d ≤ s.length
    · have := h3 (s.length - d) (by omega) ((border_iff_period s d hds).2 hp)
      omega
    · omega

-- "abcabcab": last entry 5, least period 3
example : kmp [1, 2, 3, 1, 2, 3, 1, 2] = .ok [0, 0, 0, 1, 2, 3, 4, 5] := by decide

omit [DecidableEq α] in
/-- A border of `s[0..=i]` starting at `j` is a common prefix of `s` and `s[j..]`. -/
theorem border_iff_prefix (s : List α) (i j : Nat) (hi : i < s.length) (hji : j ≤ i) :
    s.take (i + 1 - j) <:+ s.take (i + 1) ↔ s.take (i + 1 - j) <+: s.drop j := by
  rw [List.suffix_iff_eq_drop, List.prefix_iff_eq_take]
  have h1 : (s.take (i + 1)).length - (s.take (i + 1 - j)).length = j := by simp; omega
  have h2 : (s.take (i + 1 - j)).length = i + 1 - j := by simp; omega
  rw [h1, h2, List.drop_take]

/-- C56: the two functions determine each other. Entry `i` of `kmp` is the greatest `i + 1 - j` over
the positions `1 ≤ j ≤ i` whose match reaches `i`, i.e. with `i < j + z[j]`; it is 0 if there is none. -/
theorem C56_kmp_of_z (s : List α) :
    ∃ pi z, kmp s = .ok pi ∧ zFunction s = .ok z ∧
      ∀ i k, pi[i]? = some k →
        (∀ j zj, 1 ≤ j → j ≤ i → z[j]? = some zj → i < j + zj → i + 1 - j ≤ k) ∧
        (0 < k → ∃ zj, z[i + 1 - k]? = some zj ∧ i < i + 1 - k + zj) := by
  obtain ⟨pi, e, hl, h⟩ := C27_kmp s
  obtain ⟨z, e', hl', -, h'⟩ := C28_z s
  refine ⟨pi, z, e, e', fun i k hk => ?_⟩
  obtain ⟨h1, h2, h3⟩ := h i k hk
  have hi : i < s.length := by
    have := (List.getElem?_eq_some_iff.1 hk).1
    omega
  refine ⟨fun j zj hj hji hz hr => h3 _ (by omega) ?_, fun hk0 => ?_⟩
  · rw [border_iff_prefix s i j hi hji]
    obtain ⟨g1, g2, -⟩ := h' j zj hj hz
    exact (List.take_prefix_take_left (by omega)).trans g2
  · have hlt : i + 1 - k < z.length := by omega
    have hget := List.getElem?_eq_getElem hlt
    refine ⟨_, hget, ?_⟩
    obtain ⟨-, -, g3⟩ := h' _ _ (by omega) hget
    have := g3 k (by omega) (by
      have := (border_iff_prefix s i (i + 1 - k) hi (by omega)).1 (by
        rw [show i + 1 - (i + 1 - k) = k by omega]; exact h2)
      rwa [show i + 1 - (i + 1 - k) = k by omega] at this)
    omega

example : kmp [1, 1, 2, 1, 1, 2, 1] = .ok [0, 1, 0, 1, 2, 3, 4] ∧
    zFunction [1, 1, 2, 1, 1, 2, 1] = .ok [0, 1, 0, 4, 1, 0, 1] := by decide

end Verif.Props
