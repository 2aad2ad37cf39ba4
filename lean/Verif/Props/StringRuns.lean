import Verif.Props.StringSearch
import Mathlib.Data.List.PeriodicityLemma
import Mathlib.Data.List.Rotate
import Mathlib.Logic.Relation
/-! C107: relations between several runs of `kmp` and `z_function`, and what their entries say about
the whole string. -/
namespace Verif.Props
open Res Model

variable {α β : Type} [DecidableEq α] [DecidableEq β]

/-- What `kmp` returned, read off a given result. -/
theorem kmp_entry {s : List α} {pi : List Nat} (e : kmp s = .ok pi) :
    pi.length = s.length ∧ ∀ i k, pi[i]? = some k →
        k ≤ i ∧ s.take k <:+ s.take (i + 1) ∧
        ∀ k', k' ≤ i → s.take k' <:+ s.take (i + 1) → k' ≤ k := by
  obtain ⟨p, e', h⟩ := C27_kmp s
  rw [e] at e'
  cases e'
  exact h

/-- What `z_function` returned, read off a given result. -/
theorem z_entry {s : List α} {z : List Nat} (e : zFunction s = .ok z) :
    z.length = s.length ∧ (∀ k, z[0]? = some k → k = 0) ∧
      ∀ i k, 1 ≤ i → z[i]? = some k →
        k ≤ s.length ∧ s.take k <+: s.drop i ∧
        ∀ k', k' ≤ s.length → s.take k' <+: s.drop i → k' ≤ k := by
  obtain ⟨p, e', h⟩ := C28_z s
  rw [e] at e'
  cases e'
  exact h

/-- C107: the run on a prefix of the string computes a prefix of the result: an entry does not depend on
what comes later. -/
theorem C107_prefix (s : List α) (m : Nat) (pi : List Nat) (e : kmp s = .ok pi) :
    kmp (s.take m) = .ok (pi.take m) := by
  obtain ⟨q, e', hl, h⟩ := C27_kmp (s.take m)
  obtain ⟨gl, g⟩ := kmp_entry e
  rw [e']
  congr 1
  apply List.ext_getElem (by simp [hl, gl])
  intro i h1 h2
  have hi : i < m := by simp at h2; omega
  have hi' : i < pi.length := by simp at h2; omega
  obtain ⟨a1, a2, a3⟩ := h i _ (List.getElem?_eq_getElem h1)
  obtain ⟨b1, b2, b3⟩ := g i _ (List.getElem?_eq_getElem hi')
  rw [List.getElem_take]
  have ht : ∀ k, k ≤ i → (s.take m).take k = s.take k := fun k hk => by
    rw [List.take_take, Nat.min_eq_left (by omega)]
  have ht' : (s.take m).take (i + 1) = s.take (i + 1) := by
    rw [List.take_take, Nat.min_eq_left (by omega)]
  rw [ht', ht _ a1] at a2
  apply Nat.le_antisymm (b3 _ a1 a2)
  exact a3 _ b1 (by rw [ht', ht _ b1]; exact b2)

example : kmp [1, 2, 1, 2, 1, 3, 1] = .ok [0, 0, 1, 2, 3, 0, 1] ∧
    kmp [1, 2, 1, 2] = .ok [0, 0, 1, 2] := by decide

/-- C107: the entries of `z_function` on a prefix of length `m` are those of the whole string, cut off where
the prefix ends. -/
theorem C107_z_prefix (s : List α) (m : Nat) (z : List Nat) (e : zFunction s = .ok z) :
    ∃ z', zFunction (s.take m) = .ok z' ∧
      ∀ i k, i < m → z[i]? = some k → z'[i]? = some (min k (m - i)) := by
  obtain ⟨z', e', hl, h0, h⟩ := C28_z (s.take m)
  obtain ⟨gl, g0, g⟩ := z_entry e
  refine ⟨z', e', fun i k hi hk => ?_⟩
  have hi' : i < s.length := by have := (List.getElem?_eq_some_iff.1 hk).1; omega
  have hlt : i < z'.length := by rw [hl]; simp; omega
  have hget := List.getElem?_eq_getElem hlt
  rw [hget]
  congr 1
  by_cases hi0 : i = 0
  · subst hi0
    rw [h0 _ hget, g0 _ hk]; simp
  obtain ⟨a1, a2, a3⟩ := h i _ (by omega) hget
  obtain ⟨b1, b2, b3⟩ := g i _ (by omega) hk
  generalize z'[i] = k' at a1 a2 a3
  have hlen : k' ≤ s.length ∧ k' ≤ m := by simp at a1; omega
  have hk'm : k' ≤ m - i := by
    have := a2.length_le
    simp only [List.length_take, List.length_drop] at this
    omega
  have hks : k ≤ s.length - i := by
    have := b2.length_le
    simp only [List.length_take, List.length_drop] at this
    omega
  apply Nat.le_antisymm
  · apply Nat.le_min.2 ⟨b3 k' hlen.1 ?_, hk'm⟩
    rw [List.take_take, Nat.min_eq_left hlen.2, List.drop_take] at a2
    exact a2.trans (List.take_prefix _ _)
  · apply a3 _ (by simp; omega)
    rw [List.take_take, Nat.min_eq_left (by omega), List.drop_take, List.prefix_take_iff]
    refine ⟨(List.take_prefix_take_left (Nat.min_le_left _ _)).trans b2, ?_⟩
    simp

example : zFunction [1, 1, 2, 1, 1, 2, 1] = .ok [0, 1, 0, 4, 1, 0, 1] ∧
    zFunction [1, 1, 2, 1, 1] = .ok [0, 1, 0, 2, 1] := by decide

omit [DecidableEq α] [DecidableEq β] in
/-- A map that is injective on the letters of `s` does not make different parts of `s` equal. -/
theorem map_inj_of_subset {s a b : List α} {f : α → β} (hf : ∀ x ∈ s, ∀ y ∈ s, f x = f y → x = y)
    (ha : a ⊆ s) (hb : b ⊆ s) : a.map f = b.map f ↔ a = b := by
  constructor
  · intro h
    induction a generalizing b with
    | nil => cases b with
      | nil => rfl
      | cons y b => simp at h
    | cons x a ih => cases b with
      | nil => simp at h
      | cons y b =>
        simp only [List.map_cons, List.cons.injEq] at h
        rw [hf x (ha (by simp)) y (hb (by simp)) h.1,
          ih (fun _ h => ha (by simp [h])) (fun _ h => hb (by simp [h])) h.2]
  · rintro rfl; rfl

/-- C107: `kmp` depends only on which letters are equal: renaming the letters injectively does not change
the result. -/
theorem C107_rename (s : List α) (f : α → β) (hf : ∀ x ∈ s, ∀ y ∈ s, f x = f y → x = y) :
    kmp (s.map f) = kmp s := by
  obtain ⟨q, e', hl, h⟩ := C27_kmp (s.map f)
  obtain ⟨pi, e, gl, g⟩ := C27_kmp s
  rw [e', e]
  congr 1
  have hb : ∀ k i, (s.map f).take k <:+ (s.map f).take (i + 1) ↔ s.take k <:+ s.take (i + 1) := by
    intro k i
    rw [List.suffix_iff_eq_drop, List.suffix_iff_eq_drop, ← List.map_take, ← List.map_take,
      ← List.map_drop, List.length_map, List.length_map]
    exact map_inj_of_subset hf (List.take_subset _ _)
      (List.Subset.trans (List.drop_subset _ _) (List.take_subset _ _))
  apply List.ext_getElem (by simp [hl, gl])
  intro i h1 h2
  obtain ⟨a1, a2, a3⟩ := h i _ (List.getElem?_eq_getElem h1)
  obtain ⟨b1, b2, b3⟩ := g i _ (List.getElem?_eq_getElem h2)
  exact Nat.le_antisymm (b3 _ a1 ((hb _ _).1 a2)) (a3 _ b1 ((hb _ _).2 b2))

/-- C107: the same for `z_function`. -/
theorem C107_z_rename (s : List α) (f : α → β) (hf : ∀ x ∈ s, ∀ y ∈ s, f x = f y → x = y) :
    zFunction (s.map f) = zFunction s := by
  obtain ⟨q, e', hl, h0, h⟩ := C28_z (s.map f)
  obtain ⟨z, e, gl, g0, g⟩ := C28_z s
  rw [e', e]
  congr 1
  have hb : ∀ k i, (s.map f).take k <+: (s.map f).drop i ↔ s.take k <+: s.drop i := by
    intro k i
    rw [List.prefix_iff_eq_take, List.prefix_iff_eq_take, ← List.map_take, ← List.map_drop,
      List.length_map, ← List.map_take]
    exact map_inj_of_subset hf (List.take_subset _ _)
      (List.Subset.trans (List.take_subset _ _) (List.drop_subset _ _))
  apply List.ext_getElem (by simp [hl, gl])
  intro i h1 h2
  by_cases hi0 : i = 0
  · subst hi0
    rw [h0 _ (List.getElem?_eq_getElem h1), g0 _ (List.getElem?_eq_getElem h2)]
  obtain ⟨a1, a2, a3⟩ := h i _ (by omega) (List.getElem?_eq_getElem h1)
  obtain ⟨b1, b2, b3⟩ := g i _ (by omega) (List.getElem?_eq_getElem h2)
  simp only [List.length_map] at a1 a3
  exact Nat.le_antisymm (b3 _ a1 ((hb _ _).1 a2)) (a3 _ b1 ((hb _ _).2 b2))

example : (∀ x ∈ [1, 2, 1, 2, 1], ∀ y ∈ [1, 2, 1, 2, 1], (10 - x : Nat) = 10 - y → x = y) ∧
    kmp [9, 8, 9, 8, 9] = .ok [0, 0, 1, 2, 3] ∧ kmp [1, 2, 1, 2, 1] = .ok [0, 0, 1, 2, 3] := by decide

/-- C107: consecutive entries grow by at most one. -/
theorem C107_step (s : List α) (pi : List Nat) (e : kmp s = .ok pi) (i a b : Nat)
    (ha : pi[i]? = some a) (hb : pi[i + 1]? = some b) : b ≤ a + 1 := by
  obtain ⟨gl, g⟩ := kmp_entry e
  obtain ⟨-, -, a3⟩ := g i a ha
  obtain ⟨b1, b2, -⟩ := g (i + 1) b hb
  have hi : i + 1 < s.length := by have := (List.getElem?_eq_some_iff.1 hb).1; omega
  cases b with
  | zero => omega
  | succ b =>
    have := a3 b (by omega) (by
      rw [List.suffix_iff_eq_drop] at b2 ⊢
      have h2 := congrArg (List.take b) b2
      simp only [List.length_take, List.take_take] at h2 ⊢
      rw [Nat.min_eq_left (by omega)] at h2
      rw [h2, List.take_drop, List.take_take]
      congr 1
      · omega
      · congr 1; omega)
    omega

/-- The prefix of length `b` is the longest proper border of the prefix of length `a` according to `pi`. -/
def PiLink (pi : List Nat) (a b : Nat) : Prop := 0 < a ∧ pi[a - 1]? = some b

/-- C107: the chain `m, pi[m-1], pi[pi[m-1]-1], ..., 0` lists exactly the lengths of the borders of the
prefix of length `m` (the prefix itself included): equivalently, the prefixes that end at position `m`. -/
theorem C107_borders (s : List α) (pi : List Nat) (e : kmp s = .ok pi) (m k : Nat) (hm : m ≤ s.length) :
    Relation.ReflTransGen (PiLink pi) m k ↔ k ≤ m ∧ s.take k <:+ s.take m := by
  obtain ⟨gl, g⟩ := kmp_entry e
  constructor
  · intro h
    induction h with
    | refl => exact ⟨le_refl _, List.suffix_refl _⟩
    | @tail b c _ hl ih =>
      obtain ⟨hb, hc⟩ := hl
      obtain ⟨c1, c2, -⟩ := g _ _ hc
      rw [show b - 1 + 1 = b by omega] at c2
      exact ⟨by omega, c2.trans ih.2⟩
  · rintro ⟨hk, hs⟩
    induction m using Nat.strong_induction_on with
    | _ m ih =>
      by_cases hkm : k = m
      · subst hkm; exact .refl
      have hlt : m - 1 < pi.length := by omega
      have hget := List.getElem?_eq_getElem hlt
      obtain ⟨c1, c2, c3⟩ := g _ _ hget
      generalize pi[m - 1] = b at c1 c2 c3 hget
      rw [show m - 1 + 1 = m by omega] at c2 c3
      have hkb := c3 k (by omega) hs
      refine .head (b := b) ⟨by omega, hget⟩ (ih b (by omega) (by omega) hkb ?_)
      exact List.suffix_of_suffix_length_le hs c2 (by simp; omega)

example : kmp [1, 2, 1, 2, 1] = .ok [0, 0, 1, 2, 3] ∧
    (∀ k ∈ [5, 3, 1, 0], [1, 2, 1, 2, 1].take k <:+ [1, 2, 1, 2, 1]) ∧
    ∀ k ∈ [4, 2], ¬ [1, 2, 1, 2, 1].take k <:+ [1, 2, 1, 2, 1] := by decide

omit [DecidableEq α] in
/-- Borders of the reversed string. -/
theorem border_reverse (s : List α) (k : Nat) (hk : k ≤ s.length) :
    s.reverse.take k <:+ s.reverse ↔ s.take k <:+ s := by
  rw [List.suffix_iff_eq_drop, List.suffix_iff_eq_drop, List.take_reverse, List.drop_reverse]
  simp only [List.length_reverse, List.length_drop, List.length_take]
  rw [List.reverse_inj, show s.length - (s.length - (s.length - (s.length - k))) = k by omega,
    show s.length - min k s.length = s.length - k by omega]
  exact eq_comm

/-- C107: a string and its reverse have the same last entry (hence, with `C107_borders`, `C56_period` the same
border lengths and least period). -/
theorem C107_reverse (s : List α) :
    ∃ p q, kmp s = .ok p ∧ kmp s.reverse = .ok q ∧ p.getLast? = q.getLast? := by
  obtain ⟨p, e, hl, h⟩ := C27_kmp s
  obtain ⟨q, e', gl, g⟩ := C27_kmp s.reverse
  refine ⟨p, q, e, e', ?_⟩
  by_cases hs : s.length = 0
  · rw [hs] at hl; rw [List.length_reverse, hs] at gl
    rw [List.length_eq_zero_iff.1 hl, List.length_eq_zero_iff.1 gl]
  rw [List.getLast?_eq_getElem?, List.getLast?_eq_getElem?, gl, hl, List.length_reverse]
  have h1 : s.length - 1 < p.length := by omega
  have h2 : s.length - 1 < q.length := by simp at gl; omega
  rw [List.getElem?_eq_getElem h1, List.getElem?_eq_getElem h2]
  obtain ⟨a1, a2, a3⟩ := h _ _ (List.getElem?_eq_getElem h1)
  obtain ⟨b1, b2, b3⟩ := g _ _ (List.getElem?_eq_getElem h2)
  have e1 : s.length - 1 + 1 = s.length := by omega
  rw [e1, List.take_length] at a2 a3
  rw [e1, show s.reverse.take s.length = s.reverse by
    rw [List.take_of_length_le]; simp] at b2 b3
  congr 1
  exact Nat.le_antisymm (b3 _ a1 ((border_reverse s _ (by omega)).2 a2))
    (a3 _ b1 ((border_reverse s _ (by omega)).1 b2))

example : kmp [1, 2, 3, 1, 2] = .ok [0, 0, 0, 1, 2] ∧ kmp [2, 1, 3, 2, 1] = .ok [0, 0, 0, 1, 2] := by decide

omit [DecidableEq α] in
/-- The indexwise periods are those of Mathlib. -/
theorem hasPeriod_iff (s : List α) (d : Nat) : HasPeriod s d ↔ List.HasPeriod s d := by
  rw [List.hasPeriod_iff_getElem?]
  exact ⟨fun h i hi => h i (by omega), fun h i hi => h i (by omega)⟩

omit [DecidableEq α] in
/-- A string whose length is a multiple of a period is a power of its beginning. -/
theorem power_of_period (d : Nat) :
    ∀ (c : Nat) (s : List α), s.length = c * d → HasPeriod s d →
      s = (List.replicate c (s.take d)).flatten := by
  intro c
  induction c with
  | zero => intro s hs _; simp at hs; simp [hs]
  | succ c ih =>
    intro s hs hp
    rw [Nat.succ_mul] at hs
    have h1 : (s.drop d).length = c * d := by simp; omega
    have h2 : HasPeriod (s.drop d) d := by
      intro i hi
      rw [List.getElem?_drop, List.getElem?_drop, hp (d + i) (by simp at hi; omega), Nat.add_assoc]
    have h3 := ih _ h1 h2
    rw [List.replicate_succ, List.flatten_cons]
    conv => lhs; rw [← List.take_append_drop d s, h3]
    congr 1
    cases c with
    | zero => simp
    | succ c =>
      congr 2
      apply List.ext_getElem?
      intro i
      rw [List.getElem?_take, List.getElem?_take]
      split
      · rw [List.getElem?_drop, Nat.add_comm, ← hp i (by rw [Nat.succ_mul] at hs; omega)]
      · rfl

omit [DecidableEq α] in
/-- A power has the length of its root as a period. -/
theorem period_of_power (w : List α) (c : Nat) : HasPeriod (List.replicate c w).flatten w.length := by
  induction c with
  | zero => intro i hi; simp at hi
  | succ c ih =>
    intro i hi
    rw [List.replicate_succ, List.flatten_cons] at hi ⊢
    rw [List.getElem?_append_right (i := i + w.length) (by omega), show i + w.length - w.length = i by omega]
    by_cases hiw : i < w.length
    · rw [List.getElem?_append_left hiw]
      cases c with
      | zero => simp at hi
      | succ c => rw [List.replicate_succ, List.flatten_cons, List.getElem?_append_left hiw]
    · rw [List.getElem?_append_right (by omega)]
      simp only [List.length_append] at hi
      rw [ih (i - w.length) (by omega), show i - w.length + w.length = i by omega]

/-- C107: recognising powers. With `d = |s| - k`, where `k` is the last entry of `kmp(s)`: the string is a
power `w w ... w` with at least two factors exactly when `d < |s|` divides `|s|`; then the first `d` letters
are a root, and the length of every root is a multiple of `d`. -/
theorem C107_power (s : List α) (hs : s ≠ []) (pi : List Nat) (k : Nat) (e : kmp s = .ok pi)
    (hk : pi.getLast? = some k) :
    ((∃ w c, 2 ≤ c ∧ s = (List.replicate c w).flatten) ↔ 0 < k ∧ (s.length - k) ∣ s.length) ∧
    (0 < k → (s.length - k) ∣ s.length →
      s = (List.replicate (s.length / (s.length - k)) (s.take (s.length - k))).flatten ∧
      ∀ w c, s = (List.replicate c w).flatten → (s.length - k) ∣ w.length) := by
  obtain ⟨pi', k', e', hk', hlt, hp, hmin⟩ := C56_period s hs
  rw [e] at e'; cases e'
  rw [hk] at hk'; cases hk'
  have hpow : (s.length - k) ∣ s.length →
      s = (List.replicate (s.length / (s.length - k)) (s.take (s.length - k))).flatten := by
    intro hd
    exact power_of_period _ _ s (Nat.div_mul_cancel hd).symm hp
  have hroot : ∀ w c, 2 ≤ c → s = (List.replicate c w).flatten → (s.length - k) ∣ w.length := by
    intro w c hc hw
    have hlen : s.length = c * w.length := by
      have := congrArg List.length hw
      simpa using this
    have hw0 : 0 < w.length := by
      rcases Nat.eq_zero_or_pos w.length with h | h
      · rw [h] at hlen; simp at hlen; exact absurd hlen hs
      · exact h
    have hpw : HasPeriod s w.length := by
      have := period_of_power w c
      rwa [← hw] at this
    have hle := hmin _ hw0 hpw
    have h2 : 2 * w.length ≤ s.length := by rw [hlen]; exact Nat.mul_le_mul_right _ hc
    have hg := ((hasPeriod_iff s _).1 hp).gcd ((hasPeriod_iff s _).1 hpw) (by omega)
    have hg0 : 0 < (s.length - k).gcd w.length := Nat.gcd_pos_of_pos_left _ (by omega)
    have := hmin _ hg0 ((hasPeriod_iff s _).2 hg)
    have h3 := Nat.gcd_dvd_left (s.length - k) w.length
    have h4 := Nat.le_of_dvd (by omega) h3
    have h5 : (s.length - k).gcd w.length = s.length - k := by omega
    rw [← h5]
    exact Nat.gcd_dvd_right _ _
  refine ⟨⟨fun ⟨w, c, hc, hw⟩ => ?_, fun ⟨hk0, hd⟩ => ⟨_, _, ?_, hpow hd⟩⟩, fun hk0 hd => ⟨hpow hd, ?_⟩⟩
  · have h1 := hroot w c hc hw
    have hlen : s.length = c * w.length := by
      have := congrArg List.length hw
      simpa using this
    have hw0 : 0 < w.length := by
      rcases Nat.eq_zero_or_pos w.length with h | h
      · rw [h] at hlen; simp at hlen; exact absurd hlen hs
      · exact h
    have h2 : 2 * w.length ≤ s.length := by rw [hlen]; exact Nat.mul_le_mul_right _ hc
    have h3 := Nat.le_of_dvd hw0 h1
    refine ⟨by omega, ?_⟩
    have h4 : w.length ∣ s.length := ⟨c, by rw [hlen, Nat.mul_comm]⟩
    exact h1.trans h4
  · rw [Nat.le_div_iff_mul_le (by omega)]
    obtain ⟨c, hc⟩ := hd
    rcases Nat.lt_or_ge c 2 with h | h
    · exfalso
      have : c = 0 ∨ c = 1 := by omega
      rcases this with rfl | rfl
      · rw [Nat.mul_zero] at hc; omega
      · omega
    · calc 2 * (s.length - k) ≤ c * (s.length - k) := Nat.mul_le_mul_right _ h
        _ = s.length := by rw [Nat.mul_comm]; exact hc.symm
  · intro w c hw
    have hlen : s.length = c * w.length := by
      have := congrArg List.length hw
      simpa using this
    rcases Nat.lt_or_ge c 2 with h | h
    · have : c = 0 ∨ c = 1 := by omega
      rcases this with rfl | rfl
      · omega
      · rw [Nat.one_mul] at hlen
        rwa [← hlen]
    · exact hroot w c h hw

-- "ababab" is a power of "ab", "ababa" is not a power
example : kmp [1, 2, 1, 2, 1, 2] = .ok [0, 0, 1, 2, 3, 4] ∧ (6 - 4) ∣ 6 ∧
    kmp [1, 2, 1, 2, 1] = .ok [0, 0, 1, 2, 3] ∧ ¬ (5 - 3) ∣ 5 := by decide

/-- C107: counting occurrences. The prefix of length `L ≥ 1` occurs in `s` once more than there are entries
of `z_function(s)` that are at least `L`. -/
theorem C107_count (s : List α) (z : List Nat) (e : zFunction s = .ok z) (L : Nat) (hL : 1 ≤ L)
    (hLs : L ≤ s.length) :
    ((List.range s.length).filter fun i => decide (s.take L <+: s.drop i)).length =
      (z.filter fun k => decide (L ≤ k)).length + 1 := by
  obtain ⟨gl, g0, g⟩ := z_entry e
  have hz : z = (List.range s.length).map fun i => z[i]?.getD 0 := by
    apply List.ext_getElem (by simp [gl])
    intro i h1 h2
    simp [h1]
  rw [hz, List.filter_map, List.length_map]
  obtain ⟨n, hn⟩ : ∃ n, s.length = n + 1 := ⟨s.length - 1, by omega⟩
  rw [hn, List.range_succ_eq_map, List.filter_cons, List.filter_cons]
  have h0 : z[0]?.getD 0 = 0 := by
    have h : 0 < z.length := by omega
    have := g0 _ (List.getElem?_eq_getElem h)
    rw [List.getElem?_eq_getElem h, Option.getD_some, this]
  rw [if_pos (by simp [List.take_prefix]), if_neg (by simp [h0]; omega), List.length_cons]
  congr 2
  apply List.filter_congr
  intro i hi
  obtain ⟨j, hj, rfl⟩ := List.mem_map.1 hi
  rw [List.mem_range] at hj
  have hlt : j + 1 < z.length := by omega
  have hget := List.getElem?_eq_getElem hlt
  obtain ⟨b1, b2, b3⟩ := g (j + 1) _ (by omega) hget
  simp only [Function.comp, Nat.succ_eq_add_one, hget, Option.getD_some, decide_eq_decide]
  generalize z[j + 1] = k at b1 b2 b3
  exact ⟨fun h => b3 L hLs h, fun h => (List.take_prefix_take_left h).trans b2⟩

example : zFunction [1, 2, 1, 2, 1] = .ok [0, 0, 3, 0, 1] ∧
    (List.range 5).filter (fun i => decide ([1] <+: [1, 2, 1, 2, 1].drop i)) = [0, 2, 4] := by decide

/-- C107: recognising rotations. For strings `s`, `t` of equal length `n`, `t` is a rotation of `s` exactly when an
entry of `z_function(t ++ s ++ s)` at one of the positions `n + i`, `i < n`, is at least `n` (or both are empty). -/
theorem C107_rotation (s t : List α) (hst : t.length = s.length) :
    ∃ z, zFunction (t ++ (s ++ s)) = .ok z ∧
      (s ~r t ↔ t = [] ∨ ∃ i k, i < s.length ∧ z[s.length + i]? = some k ∧ s.length ≤ k) := by
  obtain ⟨z, e, hl, -, h⟩ := C28_z (t ++ (s ++ s))
  refine ⟨z, e, ?_⟩
  have hrot : ∀ i, i < s.length → (t <+: (s ++ s).drop i ↔ t = s.rotate i) := by
    intro i hi
    rw [List.prefix_iff_eq_take, hst, List.rotate_eq_drop_append_take (by omega),
      List.drop_append_of_le_length (by omega), List.take_append]
    simp only [List.length_drop]
    rw [show s.length - (s.length - i) = i by omega, List.take_of_length_le (l := s.drop i) (by simp)]
  have hent : ∀ i k, i < s.length → z[s.length + i]? = some k →
      (s.length ≤ k ↔ t <+: (s ++ s).drop i) := by
    intro i k hi hk
    obtain ⟨b1, b2, b3⟩ := h _ k (by omega) hk
    have hd : (t ++ (s ++ s)).drop (s.length + i) = (s ++ s).drop i := by
      rw [← hst, List.drop_length_add_append]
    rw [hd] at b2 b3
    constructor
    · intro hle
      have := (List.take_prefix_take_left hle).trans b2
      rwa [← hst, List.take_left] at this
    · intro hp
      apply b3 _ (by simp; omega)
      rwa [← hst, List.take_left]
  constructor
  · rintro ⟨j, hj⟩
    by_cases h0 : t = []
    · exact .inl h0
    have hpos : 0 < s.length := by rw [← hst]; exact List.length_pos_iff.2 h0
    rw [← List.rotate_mod] at hj
    have hlt := Nat.mod_lt j hpos
    have hz : s.length + j % s.length < z.length := by rw [hl]; simp; omega
    refine .inr ⟨j % s.length, _, hlt, List.getElem?_eq_getElem hz, ?_⟩
    rw [hent _ _ hlt (List.getElem?_eq_getElem hz), hrot _ hlt]
    exact hj.symm
  · rintro (h0 | ⟨i, k, hi, hk, hle⟩)
    · rw [h0] at hst
      rw [h0, List.length_eq_zero_iff.1 hst.symm]
    · exact ⟨i, ((hrot i hi).1 ((hent i k hi hk).1 hle)).symm⟩

example : zFunction ([3, 1, 2] ++ ([1, 2, 3] ++ [1, 2, 3])) = .ok [0, 0, 0, 0, 0, 3, 0, 0, 1] ∧
    [1, 2, 3].rotate 2 = [3, 1, 2] := by decide

/-- C107: palindromes. With a letter `c` that does not occur in `s`, the last entry of
`kmp(s ++ [c] ++ reverse s)` is the length of the longest prefix of `s` that reads the same backwards. -/
theorem C107_palindrome (s : List α) (c : α) (hc : c ∉ s) :
    ∃ pi k, kmp (s ++ c :: s.reverse) = .ok pi ∧ pi.getLast? = some k ∧ k ≤ s.length ∧
      (s.take k).reverse = s.take k ∧
      ∀ j, j ≤ s.length → (s.take j).reverse = s.take j → j ≤ k := by
  obtain ⟨pi, e, hl, h⟩ := C27_kmp (s ++ c :: s.reverse)
  have hlen : (s ++ c :: s.reverse).length = 2 * s.length + 1 := by simp; omega
  rw [hlen] at hl
  have hlt : 2 * s.length < pi.length := by omega
  have hget := List.getElem?_eq_getElem hlt
  obtain ⟨a1, a2, a3⟩ := h _ _ hget
  generalize pi[2 * s.length] = k at a1 a2 a3 hget
  rw [← hlen, List.take_length] at a2 a3
  have hc' : c ∉ s.reverse := by simpa using hc
  have hle : k ≤ s.length := by
    apply Nat.le_of_not_lt
    intro hlt
    rw [List.suffix_iff_eq_drop] at a2
    have hg := congrArg (fun l => l[s.length]?) a2
    simp only [List.length_take, hlen, List.getElem?_drop] at hg
    rw [List.getElem?_take_of_lt hlt, List.getElem?_append_right (by omega), Nat.sub_self,
      List.getElem?_cons_zero, List.getElem?_append_right (by omega)] at hg
    rw [show 2 * s.length + 1 - min k (2 * s.length + 1) + s.length - s.length =
      (2 * s.length - k) + 1 by omega, List.getElem?_cons_succ] at hg
    exact hc' (List.mem_of_getElem? hg.symm)
  have hb : ∀ j, j ≤ s.length → ((s ++ c :: s.reverse).take j <:+ s ++ c :: s.reverse ↔
      (s.take j).reverse = s.take j) := by
    intro j hj
    rw [List.take_append_of_le_length hj, List.suffix_iff_eq_drop, List.length_take, hlen,
      Nat.min_eq_left hj, show 2 * s.length + 1 - j = s.length + ((s.length - j) + 1) by omega,
      List.drop_length_add_append, List.drop_succ_cons, List.drop_reverse,
      show s.length - (s.length - j) = j by omega]
    exact eq_comm
  refine ⟨pi, k, e, ?_, hle, (hb k hle).1 a2, fun j hj hp => a3 j (by omega) ((hb j hj).2 hp)⟩
  rw [List.getLast?_eq_getElem?, hl]
  exact hget

-- "abac": the longest palindromic prefix is "aba"
example : kmp [1, 2, 1, 3, 9, 3, 1, 2, 1] = .ok [0, 0, 1, 0, 0, 0, 1, 2, 3] := by decide

end Verif.Props
