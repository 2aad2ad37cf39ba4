import Verif.Model.StringsBy
import Verif.Spec.StringsBy
import Verif.Proof.Strings
import Verif.Prelude.Sim
/-! `kmp` and `z_function` over a comparison that is symmetric and transitive: the run is the run on the list
that has, at every position, the first position comparing equal to it. -/
namespace Verif
open Res Model

theorem kmpBy_decide [DecidableEq α] (s : List α) : kmpBy (fun a b => decide (a = b)) s = kmp s := by
  unfold kmpBy kmp kmpFallbackBy kmpFallback
  simp only [decide_eq_true_eq, ne_eq, decide_not]

theorem zFunctionBy_decide [DecidableEq α] (s : List α) :
    zFunctionBy (fun a b => decide (a = b)) s = zFunction s := rfl

/-! ### Any comparison at all -/

theorem kmpFallbackBy_sat {eq : α → α → Bool} {s : List α} {pi : List Nat} {i j : Nat}
    (hi : i < s.length) (hlen : pi.length = s.length) (hpi : ∀ t, t < i → ∀ k, pi[t]? = some k → k ≤ t)
    (hj : j < i) :
    Sat (kmpFallbackBy eq s pi i j) (fun j => j < i) := by
  unfold kmpFallbackBy
  refine whileLoop_sat (I := fun j => j < i) (μ := fun j => j) _ ?_ _ _ hj (Nat.lt_succ_self _)
  intro j h1
  by_cases hj0 : j > 0
  · have hja : s[j]? = some (s[j]'(by omega)) := by simp
    have hia : s[i]? = some (s[i]) := by simp
    simp only [hj0, if_true, sat_bind, sat_idx, sat_ok]
    refine ⟨_, hia, _, hja, ?_⟩
    cases eq s[i] s[j]
    · have hlt : j - 1 < pi.length := by omega
      simp only [Bool.not_false, if_true, sat_idx]
      refine ⟨pi[j-1], by simp, ?_⟩
      have := hpi (j - 1) (by omega) pi[j-1] (by simp)
      omega
    · simpa using h1
  · simp only [hj0, if_false, sat_ok, Bool.false_eq_true]
    exact h1

theorem kmpBy_total (eq : α → α → Bool) (s : List α) :
    Sat (kmpBy eq s) (fun pi => pi.length = s.length ∧ ∀ (t k : Nat), pi[t]? = some k → k ≤ t) := by
  by_cases hn : s.length = 0
  · have : s = [] := List.length_eq_zero_iff.1 hn
    subst this
    exact ⟨[], by simp [kmpBy, forRange, forCount], rfl, by simp⟩
  unfold kmpBy
  refine forRange_sat (I := fun i (pi : List Nat) => pi.length = s.length ∧
      ∀ (t k : Nat), pi[t]? = some k → k ≤ t) (by omega) ⟨by simp, ?_⟩ ?_
  · intro t k hk
    rw [List.getElem?_replicate] at hk
    split at hk
    · cases hk; omega
    · cases hk
  · intro i pi hi1 hi2 ⟨hlen, hpi⟩
    have hlt : i - 1 < pi.length := by omega
    simp only [sat_bind, sat_idx, sat_upd]
    refine ⟨pi[i-1], by simp, ?_⟩
    have h1 := hpi (i - 1) pi[i-1] (by simp)
    refine (kmpFallbackBy_sat hi2 hlen (fun t _ => hpi t) (by omega)).mono ?_
    intro j hj
    refine ⟨s[i], by simp, s[j]'(by omega), by simp, by omega, by simp [hlen], ?_⟩
    intro t k hk
    by_cases e : i = t
    · subst e
      rw [List.getElem?_set_self (by omega)] at hk
      split at hk <;> (cases hk; omega)
    · rw [List.getElem?_set_ne e] at hk
      exact hpi t k hk

theorem zExtendBy_sat {eq : α → α → Bool} {s : List α} {z : List Nat} {i k : Nat}
    (hi : i < s.length) (hlen : z.length = s.length) (hk : z[i]? = some k) (hm : i + k ≤ s.length) :
    Sat (zExtendBy eq s i z) (fun z' => ∃ k', z' = z.set i k' ∧ i + k' ≤ s.length) := by
  unfold zExtendBy
  refine whileLoop_sat (I := fun z' => ∃ k', z' = z.set i k' ∧ i + k' ≤ s.length)
    (μ := fun z' => s.length - (z'[i]?).getD 0) _ ?_ _ _ ?_ ?_
  · rintro z' ⟨k', rfl, hm'⟩
    have hii : i < z.length := by omega
    have hget : (z.set i k')[i]? = some k' := by rw [List.getElem?_set_self hii]
    simp only [sat_bind, sat_idx]
    refine ⟨k', hget, ?_⟩
    by_cases hlt : i + k' < s.length
    · have ha : s[k']? = some (s[k']'(by omega)) := by simp
      have hb : s[i + k']? = some (s[i + k']) := by simp
      simp only [hlt, if_true, sat_bind, sat_idx, sat_ok]
      refine ⟨_, ha, _, hb, ?_⟩
      cases eq s[k'] s[i + k']
      · exact ⟨k', rfl, hm'⟩
      · simp only [if_true, sat_bind, sat_idx, sat_upd]
        refine ⟨k', hget, by simp [hii], ⟨k' + 1, by simp, by omega⟩, ?_⟩
        rw [hget, List.getElem?_set_self (by simp [hii])]
        simp only [Option.getD_some]; omega
    · simp only [hlt, if_false, sat_ok, Bool.false_eq_true]
      exact ⟨k', rfl, hm'⟩
  · refine ⟨k, ?_, hm⟩
    apply List.ext_getElem?
    intro t
    rw [List.getElem?_set]
    split
    · subst_vars; rw [if_pos (by omega), hk]
    · rfl
  · omega

theorem zFunctionBy_total (eq : α → α → Bool) (s : List α) :
    Sat (zFunctionBy eq s) (fun z => z.length = s.length ∧ ∀ (t k : Nat), z[t]? = some k → t + k ≤ s.length) := by
  by_cases hn : s.length = 0
  · have : s = [] := List.length_eq_zero_iff.1 hn
    subst this
    exact ⟨[], by simp [zFunctionBy, forRange, forCount], rfl, by simp⟩
  unfold zFunctionBy
  simp only [sat_bind, sat_ok]
  refine (forRange_sat (I := fun i (st : List Nat × Nat × Nat) =>
      st.1.length = s.length ∧ (∀ t k, st.1[t]? = some k → t + k ≤ s.length) ∧
      st.2.1 ≤ i ∧ st.2.2 < s.length)
      (by omega) ?_ ?_).mono ?_
  · refine ⟨by simp, ?_, by simp, by simp only; omega⟩
    intro t k hk
    rw [List.getElem?_replicate] at hk
    split at hk
    · cases hk; omega
    · cases hk
  · rintro i ⟨z, l, r⟩ hi1 hi2 ⟨hlen, hZ, hl, hr⟩
    simp only at hlen hZ hl hr
    have hii : i < z.length := by omega
    simp only [sat_bind]
    have step1 : Sat (if i ≤ r then do
        let zil ← idx z (i - l)
        upd z i (min (r - i + 1) zil)
      else ok z) (fun z' => ∃ k, z' = z.set i k ∧ i + k ≤ s.length) := by
      by_cases hir : i ≤ r
      · simp only [hir, if_true, sat_bind, sat_idx, sat_upd]
        have hlt : i - l < z.length := by omega
        exact ⟨z[i-l], by simp, hii, _, rfl, by omega⟩
      · simp only [hir, if_false, sat_ok]
        exact ⟨z[i], by simp, hZ i z[i] (by simp)⟩
    refine step1.mono ?_
    rintro z1 ⟨k, rfl, hm⟩
    refine (zExtendBy_sat hi2 (by simp [hlen]) (by rw [List.getElem?_set_self hii]) hm).mono ?_
    rintro z2 ⟨k', rfl, hk'⟩
    rw [show (z.set i k).set i k' = z.set i k' by simp]
    have hget : (z.set i k')[i]? = some k' := by rw [List.getElem?_set_self hii]
    simp only [sat_idx]
    refine ⟨k', hget, ?_⟩
    have A1 : (z.set i k').length = s.length := by simp [hlen]
    have A2 : ∀ t k, (z.set i k')[t]? = some k → t + k ≤ s.length := by
      intro t k h
      by_cases e : i = t
      · subst e; rw [hget] at h; cases h; exact hk'
      · rw [List.getElem?_set_ne e] at h; exact hZ t k h
    by_cases hgt : i + k' - 1 > r
    · simp only [hgt, if_true, sat_ok]
      exact ⟨A1, A2, by omega, by omega⟩
    · simp only [hgt, if_false, sat_ok]
      exact ⟨A1, A2, by omega, hr⟩
  · rintro ⟨z, l, r⟩ ⟨h1, h2, -⟩
    exact ⟨h1, h2⟩

/-! ### A partial equivalence -/


instance : Decidable (PosEq eq s i j) :=
  match h : s[i]?, h' : s[j]? with
  | some a, some b => decidable_of_iff (eq a b = true)
      ⟨fun e => ⟨a, b, h, h', e⟩, by rintro ⟨a', b', e, e', r⟩; rw [h] at e; rw [h'] at e'; cases e; cases e'; exact r⟩
  | none, _ => .isFalse (by rintro ⟨a', b', e, e', r⟩; rw [h] at e; cases e)
  | some _, none => .isFalse (by rintro ⟨a', b', e, e', r⟩; rw [h'] at e'; cases e')

/-- The least `m ≤ i` that is `i` or compares equal to it. -/
def posRep (eq : α → α → Bool) (s : List α) (i : Nat) : Nat :=
  ((List.range i).find? fun m => decide (PosEq eq s m i)).getD i

theorem posRep_spec (eq : α → α → Bool) (s : List α) (i : Nat) :
    posRep eq s i ≤ i ∧ (posRep eq s i = i ∨ PosEq eq s (posRep eq s i) i) ∧
      ∀ m, m < posRep eq s i → ¬ PosEq eq s m i := by
  unfold posRep
  cases h : (List.range i).find? fun m => decide (PosEq eq s m i) with
  | none =>
    rw [List.find?_eq_none] at h
    refine ⟨Nat.le_refl _, .inl rfl, fun m hm => ?_⟩
    simpa using h m (by simpa using hm)
  | some k =>
    rw [List.find?_range_eq_some] at h
    obtain ⟨h1, h2, h3⟩ := h
    refine ⟨Nat.le_of_lt (by simpa using h2), .inr (by simpa using h1), fun m hm => ?_⟩
    simpa using h3 m (by simpa using hm)

section
variable {eq : α → α → Bool} (hsym : ∀ a b, eq a b = true → eq b a = true)
  (htrans : ∀ a b c, eq a b = true → eq b c = true → eq a c = true) {s : List α}
include hsym

theorem PosEq.symm {i j : Nat} (h : PosEq eq s i j) : PosEq eq s j i := by
  obtain ⟨a, b, h1, h2, h3⟩ := h
  exact ⟨b, a, h2, h1, hsym _ _ h3⟩

include htrans
omit hsym in
theorem PosEq.trans {i j k : Nat} (h : PosEq eq s i j) (h' : PosEq eq s j k) : PosEq eq s i k := by
  obtain ⟨a, b, h1, h2, h3⟩ := h
  obtain ⟨b', c, h4, h5, h6⟩ := h'
  rw [h2] at h4; cases h4
  exact ⟨a, c, h1, h5, htrans _ _ _ h3 h6⟩

theorem posRep_iff {i j : Nat} (hij : i ≠ j) : posRep eq s i = posRep eq s j ↔ PosEq eq s i j := by
  obtain ⟨a1, a2, a3⟩ := posRep_spec eq s i
  obtain ⟨b1, b2, b3⟩ := posRep_spec eq s j
  constructor
  · intro h
    rcases a2 with a2 | a2
    · rcases b2 with b2 | b2
      · omega
      · rw [← h, a2] at b2; exact b2
    · rcases b2 with b2 | b2
      · rw [h, b2] at a2; exact a2.symm hsym
      · rw [h] at a2; exact (a2.symm hsym).trans htrans b2
  · intro h
    apply Nat.le_antisymm
    · apply Nat.le_of_not_lt
      intro hlt
      refine a3 _ hlt ?_
      rcases b2 with b2 | b2
      · rw [b2]; exact h.symm hsym
      · exact b2.trans htrans (h.symm hsym)
    · apply Nat.le_of_not_lt
      intro hlt
      refine b3 _ hlt ?_
      rcases a2 with a2 | a2
      · rw [a2]; exact h
      · exact a2.trans htrans h

/-- The list of the first positions. -/
def repList (eq : α → α → Bool) (s : List α) : List Nat := (List.range s.length).map (posRep eq s)

omit hsym htrans in
theorem repList_length : (repList eq s).length = s.length := by simp [repList]

omit hsym htrans in
theorem repList_get {i : Nat} (hi : i < s.length) : (repList eq s)[i]? = some (posRep eq s i) := by
  simp [repList, hi]

theorem repList_eq {i j : Nat} (hij : i ≠ j) (hi : i < s.length) (hj : j < s.length) :
    (repList eq s)[i]? = (repList eq s)[j]? ↔ eq s[i] s[j] = true := by
  rw [repList_get hi, repList_get hj, Option.some.injEq, posRep_iff hsym htrans hij]
  constructor
  · rintro ⟨a, b, h1, h2, h3⟩
    rw [List.getElem?_eq_getElem hi] at h1
    rw [List.getElem?_eq_getElem hj] at h2
    cases h1; cases h2; exact h3
  · intro h
    exact ⟨_, _, List.getElem?_eq_getElem hi, List.getElem?_eq_getElem hj, h⟩

theorem repList_dec {i j : Nat} (hij : i ≠ j) (hi : i < s.length) (hj : j < s.length) :
    decide (posRep eq s i = posRep eq s j) = eq s[i] s[j] := by
  have := repList_eq hsym htrans (s := s) hij hi hj
  rw [repList_get hi, repList_get hj, Option.some.injEq] at this
  rw [Bool.eq_iff_iff, decide_eq_true_iff]
  exact this

theorem kmpFallbackBy_rep {pi : List Nat} {i j : Nat} (hi : i < s.length)
    (hpi : ∀ (t k : Nat), pi[t]? = some k → k ≤ t) (hj : j < i) :
    Sim False False (fun a b => a = b ∧ a < i) (kmpFallbackBy eq s pi i j) (kmpFallback (repList eq s) pi i j) := by
  unfold kmpFallbackBy kmpFallback
  refine sim_whileC (Q := fun a b => a = b ∧ a < i) ⟨rfl, hj⟩ ?_
  rintro j _ ⟨rfl, hj⟩
  by_cases hj0 : j > 0
  · simp only [hj0, if_true]
    rw [idx_of_some (List.getElem?_eq_getElem hi), idx_of_some (List.getElem?_eq_getElem (show j < s.length by omega)),
      idx_of_some (repList_get hi), idx_of_some (repList_get (show j < s.length by omega))]
    simp only [ok_bind, ne_eq, decide_not]
    rw [repList_dec hsym htrans (by omega) hi (by omega)]
    refine sim_ok ⟨rfl, ?_⟩
    cases eq s[i] s[j]
    · by_cases hl : j - 1 < pi.length
      · rw [idx_of_some (List.getElem?_eq_getElem hl)]
        have := hpi (j - 1) pi[j-1] (by simp)
        exact sim_ok ⟨rfl, by omega⟩
      · rw [idx_panic (by omega)]; exact sim_panic
    · simpa using hj
  · simp only [hj0, if_false]
    refine sim_ok ⟨rfl, ?_⟩
    simpa using hj

omit hsym htrans in
theorem sim_false_eq {x y : Res α} (h : Sim False False Eq x y) : x = y := by
  rcases h with ⟨h, -⟩ | ⟨h, -⟩ | ⟨h1, h2⟩ | ⟨h1, h2⟩ | ⟨a, b, h1, h2, rfl⟩
  · exact h.elim
  · exact h.elim
  all_goals rw [h1, h2]

theorem kmpBy_rep : kmpBy eq s = kmp (repList eq s) := by
  by_cases hn : s.length = 0
  · have : s = [] := List.length_eq_zero_iff.1 hn
    subst this
    rfl
  apply sim_false_eq
  unfold kmpBy kmp
  rw [repList_length]
  refine (sim_forRangeI (Q := fun _ pi pi' => pi = pi' ∧ pi.length = s.length ∧
    ∀ (t k : Nat), pi[t]? = some k → k ≤ t) (by omega) ⟨rfl, by simp, ?_⟩ ?_).mono fun a b h => h.1
  · intro t k hk
    rw [List.getElem?_replicate] at hk
    split at hk
    · cases hk; omega
    · cases hk
  · rintro i pi _ hi1 hi2 ⟨rfl, hlen, hpi⟩
    have hlt : i - 1 < pi.length := by omega
    rw [idx_of_some (List.getElem?_eq_getElem hlt)]
    simp only [ok_bind]
    have h1 := hpi (i - 1) pi[i-1] (by simp)
    refine sim_bind (kmpFallbackBy_rep hsym htrans hi2 hpi (by omega)) ?_
    rintro j _ ⟨rfl, hj⟩
    rw [idx_of_some (List.getElem?_eq_getElem hi2), idx_of_some (List.getElem?_eq_getElem (show j < s.length by omega)),
      idx_of_some (repList_get hi2), idx_of_some (repList_get (show j < s.length by omega))]
    simp only [ok_bind]
    have hd := repList_dec hsym htrans (s := s) (show i ≠ j by omega) hi2 (by omega)
    rw [upd_of_lt (by omega), upd_of_lt (by omega)]
    refine sim_ok ⟨?_, by simp [hlen], ?_⟩
    · rw [← hd]; simp only [decide_eq_true_eq]
    · intro t k hk
      by_cases e : i = t
      · subst e
        rw [List.getElem?_set_self (by omega)] at hk
        split at hk <;> (cases hk; omega)
      · rw [List.getElem?_set_ne e] at hk
        exact hpi t k hk

theorem kmpBy_spec :
    ∃ pi, kmpBy eq s = .ok pi ∧ pi.length = s.length ∧
      ∀ (i k : Nat), pi[i]? = some k →
        (k ≤ i ∧ ∀ t, t < k → PosEq eq s (i + 1 - k + t) t) ∧
        ∀ k', k' ≤ i → (∀ t, t < k' → PosEq eq s (i + 1 - k' + t) t) → k' ≤ k := by
  obtain ⟨pi, e, hl, h⟩ := kmp_spec (repList eq s)
  rw [repList_length] at hl
  refine ⟨pi, by rw [kmpBy_rep hsym htrans, e], hl, fun i k hk => ?_⟩
  have hi : i < s.length := by have := (List.getElem?_eq_some_iff.1 hk).1; omega
  have key : ∀ k, k ≤ i → ((repList eq s).take k <:+ (repList eq s).take (i + 1) ↔
      ∀ t, t < k → PosEq eq s (i + 1 - k + t) t) := by
    intro k hk
    rw [bd_iff (by rw [repList_length]; omega) (by omega)]
    constructor
    · intro hb t ht
      have := hb.2 t ht
      rw [repList_get (by omega), repList_get (by omega), Option.some.injEq,
        posRep_iff hsym htrans (by omega)] at this
      exact this.symm hsym
    · intro hb
      refine ⟨by omega, fun t ht => ?_⟩
      rw [repList_get (by omega), repList_get (by omega), Option.some.injEq,
        posRep_iff hsym htrans (by omega)]
      exact (hb t ht).symm hsym
  obtain ⟨h1, h2, h3⟩ := h i k hk
  exact ⟨⟨h1, (key k h1).1 h2⟩, fun k' hk' hb => h3 k' hk' ((key k' hk').2 hb)⟩

end

/-! ### The Z-function: transitivity is enough -/

/-- The first `k` elements match at offset `i`. -/
def MtBy (eq : α → α → Bool) (s : List α) (i k : Nat) : Prop := i + k ≤ s.length ∧ ∀ t, t < k → PosEq eq s t (i + t)

def IsZBy (eq : α → α → Bool) (s : List α) (i k : Nat) : Prop := MtBy eq s i k ∧ ∀ k', MtBy eq s i k' → k' ≤ k

theorem zExtendBy_spec {eq : α → α → Bool} {s : List α} {z : List Nat} {i k : Nat}
    (hi : i < s.length) (hlen : z.length = s.length) (hk : z[i]? = some k) (hm : MtBy eq s i k) :
    Sat (zExtendBy eq s i z) (fun z' => ∃ k', z' = z.set i k' ∧ IsZBy eq s i k') := by
  unfold zExtendBy
  refine whileLoop_sat (I := fun z' => ∃ k', z' = z.set i k' ∧ MtBy eq s i k')
    (μ := fun z' => s.length - (z'[i]?).getD 0) _ ?_ _ _ ?_ ?_
  · rintro z' ⟨k', rfl, hm'⟩
    have hii : i < z.length := by omega
    have hget : (z.set i k')[i]? = some k' := by rw [List.getElem?_set_self hii]
    simp only [sat_bind, sat_idx]
    refine ⟨k', hget, ?_⟩
    by_cases hlt : i + k' < s.length
    · have ha : s[k']? = some (s[k']'(by omega)) := by simp
      have hb : s[i + k']? = some (s[i + k']) := by simp
      simp only [hlt, if_true, sat_bind, sat_idx, sat_ok]
      refine ⟨_, ha, _, hb, ?_⟩
      cases he : eq s[k'] s[i + k']
      · simp only [Bool.false_eq_true, if_false]
        refine ⟨k', rfl, hm', fun k'' hk'' => ?_⟩
        apply Nat.le_of_not_lt
        intro hlt'
        obtain ⟨a, b, h1, h2, h3⟩ := hk''.2 k' hlt'
        rw [ha] at h1; rw [hb] at h2
        cases h1; cases h2
        rw [he] at h3; cases h3
      · simp only [if_true, sat_bind, sat_idx, sat_upd]
        refine ⟨k', hget, by simp [hii], ⟨k' + 1, by simp, by omega, ?_⟩, ?_⟩
        · intro t ht
          by_cases e : t = k'
          · subst e; exact ⟨_, _, ha, hb, he⟩
          · exact hm'.2 t (by omega)
        · rw [hget, List.getElem?_set_self (by simp [hii])]
          simp only [Option.getD_some]; omega
    · simp only [hlt, if_false, sat_ok, Bool.false_eq_true]
      refine ⟨k', rfl, hm', fun k'' hk'' => ?_⟩
      have := hk''.1; omega
  · refine ⟨k, ?_, hm⟩
    apply List.ext_getElem?
    intro t
    rw [List.getElem?_set]
    split
    · subst_vars; rw [if_pos (by omega), hk]
    · rfl
  · omega

theorem zFunctionBy_spec {eq : α → α → Bool}
    (htrans : ∀ a b c, eq a b = true → eq b c = true → eq a c = true) (s : List α) :
    ∃ z, zFunctionBy eq s = .ok z ∧ z.length = s.length ∧ (∀ k, z[0]? = some k → k = 0) ∧
      ∀ (i k : Nat), 1 ≤ i → z[i]? = some k →
        (∀ t, t < k → PosEq eq s t (i + t)) ∧
        ∀ k', (∀ t, t < k' → PosEq eq s t (i + t)) → k' ≤ k := by
  by_cases hn : s.length = 0
  · have : s = [] := List.length_eq_zero_iff.1 hn
    subst this
    exact ⟨[], by simp [zFunctionBy, forRange, forCount], rfl, by simp, by simp⟩
  have main : Sat (zFunctionBy eq s) (fun z => z.length = s.length ∧
      (∀ k, z[0]? = some k → k = 0) ∧
      ∀ (t k : Nat), 1 ≤ t → t < s.length → z[t]? = some k → IsZBy eq s t k) := by
    unfold zFunctionBy
    simp only [sat_bind, sat_ok]
    refine (forRange_sat (I := fun i (st : List Nat × Nat × Nat) =>
      st.1.length = s.length ∧ (∀ k, st.1[0]? = some k → k = 0) ∧
      (∀ (t k : Nat), 1 ≤ t → t < i → st.1[t]? = some k → IsZBy eq s t k) ∧
      (∀ t, i ≤ t → t < s.length → st.1[t]? = some 0) ∧
      st.2.1 < i ∧
      (st.2.2 = 0 ∨ (1 ≤ st.2.1 ∧ st.2.1 ≤ st.2.2 + 1 ∧ MtBy eq s st.2.1 (st.2.2 + 1 - st.2.1))))
      (by omega) ?_ ?_).mono ?_
    · refine ⟨by simp, ?_, ?_, ?_, by simp, Or.inl rfl⟩
      · intro k hk
        rw [List.getElem?_replicate, if_pos (by omega)] at hk
        cases hk; rfl
      · intro t k h1 h2; omega
      · intro t h1 h2; simp [h2]
    · rintro i ⟨z, l, r⟩ hi1 hi2 ⟨hlen, hz0, hZ, hzero, hl, hbox⟩
      simp only at hlen hz0 hZ hzero hl hbox
      have hii : i < z.length := by omega
      simp only [sat_bind]
      have step1 : Sat (if i ≤ r then do
          let zil ← idx z (i - l)
          upd z i (min (r - i + 1) zil)
        else ok z) (fun z' => ∃ k, z' = z.set i k ∧ MtBy eq s i k) := by
        by_cases hir : i ≤ r
        · simp only [hir, if_true, sat_bind, sat_idx, sat_upd]
          rcases hbox with h | ⟨hb1, hb2, hb3⟩
          · omega
          have hlt : i - l < z.length := by omega
          refine ⟨z[i-l], by simp, hii, _, rfl, ?_⟩
          have hZil := hZ (i - l) z[i-l] (by omega) (by omega) (by simp)
          have h1 := hb3.1
          refine ⟨by omega, fun t ht => ?_⟩
          have e1 := hZil.1.2 t (by omega)
          have e2 := hb3.2 (i - l + t) (by omega)
          rw [show l + (i - l + t) = i + t by omega] at e2
          exact e1.trans htrans e2
        · simp only [hir, if_false, sat_ok]
          refine ⟨0, ?_, by omega, fun t ht => by omega⟩
          apply List.ext_getElem?
          intro t
          rw [List.getElem?_set]
          split
          · subst_vars; exact hzero _ (Nat.le_refl _) hi2
          · rfl
      refine step1.mono ?_
      rintro z1 ⟨k, rfl, hm⟩
      refine (zExtendBy_spec hi2 (by simp [hlen]) (by rw [List.getElem?_set_self hii]) hm).mono ?_
      rintro z2 ⟨k', rfl, hk'⟩
      have hset : (z.set i k).set i k' = z.set i k' := by simp
      rw [hset]
      have hget : (z.set i k')[i]? = some k' := by rw [List.getElem?_set_self hii]
      simp only [sat_idx]
      refine ⟨k', hget, ?_⟩
      have A1 : (z.set i k').length = s.length := by simp [hlen]
      have A2 : ∀ k, (z.set i k')[0]? = some k → k = 0 := by
        intro k; rw [List.getElem?_set_ne (by omega)]; exact hz0 k
      have A3 : ∀ (t k : Nat), 1 ≤ t → t < i + 1 → (z.set i k')[t]? = some k → IsZBy eq s t k := by
        intro t k h1 h2 h3
        by_cases e : t = i
        · subst e; rw [hget] at h3; cases h3; exact hk'
        · rw [List.getElem?_set_ne (by omega)] at h3; exact hZ t k h1 (by omega) h3
      have A4 : ∀ t, i + 1 ≤ t → t < s.length → (z.set i k')[t]? = some 0 := by
        intro t h1 h2
        rw [List.getElem?_set_ne (by omega)]; exact hzero t (by omega) h2
      by_cases hgt : i + k' - 1 > r
      · simp only [hgt, if_true, sat_ok]
        refine ⟨A1, A2, A3, A4, by omega, Or.inr ⟨hi1, by omega, ?_⟩⟩
        rw [show i + k' - 1 + 1 - i = k' by omega]; exact hk'.1
      · simp only [hgt, if_false, sat_ok]
        exact ⟨A1, A2, A3, A4, by omega, hbox⟩
    · rintro ⟨z, l, r⟩ ⟨h1, h2, h3, -⟩
      exact ⟨h1, h2, h3⟩
  obtain ⟨z, e, hlen, h0, hZ⟩ := main
  refine ⟨z, e, hlen, h0, fun i k h1 hk => ?_⟩
  have hi : i < s.length := by
    have := (List.getElem?_eq_some_iff.1 hk).1; omega
  obtain ⟨p1, p2⟩ := hZ i k h1 hi hk
  refine ⟨p1.2, fun k' hb => p2 k' ⟨?_, hb⟩⟩
  cases k' with
  | zero => omega
  | succ k =>
    obtain ⟨_, _, _, h2, _⟩ := hb k (by omega)
    have := (List.getElem?_eq_some_iff.1 h2).1
    omega

end Verif
