import Verif.Props.AhoCorasick
import Mathlib.Data.List.Induction
/-! C110: relations between several automata and searches of `AhoCorasick`. -/
namespace Verif.Props
open Model Spec Res ACP

/-- Non-empty patterns in the alphabet. -/
def PatternsOk (off N : Nat) (P : List (List Nat)) : Prop := ∀ p ∈ P, p ≠ [] ∧ InAlphabet off N p

/-- `from(P)` and then `find_all(text)` answer `res`. -/
def AllAns (off N : Nat) (P : List (List Nat)) (text : List Nat) (res : List (List Nat)) : Prop :=
  ∃ a, AhoCorasick.from off N P = ok a ∧ a.findAll off text = ok res

/-- `from(P)` and then `find_cnt(text)` answer `cnt`. -/
def CntAns (off N : Nat) (P : List (List Nat)) (text : List Nat) (cnt : List Nat) : Prop :=
  ∃ a, AhoCorasick.from off N P = ok a ∧ a.findCnt off text = ok cnt

section
variable {off N off' N' : Nat} {P P' : List (List Nat)} {s t text : List Nat} {res res' : List (List Nat)}
  {cnt cnt' cnt'' : List Nat}

theorem allAns_eq (hP : PatternsOk off N P) (ht : InAlphabet off N text) (h : AllAns off N P text res) :
    res = (List.range text.length).map fun i => matchesAt P.zipIdx (text.take (i + 1)) := by
  obtain ⟨a, e1, e2⟩ := h
  obtain ⟨⟨n, ns⟩, e, hn, S, hA, hS⟩ := from_sat hP
  rw [e1] at e
  cases e
  rw [findAll_sat hA ht] at e2
  cases e2
  rfl

theorem allAns_get (hP : PatternsOk off N P) (ht : InAlphabet off N text) (h : AllAns off N P text res) {i : Nat}
    {row : List Nat} (hr : res[i]? = some row) : i < text.length ∧ row = matchesAt P.zipIdx (text.take (i + 1)) := by
  rw [allAns_eq hP ht h, List.getElem?_map, Option.map_eq_some_iff] at hr
  obtain ⟨k, hk, rfl⟩ := hr
  obtain ⟨h1, h2⟩ := List.getElem?_eq_some_iff.1 hk
  rw [List.getElem_range] at h2
  subst h2
  exact ⟨by simpa using h1, rfl⟩

/-- C110: there is always an answer. -/
theorem C110_answers (hP : PatternsOk off N P) (ht : InAlphabet off N text) :
    (∃ res, AllAns off N P text res) ∧ ∃ cnt, CntAns off N P text cnt := by
  obtain ⟨a, res, e1, e2, -⟩ := C29_find_all hP ht
  obtain ⟨b, cnt, e3, e4, -⟩ := C30_find_cnt hP ht
  exact ⟨⟨res, a, e1, e2⟩, cnt, b, e3, e4⟩

/-- C110: what is found up to a position does not depend on what follows. -/
theorem C110_prefix (hP : PatternsOk off N P) (hs : InAlphabet off N s) (ht : InAlphabet off N t)
    (h : AllAns off N P (s ++ t) res) (h' : AllAns off N P s res') : res' = res.take s.length := by
  have hst : InAlphabet off N (s ++ t) := fun c hc => (List.mem_append.1 hc).elim (hs c) (ht c)
  rw [allAns_eq hP hst h, allAns_eq hP hs h', ← List.map_take, List.take_range, List.length_append,
    Nat.min_eq_left (by omega)]
  apply List.map_congr_left
  intro i hi
  rw [List.mem_range] at hi
  rw [List.take_append_of_le_length (by omega)]

theorem matchesAt_append (E : List (List Nat × Nat)) (u w : List Nat) :
    ∃ x, matchesAt E (u ++ w) = x ++ matchesAt E w ∧
      ∀ j ∈ x, ∃ v, lookupLast E v = some j ∧ w.length < v.length := by
  induction u with
  | nil => exact ⟨[], rfl, by simp⟩
  | cons c u ih =>
    obtain ⟨x, e, hx⟩ := ih
    refine ⟨(lookupLast E (c :: (u ++ w))).toList ++ x, ?_, ?_⟩
    · rw [List.cons_append, matchesAt_cons, e, List.append_assoc]
    · intro j hj
      rcases List.mem_append.1 hj with hj | hj
      · exact ⟨c :: (u ++ w), by simpa using hj, by simp; omega⟩
      · exact hx j hj

/-- C110: a text put before. At position `i` of `t`, the search in `s ++ t` lists first patterns longer than `i + 1`,
which begin in `s`, and then what the search in `t` alone lists there. -/
theorem C110_append (hP : PatternsOk off N P) (hs : InAlphabet off N s) (ht : InAlphabet off N t)
    (h : AllAns off N P (s ++ t) res) (h' : AllAns off N P t res') {i : Nat} {row row' : List Nat}
    (hr : res[s.length + i]? = some row) (hr' : res'[i]? = some row') :
    ∃ x, row = x ++ row' ∧ ∀ j ∈ x, i + 1 < (P.getD j []).length := by
  have hst : InAlphabet off N (s ++ t) := fun c hc => (List.mem_append.1 hc).elim (hs c) (ht c)
  obtain ⟨-, rfl⟩ := allAns_get hP hst h hr
  obtain ⟨hi, rfl⟩ := allAns_get hP ht h' hr'
  rw [Nat.add_assoc, List.take_length_add_append]
  obtain ⟨x, e, hx⟩ := matchesAt_append P.zipIdx s (t.take (i + 1))
  refine ⟨x, e, fun j hj => ?_⟩
  obtain ⟨v, hv, hl⟩ := hx j hj
  have := ((lookupLast_zipIdx P v j).1 hv).1
  rw [List.getD_eq_getElem?_getD, this]
  simp at hl ⊢
  omega

theorem lookupLast_isSome (P : List (List Nat)) (w : List Nat) : (lookupLast P.zipIdx w).isSome ↔ w ∈ P := by
  rw [Option.isSome_iff_exists]
  constructor
  · rintro ⟨j, hj⟩
    exact List.mem_of_getElem? ((lookupLast_zipIdx P w j).1 hj).1
  · intro h
    cases hl : lookupLast P.zipIdx w with
    | some j => exact ⟨j, rfl⟩
    | none =>
      exfalso
      unfold lookupLast at hl
      rw [Option.map_eq_none_iff, List.find?_eq_none] at hl
      obtain ⟨i, hi, rfl⟩ := List.getElem_of_mem h
      have := hl (P[i], i) (by rw [List.mem_reverse]; exact List.mk_mem_zipIdx_iff_getElem?.2 (List.getElem?_eq_getElem hi))
      simp at this

theorem matchesAt_strings (P : List (List Nat)) (w : List Nat) :
    (matchesAt P.zipIdx w).map (fun j => P.getD j []) = (suffixes w).filter fun x => decide (x ∈ P) := by
  unfold matchesAt
  generalize suffixes w = l
  induction l with
  | nil => rfl
  | cons x l ih =>
    rw [List.filterMap_cons, List.filter_cons]
    cases hl : lookupLast P.zipIdx x with
    | none =>
      have : x ∉ P := fun h => by have := (lookupLast_isSome P x).2 h; rw [hl] at this; cases this
      simp only [this, decide_false]
      exact ih
    | some j =>
      have h1 := ((lookupLast_zipIdx P x j).1 hl).1
      have : x ∈ P := List.mem_of_getElem? h1
      have h2 : P.getD j [] = x := by rw [List.getD_eq_getElem?_getD, h1, Option.getD_some]
      simp only [List.map_cons, ih, this, decide_true, if_true, h2]

/-- C110: the strings that are listed, and their order, depend only on the set of the patterns. -/
theorem C110_set (hP : PatternsOk off N P) (hP' : PatternsOk off N P') (ht : InAlphabet off N text)
    (hs : ∀ p, p ∈ P ↔ p ∈ P') (h : AllAns off N P text res) (h' : AllAns off N P' text res') :
    res.map (fun row => row.map fun j => P.getD j []) = res'.map (fun row => row.map fun j => P'.getD j []) := by
  rw [allAns_eq hP ht h, allAns_eq hP' ht h', List.map_map, List.map_map]
  apply List.map_congr_left
  intro i _
  simp only [Function.comp, matchesAt_strings]
  exact List.filter_congr fun x _ => by simp [hs x]

/-- C110: one more pattern, different from the others: without its number, the rows are the old ones. -/
theorem C110_add {q : List Nat} (hP : PatternsOk off N (P ++ [q])) (hq : q ∉ P) (ht : InAlphabet off N text)
    (h : AllAns off N P text res) (h' : AllAns off N (P ++ [q]) text res') :
    res'.map (fun row => row.filter fun j => decide (j ≠ P.length)) = res := by
  have hP0 : PatternsOk off N P := fun p hp => hP p (by simp [hp])
  rw [allAns_eq hP0 ht h, allAns_eq hP ht h', List.map_map]
  apply List.map_congr_left
  intro i _
  simp only [Function.comp, matchesAt]
  have hz : (P ++ [q]).zipIdx = P.zipIdx ++ [(q, P.length)] := by simp [List.zipIdx_append]
  rw [hz]
  generalize suffixes (text.take (i + 1)) = l
  induction l with
  | nil => rfl
  | cons x l ih =>
    rw [List.filterMap_cons, List.filterMap_cons, lookupLast_append]
    by_cases hx : q = x
    · subst hx
      have : lookupLast P.zipIdx q = none := by
        cases hl : lookupLast P.zipIdx q with
        | none => rfl
        | some j => exact absurd ((lookupLast_isSome P q).1 (by rw [hl]; rfl)) hq
      simp only [if_true, this, List.filter_cons]
      simpa using ih
    · rw [if_neg hx]
      cases hl : lookupLast P.zipIdx x with
      | none => simpa using ih
      | some j =>
        have := (List.getElem?_eq_some_iff.1 ((lookupLast_zipIdx P x j).1 hl).1).1
        simp only [List.filter_cons]
        rw [if_pos (by simp; omega), ih]

theorem suffixes_map (f : Nat → Nat) (w : List Nat) : suffixes (w.map f) = (suffixes w).map (List.map f) := by
  induction w with
  | nil => rfl
  | cons c w ih => simp [suffixes, ih]

theorem map_inj_alphabet {f : Nat → Nat}
    (hf : ∀ c d, off ≤ c → c < off + N → off ≤ d → d < off + N → f c = f d → c = d) :
    ∀ {x y : List Nat}, InAlphabet off N x → InAlphabet off N y → x.map f = y.map f → x = y
  | [], [], _, _, _ => rfl
  | [], _ :: _, _, _, h => by simp at h
  | _ :: _, [], _, _, h => by simp at h
  | c :: x, d :: y, hx, hy, h => by
    rw [List.map_cons, List.map_cons, List.cons.injEq] at h
    have h1 := hx c (by simp)
    have h2 := hy d (by simp)
    rw [hf c d h1.1 h1.2 h2.1 h2.2 h.1, map_inj_alphabet hf (fun c hc => hx c (by simp [hc]))
      (fun c hc => hy c (by simp [hc])) h.2]

/-- C110: renaming the bytes, different ones differently, into any alphabet changes nothing. -/
theorem C110_rename {f : Nat → Nat} (hP : PatternsOk off N P) (ht : InAlphabet off N text)
    (hf : ∀ c d, off ≤ c → c < off + N → off ≤ d → d < off + N → f c = f d → c = d)
    (hP' : PatternsOk off' N' (P.map (List.map f))) (ht' : InAlphabet off' N' (text.map f))
    (h : AllAns off N P text res) (h' : AllAns off' N' (P.map (List.map f)) (text.map f) res') : res' = res := by
  rw [allAns_eq hP ht h, allAns_eq hP' ht' h', List.length_map]
  apply List.map_congr_left
  intro i _
  have hT : InAlphabet off N (text.take (i + 1)) := fun c hc => ht c (List.mem_of_mem_take hc)
  rw [← List.map_take]
  generalize text.take (i + 1) = w at hT
  unfold matchesAt
  rw [suffixes_map, List.filterMap_map]
  apply List.filterMap_congr
  intro x hx
  have hx' : InAlphabet off N x := fun c hc => hT c ((mem_suffixes.1 hx).subset hc)
  have hiff : ∀ k : Nat, (P.map (List.map f))[k]? = some (x.map f) ↔ P[k]? = some x := by
    intro k
    rw [List.getElem?_map, Option.map_eq_some_iff]
    constructor
    · rintro ⟨y, hy, e⟩
      rw [hy, map_inj_alphabet hf (hP y (List.mem_of_getElem? hy)).2 hx' e]
    · intro e
      exact ⟨x, e, rfl⟩
  apply Option.ext
  intro j
  simp only [Function.comp]
  rw [lookupLast_zipIdx, lookupLast_zipIdx, hiff]
  simp only [ne_eq, hiff]

example : InAlphabet 97 26 (bytes "aababba") ∧ PatternsOk 97 26 [bytes "ab", bytes "b", bytes "bab"] ∧
    (do let a ← AhoCorasick.from 97 26 [bytes "ab", bytes "b", bytes "bab"]; a.findAll 97 (bytes "aababba")) =
      ok [[], [], [0, 1], [], [2, 0, 1], [1], []] ∧
    (do let a ← AhoCorasick.from 97 26 [bytes "ab", bytes "b", bytes "bab"]; a.findAll 97 (bytes "aaba")) =
      ok [[], [], [0, 1], []] ∧
    (do let a ← AhoCorasick.from 97 26 [bytes "ab", bytes "b", bytes "bab"]; a.findAll 97 (bytes "bba")) =
      ok [[1], [1], []] := by
  unfold InAlphabet PatternsOk InAlphabet
  decide +kernel

/-! ### Counting -/

theorem occurrences_snoc (p t : List Nat) (c : Nat) :
    occurrences p (t ++ [c]) = occurrences p t + if p <:+ t ++ [c] then 1 else 0 := by
  rw [occurrences_eq, occurrences_eq, List.length_append, List.length_singleton, List.range_succ, List.map_append,
    List.sum_append]
  congr 1
  · congr 1
    apply List.map_congr_left
    intro i hi
    rw [List.mem_range] at hi
    rw [List.take_append_of_le_length (by omega)]
  · simp [List.take_of_length_le]

theorem occurrences_cons (p : List Nat) (hp : p ≠ []) (c : Nat) (t : List Nat) :
    occurrences p (c :: t) = occurrences p t + if p <+: c :: t then 1 else 0 := by
  induction t using List.reverseRecOn with
  | nil =>
    have := occurrences_snoc p [] c
    rw [List.nil_append] at this
    rw [this]
    congr 1
    have h1 : p <:+ [c] ↔ p = [c] := by
      rw [List.suffix_cons_iff, List.suffix_nil]
      exact ⟨fun h => h.resolve_right hp, .inl⟩
    have h2 : p <+: [c] ↔ p = [c] := by
      rw [List.prefix_cons_iff]
      constructor
      · rintro (h | ⟨l, rfl, h⟩)
        · exact absurd h hp
        · rw [List.prefix_nil.1 h]
      · rintro rfl; exact .inr ⟨[], rfl, List.nil_prefix⟩
    simp only [h1, h2]
  | append_singleton t d ih =>
    rw [← List.cons_append, occurrences_snoc, occurrences_snoc, ih]
    by_cases he : p = c :: t ++ [d]
    · have h1 : ¬ p <+: c :: t := fun h => by have := h.length_le; rw [he] at this; simp at this; omega
      have h2 : ¬ p <:+ t ++ [d] := fun h => by have := h.length_le; rw [he] at this; simp at this; omega
      have h3 : p <:+ c :: t ++ [d] := by rw [he]
      have h4 : p <+: c :: t ++ [d] := by rw [he]
      rw [if_neg h1, if_neg h2, if_pos h3, if_pos h4]
    · have h1 : p <+: c :: t ++ [d] ↔ p <+: c :: t := by
        rw [List.prefix_concat_iff]
        exact ⟨fun h => h.resolve_left he, .inr⟩
      have h2 : p <:+ c :: t ++ [d] ↔ p <:+ t ++ [d] := by
        rw [List.cons_append, List.suffix_cons_iff]
        exact ⟨fun h => h.resolve_left he, .inr⟩
      simp only [h1, h2]
      omega

theorem occurrences_reverse (p : List Nat) (hp : p ≠ []) (t : List Nat) :
    occurrences p.reverse t.reverse = occurrences p t := by
  induction t with
  | nil => rfl
  | cons c t ih =>
    rw [List.reverse_cons, occurrences_snoc, ih, occurrences_cons p hp, ← List.reverse_cons]
    simp only [List.reverse_suffix]

theorem occurrences_append (p s t : List Nat) :
    occurrences p s + occurrences p t ≤ occurrences p (s ++ t) ∧
      occurrences p (s ++ t) ≤ occurrences p s + occurrences p t + min (p.length - 1) t.length := by
  induction t using List.reverseRecOn with
  | nil => simp [show occurrences p [] = 0 from rfl]
  | append_singleton t d ih =>
    rw [← List.append_assoc, occurrences_snoc, occurrences_snoc, List.length_append, List.length_singleton]
    have h1 : p <:+ t ++ [d] → p <:+ s ++ t ++ [d] := fun h => by
      rw [List.append_assoc]; exact h.trans (List.suffix_append _ _)
    by_cases hl : p.length ≤ t.length + 1
    · have h2 : p <:+ s ++ t ++ [d] → p <:+ t ++ [d] := fun h =>
        List.suffix_of_suffix_length_le h (by rw [List.append_assoc]; exact List.suffix_append _ _) (by simpa using hl)
      have h3 : p <:+ s ++ t ++ [d] ↔ p <:+ t ++ [d] := ⟨h2, h1⟩
      simp only [h3]
      split <;> omega
    · have h2 : ¬ p <:+ t ++ [d] := fun h => hl (by simpa using h.length_le)
      rw [if_neg h2]
      split <;> omega

theorem cntAns_get (hP : PatternsOk off N P) (ht : InAlphabet off N text) (h : CntAns off N P text cnt) :
    cnt.length = P.length ∧ ∀ (j : Nat) (p : List Nat), P[j]? = some p →
      ((∀ k : Nat, j < k → P[k]? ≠ some p) → cnt[j]? = some (occurrences p text)) ∧
      ((∃ k : Nat, j < k ∧ P[k]? = some p) → cnt[j]? = some 0) := by
  obtain ⟨a, e1, e2⟩ := h
  obtain ⟨b, cnt', e3, e4, h⟩ := C30_find_cnt hP ht
  rw [e1] at e3
  cases e3
  rw [e2] at e4
  cases e4
  exact h

/-- C110: counts of a text put together from two: at least the sum; at most `len - 1` occurrences of a pattern lie
across the seam. -/
theorem C110_cnt_append (hP : PatternsOk off N P) (hs : InAlphabet off N s) (ht : InAlphabet off N t)
    (h : CntAns off N P s cnt) (h' : CntAns off N P t cnt') (h'' : CntAns off N P (s ++ t) cnt'') {j : Nat} {p : List Nat}
    (hj : P[j]? = some p) : ∃ a b c, cnt[j]? = some a ∧ cnt'[j]? = some b ∧ cnt''[j]? = some c ∧ a + b ≤ c ∧
      c ≤ a + b + (p.length - 1) := by
  have hst : InAlphabet off N (s ++ t) := fun c hc => (List.mem_append.1 hc).elim (hs c) (ht c)
  have g := (cntAns_get hP hs h).2 j p hj
  have g' := (cntAns_get hP ht h').2 j p hj
  have g'' := (cntAns_get hP hst h'').2 j p hj
  by_cases hl : ∃ k : Nat, j < k ∧ P[k]? = some p
  · exact ⟨0, 0, 0, g.2 hl, g'.2 hl, g''.2 hl, by omega, by omega⟩
  · have hl' : ∀ k : Nat, j < k → P[k]? ≠ some p := fun k hk e => hl ⟨k, hk, e⟩
    have := occurrences_append p s t
    exact ⟨_, _, _, g.1 hl', g'.1 hl', g''.1 hl', this.1, by omega⟩

/-- C110: with the patterns and the text turned round the counts are the same. -/
theorem C110_cnt_reverse (hP : PatternsOk off N P) (ht : InAlphabet off N text) (h : CntAns off N P text cnt)
    (h' : CntAns off N (P.map List.reverse) text.reverse cnt') : cnt' = cnt := by
  have hP' : PatternsOk off N (P.map List.reverse) := by
    intro p hp
    obtain ⟨q, hq, rfl⟩ := List.mem_map.1 hp
    exact ⟨by simpa using (hP q hq).1, fun c hc => (hP q hq).2 c (by simpa using hc)⟩
  have ht' : InAlphabet off N text.reverse := fun c hc => ht c (by simpa using hc)
  obtain ⟨g1, g⟩ := cntAns_get hP ht h
  obtain ⟨g1', g'⟩ := cntAns_get hP' ht' h'
  rw [List.length_map] at g1'
  apply List.ext_getElem? fun j => ?_
  by_cases hj : j < P.length
  · have hp := List.getElem?_eq_getElem hj
    have hp0 := (hP _ (List.getElem_mem hj)).1
    generalize P[j] = p at hp hp0
    have hiff : ∀ k : Nat, (P.map List.reverse)[k]? = some p.reverse ↔ P[k]? = some p := by
      intro k
      rw [List.getElem?_map, Option.map_eq_some_iff]
      constructor
      · rintro ⟨y, hy, e⟩
        rw [hy, List.reverse_inj.1 e]
      · intro e
        exact ⟨p, e, rfl⟩
    have a := g j p hp
    have b := g' j p.reverse ((hiff j).2 hp)
    simp only [ne_eq, hiff] at b
    by_cases hl : ∃ k : Nat, j < k ∧ P[k]? = some p
    · rw [a.2 hl, b.2 hl]
    · have hl' : ∀ k : Nat, j < k → P[k]? ≠ some p := fun k hk e => hl ⟨k, hk, e⟩
      rw [a.1 hl', b.1 hl', occurrences_reverse p hp0]
  · rw [List.getElem?_eq_none (by omega), List.getElem?_eq_none (by omega)]

example : (do let a ← AhoCorasick.from 97 26 [bytes "ab", bytes "aa"]; a.findCnt 97 (bytes "aaaba")) = ok [1, 2] ∧
    (do let a ← AhoCorasick.from 97 26 [bytes "ba", bytes "aa"]; a.findCnt 97 (bytes "abaaa")) = ok [1, 2] ∧
    (do let a ← AhoCorasick.from 97 26 [bytes "ab", bytes "aa"]; a.findCnt 97 (bytes "aaabaaaaba")) = ok [2, 5] := by
  decide +kernel

end
end Verif.Props
