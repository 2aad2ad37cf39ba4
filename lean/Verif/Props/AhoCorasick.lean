import Verif.Proof.AhoRebuild
/-! C29–C31, C54: the three searches of `AhoCorasick`, and a second `build`. -/
namespace Verif.Props
open Model Spec Res ACP

/-- Bytes of a lowercase string as numbers. -/
def bytes (s : String) : List Nat := s.toList.map Char.toNat

/-- **C29.** For non-empty patterns and a text, all in the alphabet of `N` bytes from `off`, `from`
and `find_all` run without panic; row `i` of the answer lists exactly the indices of the patterns that
end at position `i` (of equal patterns the last), each once, longest pattern first. -/
theorem C29_find_all {off N : Nat} {P : List (List Nat)} {text : List Nat}
    (hP : ∀ p ∈ P, p ≠ [] ∧ InAlphabet off N p) (ht : InAlphabet off N text) :
    ∃ a res, AhoCorasick.from off N P = ok a ∧ a.findAll off text = ok res ∧ res.length = text.length ∧
      ∀ (i : Nat) (row : List Nat), res[i]? = some row →
        (∀ j, j ∈ row ↔ EndsWith P (text.take (i + 1)) j) ∧
        row.Pairwise (fun j k => (P.getD k []).length < (P.getD j []).length) := by
  obtain ⟨⟨n, ns⟩, e, hn, S, hA, hS⟩ := from_sat hP
  refine ⟨_, _, e, findAll_sat hA ht, by simp, ?_⟩
  intro i row hrow
  rw [List.getElem?_map, Option.map_eq_some_iff] at hrow
  obtain ⟨k, hk, rfl⟩ := hrow
  rw [List.getElem?_eq_some_iff] at hk
  obtain ⟨hk1, hk2⟩ := hk
  rw [List.getElem_range] at hk2
  subst hk2
  exact ⟨fun j => mem_matchesAt, matchesAt_sorted P _⟩

/-- `new(n)`, then `insert(s, i)` with any numbers, then `build`: row `i` lists the numbers of the
suffixes of the text read so far that are patterns, longest first; of repeated insertions the last
counts. -/
theorem C29_inserts {off N n : Nat} {I : List (List Nat × Nat)} {text : List Nat}
    (hI : ∀ e ∈ I, e.1 ≠ [] ∧ InAlphabet off N e.1) (ht : InAlphabet off N text) :
    ∃ a, (forList I (AhoCorasick.new N n) (fun e a => AhoCorasick.insert off N a e.1 e.2) >>=
        AhoCorasick.build N) = ok a ∧
      a.findAll off text =
        ok ((List.range text.length).map fun i => matchesAt I (text.take (i + 1))) := by
  obtain ⟨⟨m, ns⟩, e, hn, S, hA, hS⟩ := inserts_sat (n := n) hI
  exact ⟨_, e, findAll_sat hA ht⟩

/-- An empty pattern, or one with a byte outside the alphabet, makes `from` panic. -/
theorem C29_bad_pattern_panics {off N : Nat} {P : List (List Nat)}
    (hP : ¬ ∀ p ∈ P, p ≠ [] ∧ InAlphabet off N p) : AhoCorasick.from off N P = .panic := from_bad hP

/-- A text with a byte outside the alphabet makes all three searches panic. -/
theorem C29_bad_text_panics {off N : Nat} {P : List (List Nat)} {text : List Nat}
    (hP : ∀ p ∈ P, p ≠ [] ∧ InAlphabet off N p) (ht : ¬ InAlphabet off N text) :
    ∃ a, AhoCorasick.from off N P = ok a ∧ a.find off text = .panic ∧ a.findAll off text = .panic ∧
      a.findCnt off text = .panic := by
  obtain ⟨⟨n, ns⟩, e, hn, S, hA, hS⟩ := from_sat hP
  refine ⟨_, e, text_bad hA ht ?_⟩
  rintro ⟨w, j⟩ he
  have := List.snd_lt_of_mem_zipIdx he
  simp only at hn this ⊢
  omega

theorem occurrences_eq (p text : List Nat) :
    occurrences p text = ((List.range text.length).map fun i => if p <:+ text.take (i + 1) then 1 else 0).sum := by
  unfold occurrences
  generalize List.range text.length = l
  induction l with
  | nil => rfl
  | cons i l ih =>
    rw [List.countP_cons, ih, List.map_cons, List.sum_cons]
    by_cases h : p <:+ text.take (i + 1)
    · rw [if_pos (List.isSuffixOf_iff_suffix.2 h), if_pos h]; omega
    · rw [if_neg (fun h' => h (List.isSuffixOf_iff_suffix.1 h')), if_neg h]; omega

/-- **C30.** `find_cnt` returns one number per pattern: how often the pattern occurs in the text
(overlaps included) if it is the last of its equals, and 0 otherwise. -/
theorem C30_find_cnt {off N : Nat} {P : List (List Nat)} {text : List Nat}
    (hP : ∀ p ∈ P, p ≠ [] ∧ InAlphabet off N p) (ht : InAlphabet off N text) :
    ∃ a cnt, AhoCorasick.from off N P = ok a ∧ a.findCnt off text = ok cnt ∧ cnt.length = P.length ∧
      ∀ (j : Nat) (p : List Nat), P[j]? = some p →
        ((∀ k : Nat, j < k → P[k]? ≠ some p) → cnt[j]? = some (occurrences p text)) ∧
        ((∃ k : Nat, j < k ∧ P[k]? = some p) → cnt[j]? = some 0) := by
  obtain ⟨⟨n, ns⟩, e, hn, S, hA, hS⟩ := from_sat hP
  simp only at hn
  obtain ⟨cnt, e2, hl, hc⟩ := findCnt_sat (n := n) hA ht (by
    rintro ⟨w, j⟩ he
    have := List.snd_lt_of_mem_zipIdx he
    simp only at this ⊢
    omega)
  refine ⟨_, cnt, e, e2, hl.trans hn, ?_⟩
  intro j p hj
  have hjl : j < cnt.length := by
    have := (List.getElem?_eq_some_iff.1 hj).1
    omega
  rw [some_getD 0 hjl, hc j]
  classical
  refine ⟨fun hlast => ?_, ?_⟩
  · congr 1
    rw [occurrences_eq]
    congr 1
    apply List.map_congr_left
    intro i _
    rw [matchesAt_count]
    have : EndsWith P (text.take (i + 1)) j ↔ p <:+ text.take (i + 1) := by
      constructor
      · rintro ⟨q, h1, h2, _⟩
        rw [hj] at h1; cases h1; exact h2
      · intro h; exact ⟨p, hj, h, hlast⟩
    simp only [this]
  · rintro ⟨k, hk, hk2⟩
    congr 1
    have hz : ∀ l : List Nat, (∀ x ∈ l, x = 0) → l.sum = 0 := by
      intro l
      induction l with
      | nil => intro _; rfl
      | cons x l ih =>
        intro h
        rw [List.sum_cons, h x (List.mem_cons_self ..), ih fun y hy => h y (List.mem_cons_of_mem _ hy)]
    apply hz
    intro x hx
    obtain ⟨i, _, rfl⟩ := List.mem_map.1 hx
    rw [matchesAt_count, if_neg]
    rintro ⟨q, h1, _, h3⟩
    rw [hj] at h1; cases h1
    exact h3 k hk hk2

/-- **C31.** `find(text)[i]` is `Some(j)` exactly when the longest suffix of the text up to `i` that
is a prefix of some pattern is itself a pattern, with `j` its last index. -/
theorem C31_find {off N : Nat} {P : List (List Nat)} {text : List Nat}
    (hP : ∀ p ∈ P, p ≠ [] ∧ InAlphabet off N p) (ht : InAlphabet off N text) :
    ∃ a res, AhoCorasick.from off N P = ok a ∧ a.find off text = ok res ∧ res.length = text.length ∧
      ∀ i, i < text.length → ∃ w, LongestPrefixSuffix P (text.take (i + 1)) w ∧
        ∀ j : Nat, res[i]? = some (some j) ↔ P[j]? = some w ∧ ∀ k, j < k → P[k]? ≠ some w := by
  obtain ⟨⟨n, ns⟩, e, hn, S, hA, hS⟩ := from_sat hP
  obtain ⟨res, e2, w, hw, rfl⟩ := find_sat (n := n) hA ht
  refine ⟨_, _, e, e2, by simp, fun i hi => ⟨w i, ?_, ?_⟩⟩
  · have h := hw i hi
    refine ⟨h.suf, (hS _).1 h.mem, fun x hx hxp => ?_⟩
    exact (h.max x ((hS x).2 (.inr hxp)) hx).length_le
  · intro j
    rw [← lookupLast_zipIdx]
    simp [hi]

/-- The longest prefix-suffix is unique, so C31 determines the answer. -/
theorem C31_unique {P : List (List Nat)} {t w w' : List Nat} (h : LongestPrefixSuffix P t w)
    (h' : LongestPrefixSuffix P t w') : w = w' := by
  have hle : ∀ {w w' : List Nat}, LongestPrefixSuffix P t w → LongestPrefixSuffix P t w' →
      w.length ≤ w'.length := by
    intro w w' h h'
    rcases h.isPrefix with rfl | hp
    · simp
    · exact h'.longest w h.suffix hp
  have h1 := hle h h'
  have h2 := hle h' h
  exact (List.suffix_of_suffix_length_le h.suffix h'.suffix h1).eq_of_length (by omega)

/-- `Some(j)` from `find` means that pattern `j` ends there. -/
theorem C31_sound {off N : Nat} {P : List (List Nat)} {text : List Nat}
    (hP : ∀ p ∈ P, p ≠ [] ∧ InAlphabet off N p) (ht : InAlphabet off N text) :
    ∃ a res, AhoCorasick.from off N P = ok a ∧ a.find off text = ok res ∧
      ∀ (i j : Nat), res[i]? = some (some j) → EndsWith P (text.take (i + 1)) j := by
  obtain ⟨a, res, e, e2, hl, h⟩ := C31_find hP ht
  refine ⟨a, res, e, e2, fun i j hij => ?_⟩
  have hi : i < text.length := by
    rw [← hl]; exact (List.getElem?_eq_some_iff.1 hij).1
  obtain ⟨w, h1, h2⟩ := h i hi
  obtain ⟨h3, h4⟩ := (h2 j).1 hij
  exact ⟨w, h3, h1.suffix, h4⟩

/-- **C31, the converse fails.** `None` from `find` does not mean that no pattern ends there: with the
patterns `abc` and `b`, `find("ab")` misses the `b`, which `find_all` reports. -/
theorem C31_misses_shorter :
    ∃ a, AhoCorasick.from 97 26 [bytes "abc", bytes "b"] = ok a ∧
      a.find 97 (bytes "ab") = ok [none, none] ∧ a.findAll 97 (bytes "ab") = ok [[], [1]] := by
  obtain ⟨a, e, -⟩ := from_sat (off := 97) (N := 26) (P := [bytes "abc", bytes "b"]) (by
    have h : ∀ p ∈ [bytes "abc", bytes "b"], p ≠ [] ∧ ∀ c ∈ p, 97 ≤ c ∧ c < 97 + 26 := by decide +kernel
    exact h)
  refine ⟨a, e, ?_⟩
  have h : (AhoCorasick.from 97 26 [bytes "abc", bytes "b"] >>= fun a => do
      let r ← a.find 97 (bytes "ab")
      let s ← a.findAll 97 (bytes "ab")
      ok (r, s)) = ok ([none, none], [[], [1]]) := by decide +kernel
  rw [e, ok_bind] at h
  revert h
  cases a.find 97 (bytes "ab") <;> cases a.findAll 97 (bytes "ab") <;> simp

/-- Patterns inside patterns, a repeated pattern, overlapping matches. -/
example : (∀ p ∈ [bytes "he", bytes "she", bytes "hers", bytes "he", bytes "e"],
      p ≠ [] ∧ ∀ c ∈ p, 97 ≤ c ∧ c < 97 + 26) ∧
    (AhoCorasick.from 97 26 [bytes "he", bytes "she", bytes "hers", bytes "he", bytes "e"] >>= fun a => do
      let r ← a.find 97 (bytes "ushers")
      let s ← a.findAll 97 (bytes "ushers")
      let t ← a.findCnt 97 (bytes "ushershe")
      ok (r, s, t)) = ok ([none, none, none, some 1, none, some 2], [[], [], [], [1, 3, 4], [], [2]],
        [0, 2, 1, 2, 2]) := by
  decide +kernel

/-- **C54.** An automaton is built once: after `from` with at least one pattern, and any further
insertions, `build` never returns, whatever the number of rounds it is given. -/
theorem C54_rebuild_diverges {off N : Nat} {P : List (List Nat)} {J : List (List Nat × Nat)} (hne : P ≠ [])
    (hP : ∀ p ∈ P, p ≠ [] ∧ InAlphabet off N p) (hJ : ∀ e ∈ J, e.1 ≠ [] ∧ InAlphabet off N e.1) :
    ∃ a b, AhoCorasick.from off N P = ok a ∧
      forList J a (fun e a => AhoCorasick.insert off N a e.1 e.2) = ok b ∧
      ∀ fuel, AhoCorasick.buildFuel fuel N b = .diverge := by
  obtain ⟨a, e, -, S, hA, hS⟩ := from_sat hP
  cases P with
  | nil => exact absurd rfl hne
  | cons p P =>
    cases p with
    | nil => exact absurd rfl (hP [] (List.mem_cons_self ..)).1
    | cons d p =>
      obtain ⟨hc, hL⟩ := hA.live (d := d) (p := p) fun w hw =>
        (hS w).2 (.inr ⟨d :: p, List.mem_cons_self .., hw⟩)
      have h0 : 0 < S.length := List.length_pos_of_mem ((hS []).2 (.inl rfl))
      obtain ⟨b, e2, hb, -⟩ := forList_sat (σ := AhoCorasick)
        (f := fun e a => AhoCorasick.insert off N a e.1 e.2)
        (fun _ a => Live N (d - off) (fun k => k < S.length) a.nodes ∧ 0 < a.nodes.length) J [] a
        ⟨hL, by rw [hA.len]; exact h0⟩ (by
          rintro pre x r b hx ⟨h1, h2⟩
          obtain ⟨g1, g2⟩ := hJ x (by rw [List.nil_append] at hx; rw [hx]; simp)
          exact insert_live h1 h2 g1 g2)
      exact ⟨a, b, e, e2, buildFuel_live hc hb h0⟩

/-- Only an automaton without patterns may be built again; that changes nothing. -/
theorem C54_empty_rebuild {off N : Nat} :
    ∃ a, AhoCorasick.from off N [] = ok a ∧ AhoCorasick.build N a = ok a := by
  refine ⟨_, ?_, build_new N 0⟩
  unfold AhoCorasick.from
  exact build_new N 0

/-- One pattern, one insertion afterwards; the second `build` uses up thirty rounds. -/
example : (∀ p ∈ [bytes "ab"], p ≠ [] ∧ ∀ c ∈ p, 97 ≤ c ∧ c < 97 + 2) ∧
    (do
      let a ← AhoCorasick.from 97 2 [bytes "ab"]
      let b ← AhoCorasick.insert 97 2 a (bytes "b") 1
      AhoCorasick.buildFuel 30 2 b) = .diverge := by
  decide +kernel

end Verif.Props
