import Verif.Proof.AhoAny
import Verif.Props.AhoCorasick
import Mathlib.Algebra.Order.BigOperators.Group.List
import Mathlib.Algebra.Order.Group.Nat
/-! C83, C84: `AhoCorasick` used in other ways than `from` followed by searches; its size and work. -/
namespace Verif.Props
open Model Spec Res ACP

/-- `new(n)` followed by some `insert`s. -/
def acInserts (off N n : Nat) (I : List (List Nat × Nat)) : Res AhoCorasick :=
  forList I (AhoCorasick.new N n) fun e a => AhoCorasick.insert off N a e.1 e.2

theorem acInserts_sat {off N n : Nat} {I : List (List Nat × Nat)} (hI : ∀ e ∈ I, e.1 ≠ [] ∧ InAlphabet off N e.1) :
    Sat (acInserts off N n I) (fun a => a.n = n ∧ ∃ S, Trie off N a.nodes S I (I.map Prod.fst)) := by
  refine forList_sat (σ := AhoCorasick) (fun pre a => a.n = n ∧
    ∃ S, Trie off N a.nodes S pre (pre.map Prod.fst)) I [] _ ⟨rfl, [[]], trie_new off N⟩ ?_
  rintro pre ⟨s, i⟩ r ⟨m, ns⟩ e ⟨h1, S, h2⟩
  simp only at h1 h2 ⊢
  subst h1
  obtain ⟨g1, g2⟩ := hI (s, i) (by rw [List.nil_append] at e; rw [e]; simp)
  refine (insert_sat h2 g1 g2 i).mono ?_
  rintro a ⟨h3, S', h4⟩
  exact ⟨h3, S', by simpa using h4⟩

/-- **C83.** `insert` accepts exactly the non-empty words of the alphabet, whatever was inserted before. -/
theorem C83_insert_panics {off N n : Nat} {I : List (List Nat × Nat)}
    (hI : ¬ ∀ e ∈ I, e.1 ≠ [] ∧ InAlphabet off N e.1) : acInserts off N n I = .panic := by
  obtain ⟨A, ⟨s, i⟩, B, rfl, hA, hs⟩ := first_bad hI
  obtain ⟨⟨m, ns⟩, e, -, S, h⟩ := acInserts_sat (n := n) hA
  unfold acInserts at e ⊢
  rw [forList_append, e, ok_bind, forList_cons, insert_bad h hs i]
  rfl

/-- **C83.** Searches on an automaton that was never built: they fall back to the root at every byte that does not
continue the current prefix, so `find_all` lists at most one number per position. -/
theorem C83_unbuilt {off N n : Nat} {I : List (List Nat × Nat)} {text : List Nat}
    (hI : ∀ e ∈ I, e.1 ≠ [] ∧ InAlphabet off N e.1) :
    ∃ a, acInserts off N n I = ok a ∧ a.n = n ∧
      (InAlphabet off N text →
        a.find off text = ok ((List.range text.length).map fun i =>
          lookupLast I (trieWalk (I.map Prod.fst) (text.take (i + 1)))) ∧
        a.findAll off text = ok ((List.range text.length).map fun i =>
          (lookupLast I (trieWalk (I.map Prod.fst) (text.take (i + 1)))).toList)) ∧
      (¬ InAlphabet off N text → a.find off text = .panic ∧ a.findAll off text = .panic) := by
  obtain ⟨⟨m, ns⟩, e, hm, S, h⟩ := acInserts_sat (n := n) hI
  exact ⟨_, e, hm, fun ht => ⟨trie_find h ht, trie_findAll h ht⟩, trie_text_bad h⟩

/-- **C83.** On every automaton, reachable or not, `find_cnt` counts the numbers that `find_all` lists; it panics when
`find_all` does or when one of them is not below `n`. -/
theorem C83_find_cnt (off : Nat) (a : AhoCorasick) (text : List Nat) :
    (∀ rows, a.findAll off text = ok rows → (∀ j ∈ rows.flatten, j < a.n) →
      a.findCnt off text = ok (tally a.n rows.flatten)) ∧
    (∀ rows, a.findAll off text = ok rows → (∃ j ∈ rows.flatten, a.n ≤ j) → a.findCnt off text = .panic) ∧
    (a.findAll off text = .panic → a.findCnt off text = .panic) := by
  have h := findCnt_of_findAll (off := off) a text
  revert h
  cases a.findAll off text with
  | ok rows =>
    rintro ⟨h1, h2⟩
    exact ⟨fun r e => by cases e; exact h1, fun r e => by cases e; exact h2, fun e => by cases e⟩
  | panic => exact fun h => ⟨fun _ e _ => (nomatch e), fun _ e _ => (nomatch e), fun _ => h⟩
  | diverge => exact fun _ => ⟨fun _ e _ => (nomatch e), fun _ e _ => (nomatch e), fun e => (nomatch e)⟩

/-- **C83.** `new(n)`, any insertions with any numbers, `build`: `find` gives the number of the longest suffix that is
a prefix of an inserted word, and `find_cnt` the number of times each number is listed, unless a listed number is not
below `n`; then it panics. -/
theorem C83_built {off N n : Nat} {I : List (List Nat × Nat)} {text : List Nat}
    (hI : ∀ e ∈ I, e.1 ≠ [] ∧ InAlphabet off N e.1) (ht : InAlphabet off N text) :
    ∃ a, (acInserts off N n I >>= AhoCorasick.build N) = ok a ∧
      (∃ res, a.find off text = ok res ∧ res.length = text.length ∧ ∀ i, i < text.length →
        ∃ w, LongestPrefixSuffix (I.map Prod.fst) (text.take (i + 1)) w ∧ res[i]? = some (lookupLast I w)) ∧
      ((∀ i, i < text.length → ∀ j ∈ matchesAt I (text.take (i + 1)), j < n) →
        a.findCnt off text =
          ok (tally n ((List.range text.length).flatMap fun i => matchesAt I (text.take (i + 1))))) ∧
      ((∃ i, i < text.length ∧ ∃ j ∈ matchesAt I (text.take (i + 1)), n ≤ j) → a.findCnt off text = .panic) := by
  obtain ⟨⟨m, ns⟩, e, hn, S, hA, hS⟩ := inserts_sat (n := n) hI
  simp only at hn
  subst hn
  have hall := findAll_sat (n := m) hA ht
  obtain ⟨c1, c2, -⟩ := C83_find_cnt off ⟨m, ns⟩ text
  refine ⟨_, e, ?_, ?_, ?_⟩
  · obtain ⟨res, e2, w, hw, rfl⟩ := find_sat (n := m) hA ht
    refine ⟨_, e2, by simp, fun i hi => ⟨w i, ?_, by simp [hi]⟩⟩
    have h := hw i hi
    refine ⟨h.suf, (hS _).1 h.mem, fun x hx hxp => ?_⟩
    exact (h.max x ((hS x).2 (.inr hxp)) hx).length_le
  · intro hb
    rw [c1 _ hall (fun j hj => by
      obtain ⟨l, hl, hj⟩ := List.mem_flatten.1 hj
      obtain ⟨i, hi, rfl⟩ := List.mem_map.1 hl
      exact hb i (List.mem_range.1 hi) j hj), List.flatMap_def]
  · rintro ⟨i, hi, j, hj, hn⟩
    refine c2 _ hall ⟨j, ?_, hn⟩
    rw [List.mem_flatten]
    exact ⟨_, List.mem_map.2 ⟨i, List.mem_range.2 hi, rfl⟩, hj⟩

/-- **C83.** A word inserted after `from`, all of whose non-empty prefixes end with the beginning of a pattern: it is
not entered as a new word. Its number is given to the longest suffix `w` of it that begins a pattern, so that
`find` reports that number wherever `w` is the longest such suffix of the text. -/
theorem C83_insert_after_build {off N : Nat} {P : List (List Nat)} {s : List Nat} (i : Nat)
    (hP : ∀ p ∈ P, p ≠ [] ∧ InAlphabet off N p) (hs : s ≠ []) (ha : InAlphabet off N s)
    (hx : ∀ k, 0 < k → k ≤ s.length → ∃ x, x ≠ [] ∧ x <:+ s.take k ∧ ∃ p ∈ P, x <+: p) :
    ∃ a b w, AhoCorasick.from off N P = ok a ∧ AhoCorasick.insert off N a s i = ok b ∧
      b.nodes.length = a.nodes.length ∧ LongestPrefixSuffix P s w ∧
      ∀ text, InAlphabet off N text → ∃ res, b.find off text = ok res ∧ res.length = text.length ∧
        ∀ k, k < text.length → ∃ x, LongestPrefixSuffix P (text.take (k + 1)) x ∧
          res[k]? = some (if x = w then some i else lookupLast P.zipIdx x) := by
  obtain ⟨⟨n, ns⟩, e, hn, S, hA, hS⟩ := from_sat hP
  have hls : ∀ {t w : List Nat}, LS S t w → LongestPrefixSuffix P t w := by
    intro t w h
    refine ⟨h.suf, (hS _).1 h.mem, fun x hx hxp => ?_⟩
    exact (h.max x ((hS x).2 (.inr hxp)) hx).length_le
  obtain ⟨p, hp, hw, e2⟩ := insert_late (n := n) hA hs ha (fun k h0 hk => by
    obtain ⟨x, x1, x2, x3⟩ := hx k h0 hk
    exact ⟨x, x1, (hS x).2 (.inr x3), x2⟩) i
  refine ⟨_, _, st S p, e, e2, by simp, hls hw, fun text ht => ?_⟩
  obtain ⟨res, e3, h1, h2⟩ := find_late (n := n) hA hp i _ ht
  refine ⟨res, e3, h1, fun k hk => ?_⟩
  obtain ⟨x, x1, x2⟩ := h2 k hk
  exact ⟨x, hls x1, x2⟩

/-- **C83.** So an insertion after `build` is wrong in both ways: `aba` with number 7 after `from(["ab"])` is reported
at the single letter `a`; `b` after `from(["abc"])` is missed in `ab`, and makes the search miss the `abc` of `babc`. -/
theorem C83_insert_after_build_wrong :
    (do
      let a ← AhoCorasick.from 97 26 [bytes "ab"]
      let b ← AhoCorasick.insert 97 26 a (bytes "aba") 7
      let r ← b.findAll 97 (bytes "a")
      ok (b.nodes.length, r)) = ok (3, [[7]]) ∧
    (do
      let a ← AhoCorasick.from 97 26 [bytes "abc"]
      let b ← AhoCorasick.insert 97 26 a (bytes "b") 1
      let r ← b.findAll 97 (bytes "ab")
      let s ← b.findAll 97 (bytes "babc")
      ok (r, s)) = ok ([[], []], [[1], [], [1], []]) := by
  constructor <;> decide +kernel

/-- The hypotheses of `C83_insert_after_build`: `aba` ends in `a`, `ab`, `a`, all of which begin `ab`. -/
example : (∀ p ∈ [bytes "ab"], p ≠ [] ∧ ∀ c ∈ p, 97 ≤ c ∧ c < 97 + 26) ∧ bytes "aba" ≠ [] ∧
    (∀ c ∈ bytes "aba", 97 ≤ c ∧ c < 97 + 26) ∧
    ∀ k, 0 < k → k ≤ (bytes "aba").length → ∃ x, x ≠ [] ∧ x <:+ (bytes "aba").take k ∧ ∃ p ∈ [bytes "ab"], x <+: p := by
  refine ⟨by decide +kernel, by decide +kernel, by decide +kernel, ?_⟩
  intro k h0 hk
  have hk' : k ≤ 3 := hk
  obtain rfl | rfl | rfl : k = 1 ∨ k = 2 ∨ k = 3 := by omega
  · exact ⟨[97], by decide, ⟨[], rfl⟩, bytes "ab", by simp, ⟨[98], rfl⟩⟩
  · exact ⟨[97, 98], by decide, ⟨[], rfl⟩, bytes "ab", by simp, ⟨[], rfl⟩⟩
  · exact ⟨[97], by decide, ⟨[97, 98], rfl⟩, bytes "ab", by simp, ⟨[98], rfl⟩⟩

/-- Not built: `she` is found, the `he` inside it is not, and `hshe` is lost after the first `h`. Built: number 9 is
found, and makes `find_cnt` panic for `n = 3`. -/
example : (∀ e ∈ [(bytes "she", 0), (bytes "he", 9)], e.1 ≠ [] ∧ ∀ c ∈ e.1, 97 ≤ c ∧ c < 97 + 26) ∧
    (do
      let a ← acInserts 97 26 3 [(bytes "she", 0), (bytes "he", 9)]
      let r ← a.findAll 97 (bytes "she")
      let s ← a.findAll 97 (bytes "hshe")
      let b ← a.build 26
      let t ← b.findAll 97 (bytes "she")
      ok (r, s, t)) = ok ([[], [], [0]], [[], [], [], [9]], [[], [], [0, 9]]) ∧
    (do
      let a ← acInserts 97 26 3 [(bytes "she", 0), (bytes "he", 9)]
      let b ← a.build 26
      b.findCnt 97 (bytes "she")) = .panic := by
  refine ⟨by decide +kernel, by decide +kernel, by decide +kernel⟩

/-! ### C84: size and work -/

/-- **C84.** The trie has one node for every distinct prefix of the inserted words, the empty one included. -/
theorem C84_nodes {off N n : Nat} {I : List (List Nat × Nat)} (hI : ∀ e ∈ I, e.1 ≠ [] ∧ InAlphabet off N e.1) :
    ∃ (a : AhoCorasick) (S : List (List Nat)), acInserts off N n I = ok a ∧ a.nodes.length = S.length ∧ S.Nodup ∧
      ∀ w, w ∈ S ↔ w = [] ∨ ∃ e ∈ I, w <+: e.1 := by
  obtain ⟨⟨m, ns⟩, e, hm, S, h⟩ := acInserts_sat (n := n) hI
  refine ⟨_, S, e, h.sh.len, h.sh.nodup, fun w => ?_⟩
  rw [h.sub]
  simp

/-- **C84.** At most one node per byte inserted, and the root. -/
theorem C84_nodes_le {off N n : Nat} {I : List (List Nat × Nat)} (hI : ∀ e ∈ I, e.1 ≠ [] ∧ InAlphabet off N e.1) :
    ∃ a, acInserts off N n I = ok a ∧ a.nodes.length ≤ 1 + (I.map fun e => e.1.length).sum := by
  obtain ⟨a, S, e, h1, h2, h3⟩ := C84_nodes (n := n) hI
  refine ⟨a, e, ?_⟩
  have hsub : S ⊆ [] :: I.flatMap fun e => (List.range e.1.length).map fun k => e.1.take (k + 1) := by
    intro w hw
    rcases (h3 w).1 hw with rfl | ⟨x, hx, hp⟩
    · exact List.mem_cons_self ..
    · by_cases h0 : w = []
      · rw [h0]; exact List.mem_cons_self ..
      · refine List.mem_cons_of_mem _ (List.mem_flatMap.2 ⟨x, hx, List.mem_map.2 ⟨w.length - 1, ?_, ?_⟩⟩)
        · have := hp.length_le
          have := List.length_pos_iff.2 h0
          rw [List.mem_range]; omega
        · have := List.length_pos_iff.2 h0
          rw [show w.length - 1 + 1 = w.length by omega]
          exact (List.prefix_iff_eq_take.1 hp).symm
  have := (List.subperm_of_subset h2 hsub).length_le
  rw [List.length_cons, List.length_flatMap] at this
  simp only [List.length_map, List.length_range] at this
  omega

/-- **C84.** `build` runs its queue loop exactly once for every node but the root (the last round sees the empty
queue): with that many rounds it finishes, with one fewer it does not. Every round costs `N` transitions. -/
theorem C84_build_rounds {off N n fuel : Nat} {I : List (List Nat × Nat)}
    (hI : ∀ e ∈ I, e.1 ≠ [] ∧ InAlphabet off N e.1) :
    ∃ a, acInserts off N n I = ok a ∧
      (a.nodes.length ≤ fuel → ∃ b, AhoCorasick.buildFuel fuel N a = ok b ∧ b.nodes.length = a.nodes.length) ∧
      (fuel < a.nodes.length → AhoCorasick.buildFuel fuel N a = .diverge) := by
  obtain ⟨⟨m, ns⟩, e, hm, S, h⟩ := acInserts_sat (n := n) hI
  have hne : lookupLast I [] = none := by
    cases hl : lookupLast I [] with
    | none => rfl
    | some j => exact absurd rfl (hI _ (lookupLast_mem hl)).1
  have hl : ns.length = S.length := h.sh.len
  refine ⟨_, e, fun hf => ?_, fun hf => ?_⟩
  · simp only at hf ⊢
    obtain ⟨b, eb, -, hb⟩ := buildFuel_sat (n := m) h hne (fuel := fuel) (by omega)
    exact ⟨b, eb, by rw [hb.len, hl]⟩
  · simp only at hf
    exact buildFuel_short h hne (by omega)

theorem sum_ge_triangle : ∀ (l : List Nat), l.Pairwise (fun x y => y < x) → (∀ x ∈ l, 0 < x) →
    (∀ x ∈ l, l.length ≤ l.headD 0) ∧ l.length * (l.length + 1) ≤ 2 * l.sum
  | [], _, _ => by simp
  | [x], _, h => by
    have := h x (by simp)
    simp; omega
  | x :: y :: l, hp, h => by
    obtain ⟨h1, h2⟩ := List.pairwise_cons.1 hp
    obtain ⟨h3, h4⟩ := sum_ge_triangle (y :: l) h2 fun z hz => h z (List.mem_cons_of_mem _ hz)
    have h5 := h3 y (List.mem_cons_self ..)
    have h6 := h1 y (List.mem_cons_self ..)
    simp only [List.headD_cons, List.length_cons, List.sum_cons] at *
    refine ⟨fun _ _ => by omega, ?_⟩
    have : (l.length + 1 + 1) * (l.length + 1 + 1 + 1) =
        (l.length + 1) * (l.length + 1 + 1) + 2 * (l.length + 1 + 1) := by
      simp only [Nat.add_mul, Nat.mul_add]; omega
    omega

/-- **C84.** A row of `find_all`, and so the number of rounds of the inner loops of `find_all` and `find_cnt` at one
position, is short: with `r` entries, `r (r + 1) / 2` is at most the total length of the patterns. -/
theorem C84_row {off N : Nat} {P : List (List Nat)} {text : List Nat}
    (hP : ∀ p ∈ P, p ≠ [] ∧ InAlphabet off N p) (ht : InAlphabet off N text) :
    ∃ a res, AhoCorasick.from off N P = ok a ∧ a.findAll off text = ok res ∧
      ∀ row ∈ res, row.length * (row.length + 1) ≤ 2 * (P.map List.length).sum := by
  obtain ⟨a, res, e1, e2, -, h⟩ := C29_find_all hP ht
  refine ⟨a, res, e1, e2, fun row hrow => ?_⟩
  obtain ⟨i, hi⟩ := List.mem_iff_getElem?.1 hrow
  obtain ⟨h1, h2⟩ := h i row hi
  have h3 := (sum_ge_triangle (row.map fun j => (P.getD j []).length) (by
    rw [List.pairwise_map]; exact h2) (by
    intro x hx
    obtain ⟨j, hj, rfl⟩ := List.mem_map.1 hx
    obtain ⟨p, hp, -⟩ := (h1 j).1 hj
    rw [List.getD_eq_getElem?_getD, hp]
    exact List.length_pos_iff.2 (hP p (List.mem_of_getElem? hp)).1)).2
  rw [List.length_map] at h3
  have hnd : row.Nodup := h2.imp (by rintro a b hab rfl; omega)
  have h4 : (row.map fun j => (P.getD j []).length).sum ≤ (P.map List.length).sum := by
    have hPs : (P.map List.length).sum = ((List.range P.length).map fun j => (P.getD j []).length).sum := by
      congr 1
      apply List.ext_getElem
      · simp
      · intro k hk _
        simp only [List.getElem_map, List.getElem_range, List.getD_eq_getElem?_getD]
        rw [List.getElem?_eq_getElem (by simpa using hk)]
        rfl
    rw [hPs]
    have hs : row ⊆ List.range P.length := by
      intro j hj
      obtain ⟨p, hp, -⟩ := (h1 j).1 hj
      exact List.mem_range.2 (List.getElem?_eq_some_iff.1 hp).1
    obtain ⟨l, hl, hsub⟩ := List.subperm_of_subset hnd hs
    rw [← (hl.map _).sum_eq]
    exact (hsub.map _).sum_le_sum (by intros; exact Nat.zero_le _)
  omega

/-- The bound is met: patterns `a`, `aa`, `aaa`, `aaaa` and a text of four letters. -/
example : (do
    let a ← AhoCorasick.from 97 1 [bytes "a", bytes "aa", bytes "aaa", bytes "aaaa"]
    let r ← a.findAll 97 (bytes "aaaa")
    ok (a.nodes.length, r)) = ok (5, [[0], [1, 0], [2, 1, 0], [3, 2, 1, 0]]) ∧
    4 * (4 + 1) = 2 * ([bytes "a", bytes "aa", bytes "aaa", bytes "aaaa"].map List.length).sum := by
  constructor <;> decide +kernel

/-- Five nodes for `he`, `her`, `a`: the prefixes are the empty one, `h`, `he`, `her`, `a`. Four rounds are not enough
to build, five are. -/
example : (∀ e ∈ [(bytes "he", 0), (bytes "her", 1), (bytes "a", 2)], e.1 ≠ [] ∧ ∀ c ∈ e.1, 97 ≤ c ∧ c < 97 + 26) ∧
    (do
      let a ← acInserts 97 26 3 [(bytes "he", 0), (bytes "her", 1), (bytes "a", 2)]
      let _ ← AhoCorasick.buildFuel 5 26 a
      ok a.nodes.length) = ok 5 ∧
    (do
      let a ← acInserts 97 26 3 [(bytes "he", 0), (bytes "her", 1), (bytes "a", 2)]
      AhoCorasick.buildFuel 4 26 a) = .diverge := by
  refine ⟨by decide +kernel, by decide +kernel, by decide +kernel⟩

end Verif.Props
