import Verif.Proof.AhoBuild
import Mathlib.Data.List.Perm.Subperm
/-! Proofs of the searches of `AhoCorasick`. -/
namespace Verif.ACP
open Model Spec Res AhoCorasick
variable {off N : Nat} {S : List (List Nat)} {E : List (List Nat × Nat)}

theorem Words.short (hw : Words off N S E) {w : List Nat} (h : w ∈ S) : w.length < S.length := by
  have hp : ∀ (l : Nat) (w : List Nat), w.length = l → w ∈ S → ∀ i, w.take i ∈ S := by
    intro l
    induction l with
    | zero =>
      intro w hl h i
      rw [List.length_eq_zero_iff.1 hl] at h ⊢; simpa using h
    | succ l ih =>
      intro w hl h i
      rcases List.eq_nil_or_concat w with rfl | ⟨y, d, rfl⟩
      · simp at hl
      · rw [List.concat_eq_append] at h hl ⊢
        by_cases hi : i ≤ y.length
        · rw [List.take_append_of_le_length hi]
          exact ih y (by simpa using hl) (hw.closed y d h) i
        · rw [List.take_of_length_le (by simp; omega)]; exact h
  have hn : ((List.range (w.length + 1)).map fun i => w.take i).Nodup := by
    refine List.Nodup.map_on ?_ List.nodup_range
    intro a ha b hb e
    have := congrArg List.length e
    simp at this ha hb; omega
  have hs : ((List.range (w.length + 1)).map fun i => w.take i) ⊆ S := by
    intro x hx
    obtain ⟨i, _, rfl⟩ := List.mem_map.1 hx
    exact hp _ w rfl h i
  have := (List.subperm_of_subset hn hs).length_le
  simp at this; omega

theorem Auto.nil_ls {ns : List ACNode} (h : Auto off N ns S E) : LS S [] (st S 0) := by
  rw [h.wd.root]
  exact LS.refl (by rw [← h.wd.root]; exact st_mem h.wd.pos)

theorem Auto.go {ns : List ACNode} (h : Auto off N ns S E) {p c : Nat} {pre : List Nat} (hp : p < S.length)
    (hls : LS S pre (st S p)) (h1 : off ≤ c) (h2 : c < off + N) :
    subU c off = ok (c - off) ∧ getNext ns p (c - off) = ok (nx ns p (c - off)) ∧
      nx ns p (c - off) < S.length ∧ LS S (pre ++ [c]) (st S (nx ns p (c - off))) := by
  obtain ⟨d, rfl⟩ : ∃ d, c = off + d := ⟨c - off, by omega⟩
  obtain ⟨h3, h4⟩ := h.full p hp d (by omega)
  rw [show off + d - off = d by omega]
  exact ⟨by rw [subU_of_le h1]; congr; omega,
    getNext_eq (by rw [h.len]; exact hp) (by rw [h.row p hp]; omega), h3, LS.step h.wd.closed hls h4⟩

theorem Auto.matches {ns : List ACNode} (h : Auto off N ns S E) {w : List Nat} {p : Nat}
    (hls : LS S w (st S p)) : matchesAt E w = matchesAt E (st S p) :=
  matchesAt_ls hls.suf fun x hx hs => hls.max x (h.wd.num x hs) hx

theorem matchesAt_split (w : List Nat) (hne : lookupLast E [] = none) :
    matchesAt E w = (lookupLast E w).toList ++ matchesAt E w.tail := by
  cases w with
  | nil => rw [hne]; rfl
  | cons c w => rw [matchesAt_cons]; rfl

theorem collect_sat {ns : List ACNode} (h : Auto off N ns S E) {p : Nat} (hp : p < S.length) :
    collect ns p = ok (matchesAt E (st S p)) := by
  have key : Sat (collect ns p) (fun r => r = matchesAt E (st S p)) := by
    unfold collect
    rw [idx_of_some (nd_some (by rw [h.len]; exact hp)), ok_bind]
    refine loop_satG (σ := Option Nat × List Nat) (fun o k => ∃ w, OutOk S E w o.1 ∧
      o.2 ++ matchesAt E w.tail = matchesAt E (st S p) ∧ w.length = k) _ ?_ _ _ (st S p).length
      ⟨st S p, h.out p hp, ?_, rfl⟩ (by
        have := h.wd.short (st_mem hp); rw [h.len]; omega)
    · rintro ⟨o, r⟩ k ⟨w, h1, h2, h3⟩
      simp only at h1 h2 ⊢
      cases o with
      | none =>
        simp only [sat_ok]
        rw [show matchesAt E w.tail = [] from h1, List.append_nil] at h2
        exact h2
      | some x =>
        obtain ⟨o1, o2, o3, o4⟩ := h1
        obtain ⟨j, hj⟩ := Option.isSome_iff_exists.1 o4
        simp only
        rw [idx_of_some (nd_some (by rw [h.len]; exact o1)), ok_bind, h.fin x o1, hj, unwrap_some, ok_bind,
          sat_ok]
        refine ⟨(st S x).length, by omega, st S x, h.out x o1, ?_, rfl⟩
        rw [← h2, o2, matchesAt_split (st S x) h.wd.ne, hj]
        simp
    · simp only
      rw [matchesAt_split (st S p) h.wd.ne, h.fin p hp]
      cases lookupLast E (st S p) <;> rfl
  obtain ⟨r, e, rfl⟩ := key
  exact e

theorem take_map_append {α : Type} (f : List Nat → α) (p : List Nat) (x : Nat) :
    (List.range (p ++ [x]).length).map (fun i => f ((p ++ [x]).take (i + 1))) =
      (List.range p.length).map (fun i => f (p.take (i + 1))) ++ [f (p ++ [x])] := by
  rw [List.length_append, List.length_singleton, List.range_succ, List.map_append]
  congr 1
  · apply List.map_congr_left
    intro i hi
    rw [List.mem_range] at hi
    rw [List.take_append_of_le_length (by omega)]
  · simp only [List.map_cons, List.map_nil]
    rw [List.take_of_length_le (by simp)]

theorem findAll_walk {ns : List ACNode} (h : Auto off N ns S E) {text : List Nat}
    (ha : InAlphabet off N text) : Sat (forList text (0, []) (findAllStep off ns)) (fun s =>
      s.1 < S.length ∧ LS S text (st S s.1) ∧
      s.2 = (List.range text.length).map fun i => matchesAt E (text.take (i + 1))) := by
  refine (forList_sat (σ := Nat × List (List Nat)) (fun pre s => s.1 < S.length ∧ LS S pre (st S s.1) ∧
    s.2 = (List.range pre.length).map fun i => matchesAt E (pre.take (i + 1))) text [] (0, [])
    ⟨h.wd.pos, h.nil_ls, rfl⟩ ?_)
  rintro pre c r ⟨p, res⟩ e ⟨h1, h2, h3⟩
  simp only at h1 h2 h3 ⊢
  rw [List.nil_append] at e
  obtain ⟨hc1, hc2⟩ := ha c (by rw [e]; simp)
  obtain ⟨a1, a2, a3, a4⟩ := h.go h1 h2 hc1 hc2
  unfold findAllStep
  rw [a1, ok_bind, a2, ok_bind, collect_sat h a3, ok_bind, sat_ok]
  refine ⟨a3, a4, ?_⟩
  simp only
  rw [take_map_append, h3, ← h.matches a4]

theorem findAll_sat {n : Nat} {ns : List ACNode} (h : Auto off N ns S E) {text : List Nat}
    (ha : InAlphabet off N text) :
    findAll off ⟨n, ns⟩ text = ok ((List.range text.length).map fun i => matchesAt E (text.take (i + 1))) := by
  obtain ⟨s, e, _, _, h3⟩ := findAll_walk h ha
  unfold findAll
  simp only
  rw [e, ok_bind, h3]

theorem find_walk {ns : List ACNode} (h : Auto off N ns S E) {text : List Nat}
    (ha : InAlphabet off N text) :
    Sat (forList text (0, []) (findStep off ns)) (fun s => s.1 < S.length ∧ LS S text (st S s.1) ∧
      ∃ w : Nat → List Nat, (∀ i, i < text.length → LS S (text.take (i + 1)) (w i)) ∧
      s.2 = (List.range text.length).map fun i => lookupLast E (w i)) := by
  refine (forList_sat (σ := Nat × List (Option Nat)) (fun pre s => s.1 < S.length ∧ LS S pre (st S s.1) ∧
    ∃ w : Nat → List Nat, (∀ i, i < pre.length → LS S (pre.take (i + 1)) (w i)) ∧
      s.2 = (List.range pre.length).map fun i => lookupLast E (w i)) text [] (0, [])
    ⟨h.wd.pos, h.nil_ls, fun _ => [], by simp, rfl⟩ ?_)
  · rintro pre c r ⟨p, res⟩ e ⟨h1, h2, w, h3, h4⟩
    simp only at h1 h2 h3 h4 ⊢
    rw [List.nil_append] at e
    obtain ⟨hc1, hc2⟩ := ha c (by rw [e]; simp)
    obtain ⟨a1, a2, a3, a4⟩ := h.go h1 h2 hc1 hc2
    unfold findStep
    rw [a1, ok_bind, a2, ok_bind, idx_of_some (nd_some (by rw [h.len]; exact a3)), ok_bind, sat_ok]
    refine ⟨a3, a4, fun i => if i < pre.length then w i else st S (nx ns p (c - off)), ?_, ?_⟩
    · intro i hi
      simp only
      by_cases hi2 : i < pre.length
      · rw [if_pos hi2, List.take_append_of_le_length (by omega)]; exact h3 i hi2
      · rw [if_neg hi2, List.take_of_length_le (by simp at hi ⊢; omega)]; exact a4
    · rw [List.length_append, List.length_singleton, List.range_succ, List.map_append, h4]
      simp only
      congr 1
      · apply List.map_congr_left
        intro i hi
        rw [List.mem_range] at hi
        rw [if_pos hi]
      · simp [h.fin _ a3]

theorem find_sat {n : Nat} {ns : List ACNode} (h : Auto off N ns S E) {text : List Nat}
    (ha : InAlphabet off N text) :
    Sat (find off ⟨n, ns⟩ text) (fun r => ∃ w : Nat → List Nat,
      (∀ i, i < text.length → LS S (text.take (i + 1)) (w i)) ∧
      r = (List.range text.length).map fun i => lookupLast E (w i)) := by
  unfold find
  rw [sat_bind]
  refine (find_walk h ha).mono ?_
  rintro ⟨p, res⟩ ⟨_, _, h3⟩
  simpa using h3

theorem bump_sat {cnt : List Nat} {x : Nat} (hx : x < cnt.length) :
    bump cnt x = ok (cnt.set x (cnt.getD x 0 + 1)) := by
  unfold bump
  rw [idx_of_some (some_getD 0 hx), ok_bind, upd_of_lt hx]

/-- `cnt'` is `cnt` with the members of `r` counted. -/
def Counted (cnt cnt' r : List Nat) : Prop :=
  cnt'.length = cnt.length ∧ ∀ j, cnt'.getD j 0 = cnt.getD j 0 + r.count j

theorem Counted.bump {cnt cnt' r : List Nat} (h : Counted cnt cnt' r) {x : Nat} (hx : x < cnt.length) :
    Counted cnt (cnt'.set x (cnt'.getD x 0 + 1)) (r ++ [x]) := by
  refine ⟨by rw [List.length_set]; exact h.1, fun j => ?_⟩
  rw [getD_set (by rw [h.1]; exact hx), List.count_append, h.2 x]
  by_cases e : j = x
  · subst e; rw [if_pos rfl]; simp; omega
  · rw [if_neg e, h.2 j, List.count_singleton, if_neg (by simpa using Ne.symm e)]; omega

theorem findCnt_walk {n : Nat} {ns : List ACNode} (h : Auto off N ns S E) {text : List Nat}
    (ha : InAlphabet off N text) (hE : ∀ e ∈ E, e.2 < n) :
    Sat (forList text (0, List.replicate n 0) (findCntStep off ns)) (fun s => s.1 < S.length ∧
      LS S text (st S s.1) ∧ s.2.length = n ∧ ∀ j, s.2.getD j 0 = ((List.range text.length).map fun i => (matchesAt E (text.take (i + 1))).count j).sum) := by
  have hlt : ∀ w j, lookupLast E w = some j → j < n := fun w j hj => hE _ (lookupLast_mem hj)
  refine (forList_sat (σ := Nat × List Nat) (fun pre s => s.1 < S.length ∧ LS S pre (st S s.1) ∧
    s.2.length = n ∧ ∀ j, s.2.getD j 0 =
      ((List.range pre.length).map fun i => (matchesAt E (pre.take (i + 1))).count j).sum) text []
    (0, List.replicate n 0) ⟨h.wd.pos, h.nil_ls, by simp, fun j => by simpa using getD_replicate⟩ ?_)
  · rintro pre c r ⟨p, cnt⟩ e ⟨h1, h2, h3, h4⟩
    simp only at h1 h2 h3 h4 ⊢
    rw [List.nil_append] at e
    obtain ⟨hc1, hc2⟩ := ha c (by rw [e]; simp)
    obtain ⟨a1, a2, a3, a4⟩ := h.go h1 h2 hc1 hc2
    unfold findCntStep
    rw [a1, ok_bind, a2, ok_bind, idx_of_some (nd_some (by rw [h.len]; exact a3)), ok_bind, sat_bind]
    generalize hv : nx ns p (c - off) = v at *
    have first : Sat (match (nd ns v).fin with
        | some x => bump cnt x
        | none => ok cnt : Res (List Nat)) (fun cnt' => Counted cnt cnt' (lookupLast E (st S v)).toList) := by
      rw [h.fin v a3]
      cases hl : lookupLast E (st S v) with
      | none =>
        simp only [sat_ok]
        exact ⟨rfl, fun j => by simp⟩
      | some x =>
        have hx := hlt _ _ hl
        simp only
        rw [bump_sat (by omega), sat_ok]
        have : Counted cnt cnt [] := ⟨rfl, fun j => by simp⟩
        simpa using this.bump (by omega : x < cnt.length)
    refine first.mono ?_
    intro cnt1 hc
    rw [sat_bind]
    refine (loop_satG (σ := Option Nat × List Nat) (fun o k => ∃ w r, OutOk S E w o.1 ∧ Counted cnt o.2 r ∧
      r ++ matchesAt E w.tail = matchesAt E (st S v) ∧ w.length = k)
      (fun cnt' => Counted cnt cnt' (matchesAt E (st S v))) ?_ _ _ (st S v).length
      ⟨st S v, _, h.out v a3, hc, (matchesAt_split _ h.wd.ne).symm, rfl⟩ (by
        have := h.wd.short (st_mem a3); simp only [h.len]; omega)).mono ?_
    · rintro ⟨o, cnt2⟩ k ⟨w, r, o0, o1, o2, o3⟩
      simp only at o0 o1 o2 ⊢
      cases o with
      | none =>
        simp only [sat_ok]
        rw [show matchesAt E w.tail = [] from o0, List.append_nil] at o2
        rw [← o2]; exact o1
      | some x =>
        obtain ⟨b1, b2, b3, b4⟩ := o0
        obtain ⟨j, hj⟩ := Option.isSome_iff_exists.1 b4
        have hjn := hlt _ _ hj
        simp only
        rw [idx_of_some (nd_some (by rw [h.len]; exact b1)), ok_bind, h.fin x b1, hj, unwrap_some, ok_bind,
          bump_sat (by rw [o1.1]; omega), ok_bind, sat_ok]
        refine ⟨(st S x).length, by omega, st S x, r ++ [j], h.out x b1, o1.bump (by omega), ?_, rfl⟩
        rw [← o2, b2, matchesAt_split (st S x) h.wd.ne, hj]
        simp
    · rintro cnt3 ⟨g1, g2⟩
      rw [sat_ok]
      refine ⟨a3, a4, g1.trans h3, fun j => ?_⟩
      simp only
      rw [g2 j, h4 j, take_map_append (fun w => (matchesAt E w).count j), List.sum_append, h.matches a4]
      simp

theorem findCnt_sat {n : Nat} {ns : List ACNode} (h : Auto off N ns S E) {text : List Nat}
    (ha : InAlphabet off N text) (hE : ∀ e ∈ E, e.2 < n) :
    Sat (findCnt off ⟨n, ns⟩ text) (fun r => r.length = n ∧ ∀ j,
      r.getD j 0 = ((List.range text.length).map fun i => (matchesAt E (text.take (i + 1))).count j).sum) := by
  unfold findCnt
  rw [sat_bind]
  refine (findCnt_walk h ha hE).mono ?_
  rintro ⟨p, cnt⟩ ⟨_, _, h3⟩
  simpa using h3

/-! ### Numbering by position -/

theorem lookupLast_zipIdx : ∀ (P : List (List Nat)) (w : List Nat) (j : Nat),
    lookupLast P.zipIdx w = some j ↔ P[j]? = some w ∧ ∀ k, j < k → P[k]? ≠ some w := by
  intro P
  induction P using List.reverseRecOn with
  | nil => intro w j; simp [lookupLast]
  | append_singleton P s ih =>
    intro w j
    rw [List.zipIdx_append]
    simp only [List.zipIdx_singleton, Nat.zero_add]
    rw [lookupLast_append]
    by_cases e : s = w
    · subst e
      rw [if_pos rfl]
      constructor
      · intro h
        have : P.length = j := by simpa using h
        subst this
        refine ⟨by simp, fun k hk => ?_⟩
        rw [List.getElem?_eq_none (by simp; omega)]; simp
      · rintro ⟨h1, h2⟩
        have hj := (List.getElem?_eq_some_iff.1 h1).1
        have := h2 P.length
        simp at this hj
        congr 1; omega
    · rw [if_neg e, ih]
      constructor
      · rintro ⟨h1, h2⟩
        have hj := (List.getElem?_eq_some_iff.1 h1).1
        refine ⟨by rw [List.getElem?_append_left hj]; exact h1, fun k hk => ?_⟩
        by_cases hkl : k < P.length
        · rw [List.getElem?_append_left hkl]; exact h2 k hk
        · rw [List.getElem?_append_right (by omega)]
          by_cases hk0 : k - P.length = 0
          · rw [hk0]; simpa using e
          · rw [List.getElem?_eq_none (by simp; omega)]; simp
      · rintro ⟨h1, h2⟩
        have hj := (List.getElem?_eq_some_iff.1 h1).1
        have hjl : j < P.length := by
          by_contra hjl
          have : j = P.length := by simp at hj; omega
          subst this
          simp at h1
          exact e h1
        rw [List.getElem?_append_left hjl] at h1
        refine ⟨h1, fun k hk hk2 => ?_⟩
        have hkl := (List.getElem?_eq_some_iff.1 hk2).1
        exact h2 k hk (by rw [List.getElem?_append_left hkl]; exact hk2)

theorem mem_suffixes {w x : List Nat} : x ∈ suffixes w ↔ x <:+ w := by
  induction w with
  | nil => simp [suffixes]
  | cons c w ih => rw [suffixes, List.mem_cons, ih, List.suffix_cons_iff]

theorem suffixes_sorted (w : List Nat) : (suffixes w).Pairwise fun x y => y.length < x.length := by
  induction w with
  | nil => simp [suffixes]
  | cons c w ih =>
    rw [suffixes, List.pairwise_cons]
    refine ⟨fun y hy => ?_, ih⟩
    have := (mem_suffixes.1 hy).length_le
    simp; omega

theorem mem_matchesAt {P : List (List Nat)} {w : List Nat} {j : Nat} :
    j ∈ matchesAt P.zipIdx w ↔ EndsWith P w j := by
  unfold matchesAt EndsWith
  rw [List.mem_filterMap]
  constructor
  · rintro ⟨p, h1, h2⟩
    obtain ⟨h3, h4⟩ := (lookupLast_zipIdx P p j).1 h2
    exact ⟨p, h3, mem_suffixes.1 h1, h4⟩
  · rintro ⟨p, h1, h2, h3⟩
    exact ⟨p, mem_suffixes.2 h2, (lookupLast_zipIdx P p j).2 ⟨h1, h3⟩⟩

theorem matchesAt_sorted (P : List (List Nat)) (w : List Nat) :
    (matchesAt P.zipIdx w).Pairwise fun a b => (P.getD b []).length < (P.getD a []).length := by
  unfold matchesAt
  rw [List.pairwise_filterMap]
  refine (suffixes_sorted w).imp ?_
  intro x y h a ha b hb
  have h1 := ((lookupLast_zipIdx P x a).1 ha).1
  have h2 := ((lookupLast_zipIdx P y b).1 hb).1
  rw [List.getD_eq_getElem?_getD, List.getD_eq_getElem?_getD, h1, h2]
  exact h

theorem matchesAt_count (P : List (List Nat)) (w : List Nat) (j : Nat) [Decidable (EndsWith P w j)] :
    (matchesAt P.zipIdx w).count j = if EndsWith P w j then 1 else 0 := by
  have hn : (matchesAt P.zipIdx w).Nodup := (matchesAt_sorted P w).imp (by rintro a b h rfl; omega)
  split
  · rename_i h
    exact List.count_eq_one_of_mem hn (mem_matchesAt.2 h)
  · rename_i h
    exact List.count_eq_zero.2 fun h' => h (mem_matchesAt.1 h')

/-! ### Construction -/

/-- The automaton that `a` holds is right for the numbered words `E`, with trie nodes `S`. -/
def Holds (off N : Nat) (a : AhoCorasick) (E : List (List Nat × Nat)) (W : List (List Nat)) : Prop :=
  ∃ S, Auto off N a.nodes S E ∧ ∀ w, w ∈ S ↔ w = [] ∨ ∃ p ∈ W, w <+: p

theorem from_sat {P : List (List Nat)} (hP : ∀ p ∈ P, p ≠ [] ∧ InAlphabet off N p) :
    Sat (AhoCorasick.from off N P) (fun a => a.n = P.length ∧ Holds off N a P.zipIdx P) := by
  unfold AhoCorasick.from
  rw [sat_bind]
  refine (forRange_sat (σ := AhoCorasick) (fun i a => a.n = P.length ∧
    ∃ S, Trie off N a.nodes S (P.take i).zipIdx (P.take i)) (Nat.zero_le _) ⟨rfl, [[]], trie_new off N⟩ ?_).mono ?_
  · rintro i ⟨n, ns⟩ - hi ⟨h1, S, h2⟩
    simp only at h1 h2 ⊢
    subst h1
    rw [idx_of_lt hi, ok_bind]
    obtain ⟨g1, g2⟩ := hP P[i] (List.getElem_mem hi)
    refine (insert_sat h2 g1 g2 i).mono ?_
    rintro a ⟨h3, S', h4⟩
    refine ⟨h3, S', ?_⟩
    rw [List.take_succ, List.getElem?_eq_getElem hi, Option.toList_some, List.zipIdx_append]
    simpa [Nat.min_eq_left (le_of_lt hi)] using h4
  · rintro ⟨n, ns⟩ ⟨h1, S, h2⟩
    simp only at h1 h2 ⊢
    subst h1
    rw [List.take_length] at h2
    refine (build_sat h2 ?_).mono ?_
    · cases hl : lookupLast P.zipIdx [] with
      | none => rfl
      | some j =>
        have := ((lookupLast_zipIdx P [] j).1 hl).1
        exact absurd rfl (hP _ (List.mem_of_getElem? this)).1
    · rintro a ⟨h3, h4⟩
      exact ⟨h3, S, h4, h2.sub⟩

/-- `new(n)`, some `insert`s, then `build`. -/
theorem inserts_sat {n : Nat} {I : List (List Nat × Nat)} (hI : ∀ e ∈ I, e.1 ≠ [] ∧ InAlphabet off N e.1) :
    Sat (forList I (AhoCorasick.new N n) (fun e a => AhoCorasick.insert off N a e.1 e.2) >>= build N)
      (fun a => a.n = n ∧ Holds off N a I (I.map Prod.fst)) := by
  rw [sat_bind]
  refine (forList_sat (σ := AhoCorasick) (fun pre a => a.n = n ∧
    ∃ S, Trie off N a.nodes S pre (pre.map Prod.fst)) I [] _ ⟨rfl, [[]], trie_new off N⟩ ?_).mono ?_
  · rintro pre ⟨s, i⟩ r ⟨m, ns⟩ e ⟨h1, S, h2⟩
    simp only at h1 h2 ⊢
    subst h1
    obtain ⟨g1, g2⟩ := hI (s, i) (by rw [List.nil_append] at e; rw [e]; simp)
    refine (insert_sat h2 g1 g2 i).mono ?_
    rintro a ⟨h3, S', h4⟩
    exact ⟨h3, S', by simpa using h4⟩
  · rintro ⟨m, ns⟩ ⟨h1, S, h2⟩
    simp only [List.nil_append] at h1 h2 ⊢
    subst h1
    refine (build_sat h2 ?_).mono ?_
    · cases hl : lookupLast I [] with
      | none => rfl
      | some j => exact absurd rfl (hI _ (lookupLast_mem hl)).1
    · rintro a ⟨h3, h4⟩
      exact ⟨h3, S, h4, h2.sub⟩

/-! ### Panics -/

theorem first_bad {α : Type} {good : α → Prop} : ∀ {l : List α}, (¬ ∀ x ∈ l, good x) →
    ∃ A x B, l = A ++ x :: B ∧ (∀ a ∈ A, good a) ∧ ¬ good x := by
  intro l
  induction l with
  | nil => intro h; exact absurd (by simp) h
  | cons y l ih =>
    intro h
    by_cases hy : good y
    · obtain ⟨A, x, B, e, h1, h2⟩ := ih (by
        intro h'
        apply h
        intro x hx
        rcases List.mem_cons.1 hx with rfl | hx
        · exact hy
        · exact h' x hx)
      refine ⟨y :: A, x, B, by rw [e]; rfl, ?_, h2⟩
      intro a ha
      rcases List.mem_cons.1 ha with rfl | ha
      · exact hy
      · exact h1 a ha
    · exact ⟨[], y, l, rfl, by simp, hy⟩

theorem go_bad {ns : List ACNode} (hrow : ∀ k, k < ns.length → (nd ns k).next.length = N) {p c : Nat}
    (hp : p < ns.length) (hc : ¬ (off ≤ c ∧ c < off + N)) {β : Type} (f : Nat → Nat → Res β) :
    (subU c off >>= fun k => getNext ns p k >>= fun v => f k v) = .panic := by
  by_cases h : off ≤ c
  · rw [subU_of_le h, ok_bind]
    unfold getNext
    rw [idx_of_some (nd_some hp), ok_bind, idx_panic (by rw [hrow p hp]; omega)]; rfl
  · simp [subU, h]

theorem insert_bad {n : Nat} {ns : List ACNode} {S : List (List Nat)} {E : List (List Nat × Nat)}
    {W : List (List Nat)} (h : Trie off N ns S E W) {s : List Nat}
    (hs : ¬ (s ≠ [] ∧ InAlphabet off N s)) (i : Nat) : AhoCorasick.insert off N ⟨n, ns⟩ s i = .panic := by
  by_cases h0 : s = []
  · unfold AhoCorasick.insert
    rw [assert_false (by simpa using h0)]; rfl
  · obtain ⟨A, c, B, rfl, hA, hc⟩ := first_bad (l := s) (good := fun c => off ≤ c ∧ c < off + N)
      (fun h' => hs ⟨h0, h'⟩)
    unfold AhoCorasick.insert
    rw [assert_true h0, ok_bind, forList_append]
    -- the good part
    by_cases hAe : A = []
    · subst hAe
      simp only [forList_nil, ok_bind, forList_cons]
      rw [go_bad (fun k hk => h.sh.row k (by rw [← h.sh.len]; exact hk)) (by rw [h.sh.len]; exact h.sh.pos) hc]
      rfl
    · obtain ⟨⟨n', ns'⟩, e, -, S', hS'⟩ := insert_sat (n := n) h hAe hA 0
      unfold AhoCorasick.insert at e
      rw [assert_true hAe, ok_bind] at e
      revert e
      generalize hr : forList A ((ns, 0) : List ACNode × Nat) _ = r
      cases r with
      | panic => intro e; cases e
      | diverge => intro e; cases e
      | ok x =>
        obtain ⟨ns1, p⟩ := x
        intro e
        simp only [ok_bind] at e
        have hp : p < ns1.length := by
          by_contra hp
          rw [idx_panic (by omega)] at e
          cases e
        rw [idx_of_some (nd_some hp), ok_bind, upd_of_lt hp, ok_bind] at e
        injection e with e
        injection e with e1 e2
        have hrow : ∀ k, k < ns1.length → (nd ns1 k).next.length = N := by
          intro k hk
          have hl : ns1.length = S'.length := by
            have := hS'.sh.len
            simp only at this
            rw [← this, ← e2, List.length_set]
          have := hS'.sh.row k (by omega)
          simp only at this
          rw [← e2, nd_set hp] at this
          split at this
          · rename_i hkp; subst hkp; exact this
          · exact this
        simp only [ok_bind, forList_cons]
        rw [go_bad hrow hp hc]
        rfl

theorem from_bad {P : List (List Nat)} (hP : ¬ ∀ p ∈ P, p ≠ [] ∧ InAlphabet off N p) :
    AhoCorasick.from off N P = .panic := by
  obtain ⟨A, s, B, rfl, hA, hs⟩ := first_bad hP
  unfold AhoCorasick.from
  have key : ∀ (P : List (List Nat)) (i : Nat), i ≤ A.length → A ++ s :: B = P → ∀ a : AhoCorasick,
      (∃ S E W, Trie off N a.nodes S E W) →
      forRange (A.length - i) P.length a (fun i a => do
        let s ← idx P i
        AhoCorasick.insert off N a s i) = .panic := by
    intro P i
    induction i with
    | zero =>
      rintro - rfl ⟨n, ns⟩ ⟨S, E, W, h⟩
      rw [forRange_succ (by simp)]
      simp only [Nat.sub_zero]
      rw [idx_of_some (by simp : (A ++ s :: B)[A.length]? = some s), ok_bind, insert_bad h hs]
      rfl
    | succ i ih =>
      rintro hi rfl ⟨n, ns⟩ ⟨S, E, W, h⟩
      have hlt : A.length - (i + 1) < A.length := by omega
      rw [forRange_succ (by simp; omega), idx_of_some (a := A[A.length - (i + 1)])
        (by rw [List.getElem?_append_left hlt, List.getElem?_eq_getElem hlt]), ok_bind]
      obtain ⟨g1, g2⟩ := hA _ (List.getElem_mem hlt)
      obtain ⟨a, e, -, S', h'⟩ := insert_sat (n := n) h g1 g2 (A.length - (i + 1))
      rw [e, ok_bind, show A.length - (i + 1) + 1 = A.length - i by omega]
      exact ih (by omega) rfl a ⟨S', _, _, h'⟩
  have := key _ A.length (le_refl _) rfl (AhoCorasick.new N (A ++ s :: B).length)
    ⟨_, _, _, trie_new off N⟩
  rw [Nat.sub_self] at this
  rw [this]; rfl

theorem text_bad {n : Nat} {ns : List ACNode} (h : Auto off N ns S E) {text : List Nat}
    (ht : ¬ InAlphabet off N text) (hE : ∀ e ∈ E, e.2 < n) : find off ⟨n, ns⟩ text = .panic ∧ findAll off ⟨n, ns⟩ text = .panic ∧
      findCnt off ⟨n, ns⟩ text = .panic := by
  obtain ⟨A, c, B, rfl, hA, hc⟩ := first_bad ht
  have hrow : ∀ k, k < ns.length → (nd ns k).next.length = N :=
    fun k hk => h.row k (by rw [← h.len]; exact hk)
  unfold find findAll findCnt
  refine ⟨?_, ?_, ?_⟩
  · obtain ⟨s, e, h1, -⟩ := find_walk h hA
    simp only
    rw [forList_append, e, ok_bind, forList_cons]
    unfold findStep
    rw [go_bad hrow (by rw [h.len]; exact h1) hc]
    rfl
  · obtain ⟨s, e, h1, -⟩ := findAll_walk h hA
    simp only
    rw [forList_append, e, ok_bind, forList_cons]
    unfold findAllStep
    rw [go_bad hrow (by rw [h.len]; exact h1) hc]
    rfl
  · obtain ⟨s, e, h1, -⟩ := findCnt_walk h hA hE
    simp only
    rw [forList_append, e, ok_bind, forList_cons]
    unfold findCntStep
    rw [go_bad hrow (by rw [h.len]; exact h1) hc]
    rfl

end Verif.ACP
