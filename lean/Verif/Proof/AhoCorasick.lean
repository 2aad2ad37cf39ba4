import Verif.Model.AhoCorasick
import Verif.Spec.AhoCorasick
import Verif.Prelude.GetD
import Verif.Prelude.Loop
import Mathlib.Data.List.Basic
import Mathlib.Data.List.Infix
import Mathlib.Data.List.Nodup
/-! Proofs about Aho–Corasick. -/
namespace Verif.ACP
open Model Spec Res AhoCorasick

/-! ### Strings -/

/-- `u` is the longest suffix of `w` in `S`. -/
structure LS (S : List (List Nat)) (w u : List Nat) : Prop where
  mem : u ∈ S
  suf : u <:+ w
  max : ∀ x ∈ S, x <:+ w → x <:+ u

theorem LS.refl {S : List (List Nat)} {w : List Nat} (h : w ∈ S) : LS S w w := ⟨h, List.suffix_rfl, fun _ _ h => h⟩

theorem LS.step {S : List (List Nat)} (hcl : ∀ y c, y ++ [c] ∈ S → y ∈ S) {w u v : List Nat} {c : Nat}
    (h : LS S w u) (h' : LS S (u ++ [c]) v) : LS S (w ++ [c]) v := by
  have hs : u ++ [c] <:+ w ++ [c] := by
    obtain ⟨t, ht⟩ := h.suf
    exact ⟨t, by rw [← ht, List.append_assoc]⟩
  refine ⟨h'.mem, h'.suf.trans hs, fun x hx hxs => ?_⟩
  rcases List.eq_nil_or_concat x with rfl | ⟨y, d, rfl⟩
  · exact List.nil_suffix
  · rw [List.concat_eq_append] at hx hxs ⊢
    obtain ⟨t, ht⟩ := hxs
    rw [← List.append_assoc] at ht
    obtain ⟨h1, h2⟩ := List.append_inj' ht rfl
    have hd : d = c := by simpa using h2
    subst hd
    apply h'.max _ hx
    obtain ⟨t', ht'⟩ := h.max y (hcl _ _ hx) ⟨t, h1⟩
    exact ⟨t', by rw [← ht', List.append_assoc]⟩

theorem LS.unique {S : List (List Nat)} {w u v : List Nat} (h : LS S w u) (h' : LS S w v) : u = v :=
  (h'.max u h.mem h.suf).eq_of_length_le (h.max v h'.mem h'.suf).length_le

theorem matchesAt_nil {E : List (List Nat × Nat)} (h : lookupLast E [] = none) : matchesAt E [] = [] := by
  simp [matchesAt, suffixes, h]

theorem matchesAt_cons {E : List (List Nat × Nat)} (c : Nat) (w : List Nat) :
    matchesAt E (c :: w) = (lookupLast E (c :: w)).toList ++ matchesAt E w := by
  simp only [matchesAt, suffixes, List.filterMap_cons]
  cases lookupLast E (c :: w) <;> rfl

theorem matchesAt_ls {E : List (List Nat × Nat)} {u : List Nat} : ∀ {w : List Nat}, u <:+ w →
    (∀ x, x <:+ w → (lookupLast E x).isSome → x <:+ u) → matchesAt E w = matchesAt E u := by
  intro w
  induction w with
  | nil => intro hu _; rw [List.suffix_nil.1 hu]
  | cons c w ih =>
    intro hu h
    rcases List.suffix_cons_iff.1 hu with rfl | hu'
    · rfl
    · rw [matchesAt_cons]
      have : lookupLast E (c :: w) = none := by
        cases hl : lookupLast E (c :: w) with
        | none => rfl
        | some j =>
          have h1 := (h (c :: w) List.suffix_rfl (by rw [hl]; rfl)).length_le
          have h2 := hu'.length_le
          simp at h1; omega
      rw [this, ih hu' fun x hx => h x (hx.trans (List.suffix_cons _ _))]
      rfl

theorem lookupLast_append (E : List (List Nat × Nat)) (s : List Nat) (i : Nat) (w : List Nat) :
    lookupLast (E ++ [(s, i)]) w = if s = w then some i else lookupLast E w := by
  unfold lookupLast
  rw [List.reverse_append]
  simp only [List.reverse_cons, List.reverse_nil, List.nil_append, List.singleton_append, List.find?_cons]
  by_cases h : s = w <;> simp [h]

theorem lookupLast_mem {E : List (List Nat × Nat)} {w : List Nat} {j : Nat} (h : lookupLast E w = some j) :
    (w, j) ∈ E := by
  unfold lookupLast at h
  rw [Option.map_eq_some_iff] at h
  obtain ⟨⟨a, b⟩, h1, rfl⟩ := h
  have h2 := List.mem_of_find?_eq_some h1
  have h3 := List.find?_some h1
  simp at h2 h3
  subst h3
  exact h2

/-! ### Views of a node list -/

/-- Node `k`. -/
def nd (ns : List ACNode) (k : Nat) : ACNode := ns.getD k (ACNode.new 0)
/-- `nodes[k].next[c]`. -/
def nx (ns : List ACNode) (k c : Nat) : Nat := (nd ns k).next.getD c 0
/-- The string of node `k`. -/
def st (S : List (List Nat)) (k : Nat) : List Nat := S.getD k []

theorem nd_some {ns : List ACNode} {k : Nat} (h : k < ns.length) : ns[k]? = some (nd ns k) :=
  some_getD _ h

theorem nd_set {ns : List ACNode} {p k : Nat} {a : ACNode} (h : p < ns.length) :
    nd (ns.set p a) k = if k = p then a else nd ns k := getD_set h

theorem getNext_eq {ns : List ACNode} {p c : Nat} (h : p < ns.length) (hc : c < (nd ns p).next.length) :
    getNext ns p c = ok (nx ns p c) := by
  unfold getNext
  rw [idx_of_some (nd_some h), ok_bind, idx_of_some (some_getD 0 hc)]; rfl

theorem setNext_eq {ns : List ACNode} {p c v : Nat} (h : p < ns.length)
    (hc : c < (nd ns p).next.length) :
    setNext ns p c v = ok (ns.set p { nd ns p with next := (nd ns p).next.set c v }) := by
  unfold setNext
  rw [idx_of_some (nd_some h), ok_bind, upd_of_lt hc, ok_bind, upd_of_lt h]

theorem st_mem {S : List (List Nat)} {k : Nat} (h : k < S.length) : st S k ∈ S := by
  unfold st; rw [List.getD_eq_getElem?_getD]; simp [h]

theorem mem_st {S : List (List Nat)} {w : List Nat} (h : w ∈ S) : ∃ k < S.length, st S k = w := by
  obtain ⟨k, hk, rfl⟩ := List.mem_iff_getElem.1 h
  exact ⟨k, hk, by unfold st; rw [List.getD_eq_getElem?_getD]; simp [hk]⟩

theorem st_inj {S : List (List Nat)} (hn : S.Nodup) {k v : Nat} (hk : k < S.length) (hv : v < S.length)
    (h : st S k = st S v) : k = v := by
  unfold st at h
  rw [List.getD_eq_getElem?_getD, List.getD_eq_getElem?_getD] at h
  simp only [hk, hv, List.getElem?_eq_getElem, Option.getD_some] at h
  exact (List.Nodup.getElem_inj_iff hn).1 h

theorem st_append {S : List (List Nat)} {w : List Nat} {k : Nat} (hk : k < S.length) : st (S ++ [w]) k = st S k := by
  unfold st
  rw [List.getD_eq_getElem?_getD, List.getD_eq_getElem?_getD, List.getElem?_append_left hk]

theorem st_append_last {S : List (List Nat)} {w : List Nat} : st (S ++ [w]) S.length = w := by
  unfold st
  rw [List.getD_eq_getElem?_getD]; simp

/-! ### The trie -/

/-- `ns` is the trie whose node strings are `S`. -/
structure Shape (off N : Nat) (ns : List ACNode) (S : List (List Nat)) : Prop where
  len : ns.length = S.length
  pos : 0 < S.length
  root : st S 0 = []
  nodup : S.Nodup
  row : ∀ k, k < S.length → (nd ns k).next.length = N
  nxt : ∀ k c, k < S.length → c < N → nx ns k c ≠ 0 →
    nx ns k c < S.length ∧ st S (nx ns k c) = st S k ++ [off + c]
  nxt' : ∀ k v c, k < S.length → v < S.length → c < N → st S v = st S k ++ [off + c] → nx ns k c = v
  alpha : ∀ y c, y ++ [c] ∈ S → y ∈ S ∧ off ≤ c ∧ c < off + N

/-- A trie before `build`: the words `W`, numbered by `E`. -/
structure Trie (off N : Nat) (ns : List ACNode) (S : List (List Nat)) (E : List (List Nat × Nat))
    (W : List (List Nat)) : Prop where
  sh : Shape off N ns S
  fin : ∀ k, k < S.length → (nd ns k).fin = lookupLast E (st S k)
  back : ∀ k, k < S.length → (nd ns k).back = 0 ∧ (nd ns k).output = none
  sub : ∀ w, w ∈ S ↔ w = [] ∨ ∃ p ∈ W, w <+: p
  num : ∀ e ∈ E, e.1 ∈ S

theorem trie_new (off N : Nat) : Trie off N [ACNode.new N] [[]] [] [] := by
  have h0 : ∀ k, k < ([[]] : List (List Nat)).length → k = 0 := by intro k h; simpa using h
  have hn : nd [ACNode.new N] 0 = ACNode.new N := rfl
  have hx : ∀ c, nx [ACNode.new N] 0 c = 0 := fun c => getD_replicate
  refine ⟨⟨rfl, by simp, rfl, by simp, ?_, ?_, ?_, ?_⟩, ?_, ?_, ?_, ?_⟩
  · intro k hk; rw [h0 k hk, hn]; simp [ACNode.new]
  · intro k c hk _ h; rw [h0 k hk, hx] at h; exact absurd rfl h
  · intro k v c hk hv _ h
    rw [h0 k hk, h0 v hv] at h
    simp [st] at h
  · intro y c h; simp at h
  · intro k hk; rw [h0 k hk]; rfl
  · intro k hk; rw [h0 k hk]; exact ⟨rfl, rfl⟩
  · intro w; simp
  · intro e he; simp at he

theorem Shape.ne_zero {off N : Nat} {ns : List ACNode} {S : List (List Nat)} (h : Shape off N ns S)
    {v : Nat} (hv : st S v ≠ []) : v ≠ 0 := by
  rintro rfl; exact hv h.root

/-- Adding one node below `p`. -/
theorem trie_extend {off N : Nat} {ns : List ACNode} {S : List (List Nat)} {E : List (List Nat × Nat)}
    {W : List (List Nat)} {pre : List Nat} {p c : Nat}
    (h : Trie off N ns S E (W ++ [pre])) (hp : p < S.length) (hpre : st S p = pre) (hc : c < N)
    (h0 : nx ns p c = 0) :
    Trie off N (ns.set p { nd ns p with next := (nd ns p).next.set c ns.length } ++ [ACNode.new N])
      (S ++ [pre ++ [off + c]]) E (W ++ [pre ++ [off + c]]) := by
  have hs := h.sh
  have hpl : p < ns.length := by rw [hs.len]; exact hp
  have hfresh : pre ++ [off + c] ∉ S := by
    intro hm
    obtain ⟨v, hv, e⟩ := mem_st hm
    have := hs.nxt' p v c hp hv hc (by rw [hpre]; exact e)
    exact hs.ne_zero (v := v) (by rw [e]; simp) (by omega)
  let S' := S ++ [pre ++ [off + c]]
  let ns' := ns.set p { nd ns p with next := (nd ns p).next.set c ns.length } ++ [ACNode.new N]
  have hS' : S'.length = S.length + 1 := by simp [S']
  have ndl : ∀ k, k < S.length → nd ns' k = if k = p then { nd ns p with next := (nd ns p).next.set c ns.length }
      else nd ns k := by
    intro k hk
    rw [← nd_set hpl]
    show (ns.set p _ ++ [ACNode.new N]).getD k _ = (ns.set p _).getD k _
    rw [List.getD_eq_getElem?_getD, List.getD_eq_getElem?_getD,
      List.getElem?_append_left (by rw [List.length_set, hs.len]; exact hk)]
  have ndn : nd ns' S.length = ACNode.new N := by
    unfold nd
    rw [List.getD_eq_getElem?_getD]
    simp only [ns']
    rw [List.getElem?_append_right (by rw [List.length_set, hs.len]), List.length_set, hs.len]
    simp
  have nxl : ∀ k d, k < S.length → nx ns' k d = if k = p ∧ d = c then S.length else nx ns k d := by
    intro k d hk
    unfold nx
    rw [ndl k hk]
    by_cases e : k = p
    · subst e
      simp only [if_true, true_and]
      rw [getD_set (by rw [hs.row k hk]; exact hc), hs.len]
    · simp [e]
  have nxn : ∀ d, nx ns' S.length d = 0 := by
    intro d; unfold nx; rw [ndn]; exact getD_replicate
  have stl : ∀ k, k < S.length → st S' k = st S k := fun k hk => st_append hk
  have stn : st S' S.length = pre ++ [off + c] := st_append_last
  have hcase : ∀ k, k < S'.length → k < S.length ∨ k = S.length := by intro k hk; omega
  show Trie off N ns' S' E (W ++ [pre ++ [off + c]])
  refine ⟨⟨by simp [ns', S', hs.len], by omega, by rw [stl 0 hs.pos]; exact hs.root, ?_, ?_, ?_, ?_, ?_⟩,
    ?_, ?_, ?_, fun e he => List.mem_append_left _ (h.num e he)⟩
  · simp only [S']
    rw [List.nodup_append]
    refine ⟨hs.nodup, by simp, ?_⟩
    intro a ha b hb e
    simp at hb; subst hb; subst e; exact hfresh ha
  · intro k hk
    rcases hcase k hk with hk | rfl
    · rw [ndl k hk]
      split
      · rename_i e; simp only [List.length_set]; exact hs.row p hp
      · exact hs.row k hk
    · rw [ndn]; simp [ACNode.new]
  · intro k d hk hd hne
    rcases hcase k hk with hk | rfl
    · rw [nxl k d hk] at hne ⊢
      by_cases e : k = p ∧ d = c
      · rw [if_pos e, stl k hk, e.1, e.2, hpre]
        exact ⟨by omega, stn⟩
      · rw [if_neg e] at hne ⊢
        obtain ⟨h1, h2⟩ := hs.nxt k d hk hd hne
        exact ⟨by omega, by rw [stl _ h1, stl k hk]; exact h2⟩
    · exact absurd (nxn d) hne
  · intro k v d hk hv hd e
    rcases hcase k hk with hk | rfl
    · rw [nxl k d hk]
      rw [stl k hk] at e
      rcases hcase v hv with hv | rfl
      · rw [stl v hv] at e
        have := hs.nxt' k v d hk hv hd e
        rw [if_neg, this]
        rintro ⟨rfl, rfl⟩
        exact hs.ne_zero (v := v) (by rw [e]; simp) (by omega)
      · rw [stn] at e
        obtain ⟨h1, h2⟩ := List.append_inj' e rfl
        have h2 : c = d := by simpa using h2
        rw [if_pos ⟨st_inj hs.nodup hk hp (by rw [hpre, h1]), h2.symm⟩]
    · rw [stn] at e
      rcases hcase v hv with hv | rfl
      · rw [stl v hv] at e
        have := st_mem hv
        rw [e] at this
        exact absurd (hs.alpha _ _ this).1 hfresh
      · rw [stn] at e
        have := congrArg List.length e
        simp at this
  · intro y d hy
    simp only [S', List.mem_append, List.mem_singleton] at hy ⊢
    rcases hy with hy | hy
    · obtain ⟨h1, h2⟩ := hs.alpha y d hy
      exact ⟨.inl h1, h2⟩
    · obtain ⟨h1, h2⟩ := List.append_inj' hy rfl
      have h2 : d = off + c := by simpa using h2
      refine ⟨.inl ?_, by omega, by omega⟩
      rw [h1, ← hpre]; exact st_mem hp
  · intro k hk
    rcases hcase k hk with hk | rfl
    · rw [ndl k hk, stl k hk, ← h.fin k hk]
      split
      · rename_i e; subst e; rfl
      · rfl
    · rw [ndn, stn]
      cases hl : lookupLast E (pre ++ [off + c]) with
      | none => rfl
      | some j => exact absurd (h.num _ (lookupLast_mem hl)) hfresh
  · intro k hk
    rcases hcase k hk with hk | rfl
    · rw [ndl k hk]
      split
      · rename_i e; subst e; exact h.back k hk
      · exact h.back k hk
    · rw [ndn]; exact ⟨rfl, rfl⟩
  · intro w
    simp only [S', List.mem_append, List.mem_singleton]
    rw [h.sub]
    constructor
    · rintro ((rfl | ⟨q, hq, hw⟩) | rfl)
      · exact .inl rfl
      · rcases List.mem_append.1 hq with hq | hq
        · exact .inr ⟨q, .inl hq, hw⟩
        · simp at hq; subst hq
          exact .inr ⟨_, .inr rfl, hw.trans (List.prefix_append _ _)⟩
      · exact .inr ⟨_, .inr rfl, List.prefix_rfl⟩
    · rintro (rfl | ⟨q, hq | rfl, hw⟩)
      · exact .inl (.inl rfl)
      · exact .inl (.inr ⟨q, List.mem_append_left _ hq, hw⟩)
      · rcases List.prefix_concat_iff.1 hw with e | hw
        · right; exact e
        · exact .inl (.inr ⟨pre, by simp, hw⟩)

theorem insert_sat {off N n : Nat} {ns : List ACNode} {S : List (List Nat)} {E : List (List Nat × Nat)}
    {W : List (List Nat)} (h : Trie off N ns S E W) {s : List Nat} (hs : s ≠ [])
    (ha : InAlphabet off N s) (i : Nat) :
    Sat (AhoCorasick.insert off N ⟨n, ns⟩ s i) (fun a => a.n = n ∧
      ∃ S', Trie off N a.nodes S' (E ++ [(s, i)]) (W ++ [s])) := by
  unfold AhoCorasick.insert
  rw [assert_true hs, ok_bind, sat_bind]
  have h0 : Trie off N ns S E (W ++ [[]]) := ⟨h.sh, h.fin, h.back, fun w => by
    rw [h.sub]
    constructor
    · rintro (rfl | ⟨p, hp, hw⟩)
      · exact .inl rfl
      · exact .inr ⟨p, by simp [hp], hw⟩
    · rintro (rfl | ⟨p, hp, hw⟩)
      · exact .inl rfl
      · rcases List.mem_append.1 hp with hp | hp
        · exact .inr ⟨p, hp, hw⟩
        · simp at hp; subst hp; exact .inl (List.prefix_nil.1 hw), h.num⟩
  have key := forList_sat (σ := List ACNode × Nat) (f := fun c (x : List ACNode × Nat) => do
      let k ← subU c off
      let v ← getNext x.1 x.2 k
      let nodes ← (if v = 0 then do
          let nodes ← setNext x.1 x.2 k x.1.length
          ok (nodes ++ [ACNode.new N])
        else ok x.1 : Res (List ACNode))
      let p ← getNext nodes x.2 k
      ok (nodes, p))
    (fun pre x => ∃ S, Trie off N x.1 S E (W ++ [pre]) ∧ x.2 < S.length ∧ st S x.2 = pre) s [] (ns, 0)
    ⟨S, h0, h.sh.pos, h.sh.root⟩ ?_
  · refine key.mono ?_
    rintro ⟨ns', p⟩ ⟨S', h1, h2, h3⟩
    simp only [List.nil_append] at h1 h2 h3
    have hp : p < ns'.length := by rw [h1.sh.len]; exact h2
    simp only
    rw [idx_of_some (nd_some hp), ok_bind, upd_of_lt hp, ok_bind, sat_ok]
    refine ⟨rfl, S', ?_⟩
    have hn : ∀ k, nd (ns'.set p { nd ns' p with fin := some i, nmatches := (nd ns' p).nmatches + 1 }) k =
      if k = p then { nd ns' p with fin := some i, nmatches := (nd ns' p).nmatches + 1 } else nd ns' k :=
        fun k => nd_set hp
    have hnext : ∀ k, (nd (ns'.set p { nd ns' p with fin := some i, nmatches := (nd ns' p).nmatches + 1 }) k).next =
        (nd ns' k).next := by
      intro k; rw [hn]; split
      · rename_i e; subst e; rfl
      · rfl
    have hx : ∀ k c, nx (ns'.set p { nd ns' p with fin := some i, nmatches := (nd ns' p).nmatches + 1 }) k c =
        nx ns' k c := by intro k c; unfold nx; rw [hnext]
    have hsh := h1.sh
    refine ⟨⟨by rw [List.length_set]; exact hsh.len, hsh.pos, hsh.root, hsh.nodup, ?_, ?_, ?_, hsh.alpha⟩, ?_, ?_, h1.sub, ?_⟩
    · intro k hk; rw [hnext]; exact hsh.row k hk
    · intro k c; rw [hx]; exact hsh.nxt k c
    · intro k v c; rw [hx]; exact hsh.nxt' k v c
    · intro k hk
      rw [lookupLast_append, hn]
      by_cases e : k = p
      · subst e; rw [if_pos rfl, if_pos h3.symm]
      · rw [if_neg e, if_neg, h1.fin k hk]
        intro e2
        exact e (st_inj hsh.nodup hk h2 (by rw [h3, e2]))
    · intro k hk
      rw [hn]; split
      · rename_i e; subst e; exact h1.back k hk
      · exact h1.back k hk
    · intro e he
      rcases List.mem_append.1 he with he | he
      · exact h1.num e he
      · simp at he; subst he; simp only; rw [← h3]; exact st_mem h2
  · rintro pre c r ⟨ns1, p⟩ hsp ⟨S1, h1, h2, h3⟩
    simp only at h1 h2 h3 ⊢
    obtain ⟨hc1, hc2⟩ := ha c (by rw [List.nil_append] at hsp; rw [hsp]; simp)
    obtain ⟨d, rfl⟩ : ∃ d, c = off + d := ⟨c - off, by omega⟩
    have hd : d < N := by omega
    have hp : p < ns1.length := by rw [h1.sh.len]; exact h2
    have hrow := h1.sh.row p h2
    rw [subU_of_le hc1, ok_bind, show off + d - off = d by omega, getNext_eq hp (by omega), ok_bind]
    by_cases hz : nx ns1 p d = 0
    · rw [if_pos hz, setNext_eq hp (by omega)]
      have h4 := trie_extend h1 h2 h3 hd hz
      have h5 : p < (S1 ++ [pre ++ [off + d]]).length := by simp; omega
      have h6 := h4.sh.nxt' p S1.length d h5 (by simp) hd (by rw [st_append_last, st_append h2, h3])
      simp only [ok_bind]
      rw [getNext_eq (by rw [h4.sh.len]; exact h5) (by rw [h4.sh.row p h5]; exact hd), ok_bind, sat_ok]
      refine ⟨_, h4, ?_, ?_⟩
      · simp only; rw [h6]; simp
      · simp only; rw [h6, st_append_last]
    · rw [if_neg hz, ok_bind, getNext_eq hp (by omega), ok_bind, sat_ok]
      obtain ⟨h4, h5⟩ := h1.sh.nxt p d h2 hd hz
      refine ⟨S1, ⟨h1.sh, h1.fin, h1.back, ?_, h1.num⟩, h4, by simp only; rw [h5, h3]⟩
      intro w
      constructor
      · intro hw
        rcases (h1.sub w).1 hw with rfl | ⟨q, hq, hw⟩
        · exact .inl rfl
        · rcases List.mem_append.1 hq with hq | hq
          · exact .inr ⟨q, by simp [hq], hw⟩
          · simp at hq; subst hq
            exact .inr ⟨q ++ [off + d], by simp, hw.trans (List.prefix_append _ _)⟩
      · rintro (rfl | ⟨q, hq, hw⟩)
        · exact (h1.sub _).2 (.inl rfl)
        · rcases List.mem_append.1 hq with hq | hq
          · exact (h1.sub w).2 (.inr ⟨q, by simp [hq], hw⟩)
          · simp at hq; subst hq
            rcases List.prefix_concat_iff.1 hw with e | hw
            · rw [e, ← h3, ← h5]; exact st_mem h4
            · exact (h1.sub w).2 (.inr ⟨pre, by simp, hw⟩)

end Verif.ACP
