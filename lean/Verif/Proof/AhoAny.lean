import Verif.Proof.AhoFind
import Verif.Prelude.Count
/-! `AhoCorasick` before `build`, with arbitrary numbers, and after a late `insert`. -/
namespace Verif.ACP
open Model Spec Res AhoCorasick
variable {off N : Nat} {S : List (List Nat)} {E : List (List Nat × Nat)}

/-! ### `find_cnt` counts what `find_all` lists -/

/-- `cnt[x] += 1` for every member of `l`. -/
def bumps (cnt l : List Nat) : Res (List Nat) := forList l cnt fun x cnt => bump cnt x

theorem bumps_append (cnt l m : List Nat) : bumps cnt (l ++ m) = bumps cnt l >>= fun c => bumps c m := by
  unfold bumps
  rw [forList_append]

theorem bumps_ok {cnt : List Nat} : ∀ (l : List Nat) (cnt' r : List Nat), Counted cnt cnt' r →
    (∀ x ∈ l, x < cnt.length) → ∃ c, bumps cnt' l = ok c ∧ Counted cnt c (r ++ l)
  | [], cnt', r, h, _ => ⟨cnt', rfl, by simpa using h⟩
  | x :: l, cnt', r, h, hl => by
    have hx := hl x (List.mem_cons_self ..)
    obtain ⟨c, e, hc⟩ := bumps_ok l _ _ (h.bump hx) fun y hy => hl y (List.mem_cons_of_mem _ hy)
    refine ⟨c, ?_, by simpa using hc⟩
    unfold bumps at e ⊢
    rw [forList_cons, bump_sat (by rw [h.1]; exact hx), ok_bind]
    exact e

theorem bumps_panic : ∀ (l cnt : List Nat), (∃ x ∈ l, cnt.length ≤ x) → bumps cnt l = .panic
  | [], _, h => by simp at h
  | x :: l, cnt, h => by
    unfold bumps
    rw [forList_cons]
    by_cases hx : x < cnt.length
    · rw [bump_sat hx, ok_bind]
      refine bumps_panic l _ ?_
      obtain ⟨y, hy, hl⟩ := h
      rcases List.mem_cons.1 hy with rfl | hy
      · omega
      · exact ⟨y, hy, by simpa using hl⟩
    · unfold bump
      rw [idx_panic (by omega)]; rfl

theorem counted_tally {n : Nat} {c l : List Nat} (h : Counted (List.replicate n 0) c l) : c = tally n l := by
  obtain ⟨h1, h2⟩ := h
  rw [List.length_replicate] at h1
  apply List.ext_getElem
  · simp [tally, h1]
  · intro j hj _
    have := h2 j
    rw [getD_replicate, List.getD_eq_getElem?_getD, List.getElem?_eq_getElem hj] at this
    simp only [Option.getD_some, Nat.zero_add] at this
    simp [tally, this]

/-- The part of a step of `find_cnt` after the transition. -/
def countRow (nodes : List ACNode) (p : Nat) (cnt : List Nat) : Res (List Nat) := do
  let nd ← idx nodes p
  let cnt ← (match nd.fin with
    | some x => bump cnt x
    | none => ok cnt : Res (List Nat))
  loop (nodes.length + 1) ((nd.output, cnt) : Option Nat × List Nat) fun (o, cnt) =>
    match o with
    | none => ok (.done cnt)
    | some x => do
      let nx ← idx nodes x
      let e ← unwrap nx.fin
      let cnt ← bump cnt e
      ok (.next (nx.output, cnt))

theorem findCntStep_eq (ns : List ACNode) (c p : Nat) (cnt : List Nat) : findCntStep off ns c (p, cnt) =
    subU c off >>= fun k => getNext ns p k >>= fun p => countRow ns p cnt >>= fun cnt => ok (p, cnt) := by
  unfold findCntStep countRow
  simp only [Res.bind_bind_res]
  all_goals rfl

/-- `r2` follows `r1`: what the count does when the list is known. -/
def Follows (cnt : List Nat) (r0 : List Nat) (r1 r2 : Res (List Nat)) : Prop :=
  match r1 with
  | .ok r => ∃ l, r = r0 ++ l ∧ r2 = bumps cnt l
  | .panic => r2 = .panic
  | .diverge => ∀ c, r2 ≠ .ok c

theorem loop_follows (ns : List ACNode) : ∀ (fuel : Nat) (o : Option Nat) (r cnt : List Nat),
    Follows cnt r
      (loop fuel ((o, r) : Option Nat × List Nat) fun (o, r) =>
        match o with
        | none => ok (.done r)
        | some x => do
          let nx ← idx ns x
          let e ← unwrap nx.fin
          ok (.next (nx.output, r ++ [e])))
      (loop fuel ((o, cnt) : Option Nat × List Nat) fun (o, cnt) =>
        match o with
        | none => ok (.done cnt)
        | some x => do
          let nx ← idx ns x
          let e ← unwrap nx.fin
          let cnt ← bump cnt e
          ok (.next (nx.output, cnt))) := by
  intro fuel
  induction fuel with
  | zero => intro o r cnt c h; cases h
  | succ fuel ih =>
    intro o r cnt
    rw [loop, loop]
    cases o with
    | none => exact ⟨[], by simp, rfl⟩
    | some x =>
      simp only
      cases hx : idx ns x with
      | panic => exact rfl
      | diverge => exact fun c h => by cases h
      | ok nx =>
        simp only [ok_bind]
        cases hf : nx.fin with
        | none => exact rfl
        | some e =>
          simp only [unwrap_some, ok_bind]
          by_cases he : e < cnt.length
          · rw [bump_sat he]
            have := ih nx.output (r ++ [e]) (cnt.set e (cnt.getD e 0 + 1))
            revert this
            unfold Follows
            simp only [ok_bind]
            generalize loop fuel (nx.output, r ++ [e]) _ = r1
            cases r1 with
            | panic => exact id
            | diverge => exact id
            | ok r' =>
              rintro ⟨l, e1, e2⟩
              refine ⟨e :: l, by rw [e1]; simp, ?_⟩
              rw [e2]
              unfold bumps
              rw [forList_cons, bump_sat he, ok_bind]
          · have hp : bump cnt e = .panic := by
              unfold bump
              rw [idx_panic (by omega)]; rfl
            rw [hp]
            have := ih nx.output (r ++ [e]) cnt
            revert this
            unfold Follows
            generalize loop fuel (nx.output, r ++ [e]) _ = r1
            cases r1 with
            | panic => intro _; rfl
            | diverge => intro _ c h; cases h
            | ok r' =>
              rintro ⟨l, e1, -⟩
              refine ⟨e :: l, by rw [e1]; simp, ?_⟩
              rw [bumps_panic _ _ ⟨e, by simp, by omega⟩]; rfl

theorem row_follows (ns : List ACNode) (p : Nat) (cnt : List Nat) :
    Follows cnt [] (collect ns p) (countRow ns p cnt) := by
  unfold collect countRow
  cases hp : idx ns p with
  | panic => exact rfl
  | diverge => exact fun c h => by cases h
  | ok nd =>
    simp only [ok_bind]
    cases hf : nd.fin with
    | none =>
      simp only [ok_bind]
      exact loop_follows ns _ nd.output [] cnt
    | some x =>
      simp only
      by_cases hx : x < cnt.length
      · rw [bump_sat hx, ok_bind]
        have := loop_follows ns (ns.length + 1) nd.output [x] (cnt.set x (cnt.getD x 0 + 1))
        revert this
        unfold Follows
        generalize loop (ns.length + 1) (nd.output, [x]) _ = r1
        cases r1 with
        | panic => exact id
        | diverge => exact id
        | ok r' =>
          rintro ⟨l, e1, e2⟩
          refine ⟨x :: l, by rw [e1]; simp, ?_⟩
          simp only at e2 ⊢
          rw [e2]
          unfold bumps
          rw [forList_cons, bump_sat hx, ok_bind]
      · have hb : bump cnt x = .panic := by
          unfold bump
          rw [idx_panic (by omega)]; rfl
        rw [hb]
        have := loop_follows ns (ns.length + 1) nd.output [x] cnt
        revert this
        unfold Follows
        generalize loop (ns.length + 1) (nd.output, [x]) _ = r1
        cases r1 with
        | panic => intro _; rfl
        | diverge => intro _ c h; cases h
        | ok r' =>
          rintro ⟨l, e1, -⟩
          refine ⟨x :: l, by rw [e1]; simp, ?_⟩
          rw [bumps_panic _ _ ⟨x, by simp, by omega⟩]; rfl

theorem text_follows (ns : List ACNode) : ∀ (text : List Nat) (p : Nat) (rows : List (List Nat)) (cnt : List Nat),
    match forList text (p, rows) (findAllStep off ns) with
    | .ok s => ∃ l : List (List Nat), s.2 = rows ++ l ∧
        forList text (p, cnt) (findCntStep off ns) = (bumps cnt l.flatten >>= fun c => ok (s.1, c))
    | .panic => forList text (p, cnt) (findCntStep off ns) = .panic
    | .diverge => ∀ c, forList text (p, cnt) (findCntStep off ns) ≠ .ok c
  | [], p, rows, cnt => ⟨[], by simp, rfl⟩
  | c :: text, p, rows, cnt => by
    rw [forList_cons, forList_cons, findCntStep_eq]
    simp only [findAllStep]
    cases hk : subU c off with
    | panic => exact rfl
    | diverge => exact fun c h => by cases h
    | ok k =>
      simp only [ok_bind]
      cases hn : getNext ns p k with
      | panic => exact rfl
      | diverge => exact fun c h => by cases h
      | ok q =>
        simp only [ok_bind]
        have hr := row_follows ns q cnt
        revert hr
        unfold Follows
        cases hc : collect ns q with
        | panic => intro hr; simp only at hr; rw [hr]; exact rfl
        | diverge =>
          intro hr
          simp only at hr
          intro s hs
          cases hq : countRow ns q cnt with
          | ok c => exact hr c hq
          | panic => rw [hq] at hs; cases hs
          | diverge => rw [hq] at hs; cases hs
        | ok r =>
          rintro ⟨l, hl, h2⟩
          rw [List.nil_append] at hl
          subst hl
          simp only [ok_bind]
          rw [h2]
          by_cases hb : ∀ x ∈ r, x < cnt.length
          · obtain ⟨c1, e1, -⟩ := bumps_ok (cnt := cnt) r cnt [] ⟨rfl, fun j => by simp⟩ hb
            rw [e1, ok_bind, ok_bind]
            have ih := text_follows ns text q (rows ++ [r]) c1
            revert ih
            cases forList text (q, rows ++ [r]) (findAllStep off ns) with
            | panic => exact id
            | diverge => exact id
            | ok s =>
              rintro ⟨m, e2, e3⟩
              refine ⟨r :: m, by rw [e2]; simp, ?_⟩
              rw [e3, List.flatten_cons, bumps_append, e1, ok_bind]
          · simp only [not_forall, Nat.not_lt] at hb
            obtain ⟨x, hx, hxl⟩ := hb
            rw [bumps_panic r cnt ⟨x, hx, hxl⟩]
            have ih := text_follows ns text q (rows ++ [r]) cnt
            revert ih
            cases forList text (q, rows ++ [r]) (findAllStep off ns) with
            | panic => intro _; rfl
            | diverge => intro _ c h; cases h
            | ok s =>
              rintro ⟨m, e2, -⟩
              refine ⟨r :: m, by rw [e2]; simp, ?_⟩
              rw [bumps_panic _ _ ⟨x, by simp [hx], hxl⟩]; rfl

/-- `find_cnt` on any automaton at all, in terms of `find_all`. -/
theorem findCnt_of_findAll (a : AhoCorasick) (text : List Nat) :
    match a.findAll off text with
    | .ok rows => ((∀ j ∈ rows.flatten, j < a.n) → a.findCnt off text = ok (tally a.n rows.flatten)) ∧
        ((∃ j ∈ rows.flatten, a.n ≤ j) → a.findCnt off text = .panic)
    | .panic => a.findCnt off text = .panic
    | .diverge => ∀ c, a.findCnt off text ≠ .ok c := by
  have h := text_follows (off := off) a.nodes text 0 [] (List.replicate a.n 0)
  revert h
  unfold findAll findCnt
  cases forList text (0, []) (findAllStep off a.nodes) with
  | panic => intro h; simp only at h; rw [h]; exact rfl
  | diverge =>
    intro h c hc
    simp only at h
    cases hs : forList text (0, List.replicate a.n 0) (findCntStep off a.nodes) with
    | ok c => exact h c hs
    | panic => rw [hs] at hc; cases hc
    | diverge => rw [hs] at hc; cases hc
  | ok s =>
    rintro ⟨l, e1, e2⟩
    simp only [ok_bind]
    rw [e2, e1, List.nil_append]
    constructor
    · intro hb
      obtain ⟨c, e, hc⟩ := bumps_ok (cnt := List.replicate a.n 0) l.flatten (List.replicate a.n 0) []
        ⟨rfl, fun j => by simp⟩ (by simpa using hb)
      rw [e, ok_bind, ok_bind]
      congr 1
      exact counted_tally (by simpa using hc)
    · intro hb
      rw [bumps_panic _ _ (by simpa using hb)]; rfl

/-! ### Before `build` -/

theorem walk_step {ns : List ACNode} {W : List (List Nat)} (h : Trie off N ns S E W) {p c : Nat} (hp : p < S.length)
    (hc1 : off ≤ c) (hc2 : c < off + N) : subU c off = ok (c - off) ∧
      getNext ns p (c - off) = ok (nx ns p (c - off)) ∧ nx ns p (c - off) < S.length ∧
      st S (nx ns p (c - off)) = if W.any fun q => (st S p ++ [c]).isPrefixOf q then st S p ++ [c] else [] := by
  obtain ⟨d, rfl⟩ : ∃ d, c = off + d := ⟨c - off, by omega⟩
  have hd : d < N := by omega
  rw [show off + d - off = d by omega]
  have hsub : (W.any fun q => (st S p ++ [off + d]).isPrefixOf q) = true ↔ st S p ++ [off + d] ∈ S := by
    rw [h.sub, List.any_eq_true]
    simp only [List.isPrefixOf_iff_prefix]
    constructor
    · exact .inr
    · rintro (h | h)
      · exact absurd h (by simp)
      · exact h
  refine ⟨by rw [subU_of_le hc1]; congr; omega,
    getNext_eq (by rw [h.sh.len]; exact hp) (by rw [h.sh.row p hp]; omega), ?_⟩
  by_cases hm : st S p ++ [off + d] ∈ S
  · obtain ⟨v, hv, e⟩ := mem_st hm
    rw [h.sh.nxt' p v d hp hv hd e, if_pos (hsub.2 hm)]
    exact ⟨hv, e⟩
  · have hz : nx ns p d = 0 := by
      by_contra hz
      obtain ⟨h1, h2⟩ := h.sh.nxt p d hp hd hz
      exact hm (h2 ▸ st_mem h1)
    rw [hz, if_neg (fun h' => hm (hsub.1 h'))]
    exact ⟨h.sh.pos, h.sh.root⟩

theorem trieWalk_append (P : List (List Nat)) (t : List Nat) (c : Nat) : trieWalk P (t ++ [c]) =
    if P.any fun p => (trieWalk P t ++ [c]).isPrefixOf p then trieWalk P t ++ [c] else [] := by
  unfold trieWalk
  rw [List.foldl_append]
  rfl

theorem trie_find {n : Nat} {ns : List ACNode} {W : List (List Nat)} (h : Trie off N ns S E W) {text : List Nat}
    (ha : InAlphabet off N text) : find off ⟨n, ns⟩ text =
      ok ((List.range text.length).map fun i => lookupLast E (trieWalk W (text.take (i + 1)))) := by
  obtain ⟨s, e, -, -, h3⟩ := forList_sat (σ := Nat × List (Option Nat)) (f := findStep off ns)
    (fun pre s => s.1 < S.length ∧ st S s.1 = trieWalk W pre ∧
      s.2 = (List.range pre.length).map fun i => lookupLast E (trieWalk W (pre.take (i + 1)))) text [] (0, [])
    ⟨h.sh.pos, h.sh.root, rfl⟩ (by
      rintro pre c r ⟨p, res⟩ e ⟨h1, h2, h3⟩
      simp only at h1 h2 h3 ⊢
      rw [List.nil_append] at e
      obtain ⟨hc1, hc2⟩ := ha c (by rw [e]; simp)
      obtain ⟨a1, a2, a3, a4⟩ := walk_step h h1 hc1 hc2
      unfold findStep
      simp only
      rw [a1, ok_bind, a2, ok_bind, idx_of_some (nd_some (by rw [h.sh.len]; exact a3)), ok_bind, sat_ok]
      rw [h2, ← trieWalk_append] at a4
      refine ⟨a3, a4, ?_⟩
      simp only
      rw [take_map_append (fun w => lookupLast E (trieWalk W w)), h3, h.fin _ a3, a4])
  unfold find
  simp only
  rw [e, ok_bind, h3, List.nil_append]

theorem trie_findAll {n : Nat} {ns : List ACNode} {W : List (List Nat)} (h : Trie off N ns S E W) {text : List Nat}
    (ha : InAlphabet off N text) : findAll off ⟨n, ns⟩ text =
      ok ((List.range text.length).map fun i => (lookupLast E (trieWalk W (text.take (i + 1)))).toList) := by
  obtain ⟨s, e, -, -, h3⟩ := forList_sat (σ := Nat × List (List Nat)) (f := findAllStep off ns)
    (fun pre s => s.1 < S.length ∧ st S s.1 = trieWalk W pre ∧
      s.2 = (List.range pre.length).map fun i => (lookupLast E (trieWalk W (pre.take (i + 1)))).toList) text []
    (0, []) ⟨h.sh.pos, h.sh.root, rfl⟩ (by
      rintro pre c r ⟨p, res⟩ e ⟨h1, h2, h3⟩
      simp only at h1 h2 h3 ⊢
      rw [List.nil_append] at e
      obtain ⟨hc1, hc2⟩ := ha c (by rw [e]; simp)
      obtain ⟨a1, a2, a3, a4⟩ := walk_step h h1 hc1 hc2
      unfold findAllStep collect
      simp only
      rw [a1, ok_bind, a2, ok_bind, idx_of_some (nd_some (by rw [h.sh.len]; exact a3)), ok_bind,
        (h.back _ a3).2, loop]
      simp only [ok_bind, sat_ok]
      rw [h2, ← trieWalk_append] at a4
      refine ⟨a3, a4, ?_⟩
      rw [take_map_append (fun w => (lookupLast E (trieWalk W w)).toList), h3, h.fin _ a3, a4]
      cases lookupLast E (trieWalk W (pre ++ [c])) <;> rfl)
  unfold findAll
  simp only
  rw [e, ok_bind, h3, List.nil_append]

theorem trie_text_bad {n : Nat} {ns : List ACNode} {W : List (List Nat)} (h : Trie off N ns S E W) {text : List Nat}
    (ht : ¬ InAlphabet off N text) : find off ⟨n, ns⟩ text = .panic ∧ findAll off ⟨n, ns⟩ text = .panic := by
  obtain ⟨A, c, B, rfl, hA, hc⟩ := first_bad ht
  have hrow : ∀ k, k < ns.length → (nd ns k).next.length = N :=
    fun k hk => h.sh.row k (by rw [← h.sh.len]; exact hk)
  have hw : ∀ {α : Type} (g : Nat → α → Res α) (a : α), (∀ p, p < S.length → ∀ a, ∃ a', g p a = ok a') →
      ∃ s, forList A ((0, a) : Nat × α) (fun c s => subU c off >>= fun k => getNext ns s.1 k >>= fun p =>
        g p s.2 >>= fun a => ok (p, a)) = ok s ∧ s.1 < S.length := by
    intro α g a hg
    refine forList_sat (σ := Nat × α) (fun _ s => s.1 < S.length) A [] (0, a) h.sh.pos ?_
    rintro pre c r ⟨p, a⟩ e h1
    simp only at h1 ⊢
    obtain ⟨hc1, hc2⟩ := hA c (by rw [List.nil_append] at e; rw [e]; simp)
    obtain ⟨a1, a2, a3, -⟩ := walk_step h h1 hc1 hc2
    obtain ⟨a', ea⟩ := hg _ a3 a
    rw [a1, ok_bind, a2, ok_bind, ea, ok_bind, sat_ok]
    exact a3
  unfold find findAll
  constructor
  · obtain ⟨s, e, h1⟩ := hw (fun p (r : List (Option Nat)) => idx ns p >>= fun nd => ok (r ++ [nd.fin])) []
      (fun p hp a => ⟨_, by rw [idx_of_some (nd_some (by rw [h.sh.len]; exact hp)), ok_bind]⟩)
    simp only [Res.bind_bind_res, ok_bind] at e
    simp only
    rw [forList_append, show forList A (0, []) (findStep off ns) = ok s from e, ok_bind, forList_cons]
    unfold findStep
    rw [go_bad hrow (by rw [h.sh.len]; exact h1) hc]
    rfl
  · obtain ⟨s, e, h1⟩ := hw (fun p (r : List (List Nat)) => collect ns p >>= fun x => ok (r ++ [x])) []
      (fun p hp a => by
        unfold collect
        rw [idx_of_some (nd_some (by rw [h.sh.len]; exact hp)), ok_bind, (h.back _ hp).2, loop]
        exact ⟨_, rfl⟩)
    simp only [Res.bind_bind_res, ok_bind] at e
    simp only
    rw [forList_append, show forList A (0, []) (findAllStep off ns) = ok s from e, ok_bind, forList_cons]
    unfold findAllStep
    rw [go_bad hrow (by rw [h.sh.len]; exact h1) hc]
    rfl

/-! ### `insert` after `build` -/

/-- Every non-empty prefix of `s` leaves a built automaton in a node other than the root: `insert` follows the
transitions of the automaton and marks the node where it ends. -/
theorem insert_late {n : Nat} {ns : List ACNode} (h : Auto off N ns S E) {s : List Nat} (hs : s ≠ [])
    (ha : InAlphabet off N s) (hx : ∀ k, 0 < k → k ≤ s.length → ∃ x, x ≠ [] ∧ x ∈ S ∧ x <:+ s.take k) (i : Nat) :
    ∃ p, p < S.length ∧ LS S s (st S p) ∧ AhoCorasick.insert off N ⟨n, ns⟩ s i =
      ok ⟨n, ns.set p { nd ns p with fin := some i, nmatches := (nd ns p).nmatches + 1 }⟩ := by
  unfold AhoCorasick.insert
  rw [assert_true hs, ok_bind]
  obtain ⟨⟨ns', p⟩, e, h1, h2, h3⟩ := forList_sat (σ := List ACNode × Nat) (f := fun c (x : List ACNode × Nat) => do
      let k ← subU c off
      let v ← getNext x.1 x.2 k
      let nodes ← (if v = 0 then do
          let nodes ← setNext x.1 x.2 k x.1.length
          ok (nodes ++ [ACNode.new N])
        else ok x.1 : Res (List ACNode))
      let p ← getNext nodes x.2 k
      ok (nodes, p))
    (fun pre x => x.1 = ns ∧ x.2 < S.length ∧ LS S pre (st S x.2)) s [] (ns, 0)
    ⟨rfl, h.wd.pos, h.nil_ls⟩ (by
      rintro pre c r ⟨ns1, p⟩ hsp ⟨h1, h2, h3⟩
      simp only at h1 h2 h3 ⊢
      subst h1
      rw [List.nil_append] at hsp
      obtain ⟨hc1, hc2⟩ := ha c (by rw [hsp]; simp)
      obtain ⟨a1, a2, a3, a4⟩ := h.go h2 h3 hc1 hc2
      obtain ⟨x, x1, x2, x3⟩ := hx (pre.length + 1) (by omega) (by rw [hsp]; simp)
      rw [hsp, show (pre ++ c :: r).take (pre.length + 1) = pre ++ [c] by
        rw [show pre ++ c :: r = (pre ++ [c]) ++ r by simp, List.take_left' (by simp)]] at x3
      have hz : nx ns1 p (c - off) ≠ 0 := by
        intro hz
        have := a4.max x x2 x3
        rw [hz, h.wd.root] at this
        exact x1 (List.suffix_nil.1 this)
      rw [a1, ok_bind, a2, ok_bind, if_neg hz, ok_bind, a2, ok_bind, sat_ok]
      exact ⟨rfl, a3, a4⟩)
  simp only [List.nil_append] at h1 h2 h3
  subst h1
  have hp : p < ns'.length := by rw [h.len]; exact h2
  refine ⟨p, h2, h3, ?_⟩
  rw [e, ok_bind]
  simp only
  rw [idx_of_some (nd_some hp), ok_bind, upd_of_lt hp, ok_bind]

theorem find_late {n p : Nat} {ns : List ACNode} (h : Auto off N ns S E) (hp : p < S.length) (i m : Nat)
    {text : List Nat} (ha : InAlphabet off N text) :
    Sat (find off ⟨n, ns.set p { nd ns p with fin := some i, nmatches := m }⟩ text) (fun res =>
      res.length = text.length ∧ ∀ k, k < text.length → ∃ x, LS S (text.take (k + 1)) x ∧
        res[k]? = some (if x = st S p then some i else lookupLast E x)) := by
  have hpl : p < ns.length := by rw [h.len]; exact hp
  have hn : ∀ k, nd (ns.set p { nd ns p with fin := some i, nmatches := m }) k =
      if k = p then { nd ns p with fin := some i, nmatches := m } else nd ns k := fun k => nd_set hpl
  have hnx : ∀ q c, getNext (ns.set p { nd ns p with fin := some i, nmatches := m }) q c = getNext ns q c := by
    intro q c
    unfold getNext
    by_cases hq : q < ns.length
    · rw [idx_of_some (nd_some (by simpa using hq)), idx_of_some (nd_some hq), ok_bind, ok_bind, hn]
      split
      · rename_i e; subst e; rfl
      · rfl
    · rw [idx_panic (by simpa using hq), idx_panic (by omega)]
  unfold find
  rw [sat_bind]
  refine (forList_sat (σ := Nat × List (Option Nat)) (fun pre s => s.1 < S.length ∧ LS S pre (st S s.1) ∧
    s.2.length = pre.length ∧ ∀ k, k < pre.length → ∃ x, LS S (pre.take (k + 1)) x ∧
      s.2[k]? = some (if x = st S p then some i else lookupLast E x)) text [] (0, [])
    ⟨h.wd.pos, h.nil_ls, rfl, by simp⟩ ?_).mono ?_
  · rintro pre c r ⟨q, res⟩ e ⟨h1, h2, h3, h4⟩
    simp only at h1 h2 h3 h4 ⊢
    rw [List.nil_append] at e
    obtain ⟨hc1, hc2⟩ := ha c (by rw [e]; simp)
    obtain ⟨a1, a2, a3, a4⟩ := h.go h1 h2 hc1 hc2
    unfold findStep
    simp only
    rw [a1, ok_bind, hnx, a2, ok_bind, idx_of_some (nd_some (by simpa [h.len] using a3)), ok_bind, sat_ok]
    refine ⟨a3, a4, by simp [h3], ?_⟩
    intro k hk
    simp only
    by_cases hk2 : k < pre.length
    · obtain ⟨x, x1, x2⟩ := h4 k hk2
      refine ⟨x, by rw [List.take_append_of_le_length (by omega)]; exact x1, ?_⟩
      rw [List.getElem?_append_left (by omega)]
      exact x2
    · have hk3 : k = pre.length := by simp at hk; omega
      subst hk3
      refine ⟨_, by rw [List.take_of_length_le (by simp)]; exact a4, ?_⟩
      rw [← h3, List.getElem?_concat_length, hn]
      by_cases hv : nx ns q (c - off) = p
      · rw [if_pos hv, if_pos (by rw [hv])]
      · rw [if_neg hv, if_neg (fun e => hv (st_inj h.wd.nodup a3 hp e)), h.fin _ a3]
  · rintro ⟨q, res⟩ ⟨-, -, h3, h4⟩
    simpa using ⟨h3, h4⟩

end Verif.ACP
