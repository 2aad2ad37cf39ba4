import Verif.Proof.AhoCorasick
import Mathlib.Data.Finset.Card
import Mathlib.Data.Finset.Range
/-! Proof of `AhoCorasick::build`. -/
namespace Verif.ACP
open Model Spec Res AhoCorasick

/-- The output link `o` of a node whose string is `w` is right. -/
def OutOk (S : List (List Nat)) (E : List (List Nat × Nat)) (w : List Nat) : Option Nat → Prop
  | none => matchesAt E w.tail = []
  | some x => x < S.length ∧ matchesAt E w.tail = matchesAt E (st S x) ∧
      (st S x).length < w.length ∧ (lookupLast E (st S x)).isSome

/-- Row `k` holds the trie edges only. -/
def Raw (off N : Nat) (ns : List ACNode) (S : List (List Nat)) (k : Nat) : Prop :=
  ∀ c, c < N → (nx ns k c ≠ 0 → nx ns k c < S.length ∧ st S (nx ns k c) = st S k ++ [off + c]) ∧
    ∀ v, v < S.length → st S v = st S k ++ [off + c] → nx ns k c = v

/-- Row `k` is the full transition function. -/
def Full (off N : Nat) (ns : List ACNode) (S : List (List Nat)) (k : Nat) : Prop :=
  ∀ c, c < N → nx ns k c < S.length ∧ LS S (st S k ++ [off + c]) (st S (nx ns k c))

/-- What does not depend on the node list. -/
structure Words (off N : Nat) (S : List (List Nat)) (E : List (List Nat × Nat)) : Prop where
  pos : 0 < S.length
  root : st S 0 = []
  nodup : S.Nodup
  alpha : ∀ y c, y ++ [c] ∈ S → y ∈ S ∧ off ≤ c ∧ c < off + N
  num : ∀ x, (lookupLast E x).isSome → x ∈ S
  ne : lookupLast E [] = none

/-- The finished automaton. -/
structure Auto (off N : Nat) (ns : List ACNode) (S : List (List Nat)) (E : List (List Nat × Nat)) : Prop where
  wd : Words off N S E
  len : ns.length = S.length
  row : ∀ k, k < S.length → (nd ns k).next.length = N
  fin : ∀ k, k < S.length → (nd ns k).fin = lookupLast E (st S k)
  full : ∀ k, k < S.length → Full off N ns S k
  out : ∀ k, k < S.length → OutOk S E (st S k) (nd ns k).output
  bk : ∀ k, k < S.length → (nd ns k).back < S.length

/-- Loop invariant of `build`: `D` is the set of finished nodes, `q` the queue. -/
structure Bd (off N : Nat) (S : List (List Nat)) (E : List (List Nat × Nat)) (ns : List ACNode)
    (q : List Nat) (D : Finset Nat) : Prop where
  len : ns.length = S.length
  row : ∀ k, k < S.length → (nd ns k).next.length = N
  fin : ∀ k, k < S.length → (nd ns k).fin = lookupLast E (st S k)
  dn : ∀ k ∈ D, k < S.length ∧ Full off N ns S k
  un : ∀ k, k < S.length → k ∉ D → Raw off N ns S k
  lk : ∀ k, k < S.length → (k ∈ D ∨ k ∈ q) → (nd ns k).back < S.length ∧
    LS S (st S k).tail (st S (nd ns k).back) ∧ OutOk S E (st S k) (nd ns k).output
  ql : ∀ k ∈ q, k < S.length ∧ k ∉ D
  qn : q.Nodup
  zero : 0 ∈ D
  par : ∀ k v c, k < S.length → v < S.length → st S v = st S k ++ [c] → ((v ∈ D ∨ v ∈ q) ↔ k ∈ D)
  srt : q.Pairwise fun x y => (st S x).length ≤ (st S y).length
  lvl : ∀ x ∈ q, ∀ y ∈ q, (st S y).length ≤ (st S x).length + 1

variable {off N : Nat} {S : List (List Nat)} {E : List (List Nat × Nat)}

theorem Words.closed (hw : Words off N S E) : ∀ y c, y ++ [c] ∈ S → y ∈ S := fun y c h => (hw.alpha y c h).1

/-- Every node has the root or a node one shorter above it. -/
theorem Words.parent (hw : Words off N S E) {v : Nat} (hv : v < S.length) :
    v = 0 ∨ ∃ k c, k < S.length ∧ c < N ∧ st S v = st S k ++ [off + c] := by
  rcases List.eq_nil_or_concat (st S v) with e | ⟨y, d, e⟩
  · exact .inl (st_inj hw.nodup hv hw.pos (by rw [e, hw.root]))
  · rw [List.concat_eq_append] at e
    have hm := st_mem hv
    rw [e] at hm
    obtain ⟨h1, h2, h3⟩ := hw.alpha y d hm
    obtain ⟨k, hk, rfl⟩ := mem_st h1
    exact .inr ⟨k, d - off, hk, by omega, by rw [e]; congr; omega⟩

theorem Bd.undone (hw : Words off N S E) {ns : List ACNode} {q : List Nat} {D : Finset Nat}
    (h : Bd off N S E ns q D) : ∀ (l : Nat) (x : Nat), x < S.length → (st S x).length = l → x ∉ D →
    ∃ y ∈ q, (st S y).length ≤ l := by
  intro l
  induction l with
  | zero =>
    intro x hx hl hd
    exact absurd (st_inj hw.nodup hx hw.pos (by rw [hw.root]; exact List.length_eq_zero_iff.1 hl))
      (fun e => hd (e ▸ h.zero))
  | succ l ih =>
    intro x hx hl hd
    rcases hw.parent hx with rfl | ⟨k, c, hk, hc, e⟩
    · exact absurd h.zero hd
    · by_cases hkd : k ∈ D
      · rcases (h.par k x _ hk hx e).2 hkd with h1 | h1
        · exact absurd h1 hd
        · exact ⟨x, h1, by omega⟩
      · obtain ⟨y, hy, hyl⟩ := ih k hk (by rw [e] at hl; simpa using hl) hkd
        exact ⟨y, hy, by omega⟩

/-- Nodes shorter than the head of the queue are finished. -/
theorem Bd.shorter (hw : Words off N S E) {ns : List ACNode} {u : Nat} {q : List Nat} {D : Finset Nat}
    (h : Bd off N S E ns (u :: q) D) {x : Nat} (hx : x < S.length)
    (hl : (st S x).length < (st S u).length) : x ∈ D := by
  by_contra hd
  obtain ⟨y, hy, hyl⟩ := h.undone hw _ x hx rfl hd
  rcases List.mem_cons.1 hy with rfl | hy
  · omega
  · have := (List.pairwise_cons.1 h.srt).1 y hy
    omega

/-- The children of `u` with a letter below `i`, in the order they are queued. -/
def kids (ns : List ACNode) (u i : Nat) : List Nat :=
  ((List.range i).map (nx ns u)).filter (· ≠ 0)

theorem mem_kids {ns : List ACNode} {u i v : Nat} : v ∈ kids ns u i ↔ v ≠ 0 ∧ ∃ c < i, nx ns u c = v := by
  simp [kids, and_comm]

theorem kids_succ {ns : List ACNode} {u i : Nat} :
    kids ns u (i + 1) = kids ns u i ++ (if nx ns u i = 0 then [] else [nx ns u i]) := by
  unfold kids
  rw [List.range_succ, List.map_append, List.filter_append]
  congr 1
  by_cases h : nx ns u i = 0 <;> simp [h]

/-- Invariant of the inner loop. -/
structure Inn (ns0 : List ACNode) (u : Nat) (q0 : List Nat) (i : Nat) (s : List ACNode × List Nat) : Prop where
  len : s.1.length = ns0.length
  row : ∀ k, (nd s.1 k).next.length = (nd ns0 k).next.length
  fin : ∀ k, (nd s.1 k).fin = (nd ns0 k).fin
  nxt : ∀ k, k ≠ u → ∀ c, nx s.1 k c = nx ns0 k c
  nxu : ∀ c, nx s.1 u c = if c < i ∧ nx ns0 u c = 0 then nx ns0 (nd ns0 u).back c else nx ns0 u c
  same : ∀ k, k ∉ kids ns0 u i → (nd s.1 k).back = (nd ns0 k).back ∧ (nd s.1 k).output = (nd ns0 k).output
  kid : ∀ c, c < i → nx ns0 u c ≠ 0 → (nd s.1 (nx ns0 u c)).back = nx ns0 (nd ns0 u).back c ∧
    (nd s.1 (nx ns0 u c)).output = if (nd ns0 (nx ns0 (nd ns0 u).back c)).fin.isSome
      then some (nx ns0 (nd ns0 u).back c) else (nd ns0 (nx ns0 (nd ns0 u).back c)).output
  que : s.2 = q0 ++ kids ns0 u i

theorem buildStep_sat {ns0 : List ACNode} {u : Nat} {q0 : List Nat}
    (hu : u < ns0.length) (hrow : ∀ k, k < ns0.length → (nd ns0 k).next.length = N)
    (hb : (nd ns0 u).back < ns0.length) (hbu : (nd ns0 u).back ≠ u)
    (hkid : ∀ c, c < N → nx ns0 u c ≠ 0 → nx ns0 u c < ns0.length ∧ nx ns0 u c ≠ u)
    (hinj : ∀ c d, c < N → d < N → nx ns0 u c ≠ 0 → nx ns0 u c = nx ns0 u d → c = d)
    (hf : ∀ c, c < N → nx ns0 (nd ns0 u).back c < ns0.length ∧
      nx ns0 (nd ns0 u).back c ∉ kids ns0 u N) :
    Sat (buildStep N u (ns0, q0)) (Inn ns0 u q0 N) := by
  unfold buildStep
  have hks : ∀ i v, i ≤ N → v ∈ kids ns0 u i → v ∈ kids ns0 u N := by
    intro i v hi hv
    obtain ⟨h0, c, hc, e⟩ := mem_kids.1 hv
    exact mem_kids.2 ⟨h0, c, by omega, e⟩
  refine forRange_sat (Inn ns0 u q0) (Nat.zero_le N) ?_ ?_
  · refine ⟨rfl, fun _ => rfl, fun _ => rfl, fun _ _ _ => rfl, fun c => ?_, fun _ _ => ⟨rfl, rfl⟩, ?_, ?_⟩
    · simp
    · intro c hc; omega
    · simp [kids]
  · rintro i ⟨ns, q⟩ - hi h
    have hlen : ns.length = ns0.length := h.len
    have huk : u ∉ kids ns0 u i := by
      intro hm
      obtain ⟨h0, c, hc, e⟩ := mem_kids.1 hm
      exact (hkid c (by omega) (by rw [e]; exact h0)).2 e
    have hback : (nd ns u).back = (nd ns0 u).back := (h.same u huk).1
    have hrow' : ∀ k, k < ns0.length → (nd ns k).next.length = N := by
      intro k hk; rw [h.row k]; exact hrow k hk
    simp only
    rw [idx_of_some (nd_some (by omega : u < ns.length)), ok_bind,
      getNext_eq (by rw [hback]; omega) (by rw [hback, hrow' _ hb]; exact hi), ok_bind,
      getNext_eq (by omega) (by rw [hrow' u hu]; exact hi), ok_bind]
    have hfail : nx ns (nd ns u).back i = nx ns0 (nd ns0 u).back i := by
      rw [hback]; exact h.nxt _ hbu i
    have hv : nx ns u i = nx ns0 u i := by rw [h.nxu, if_neg (by omega)]
    rw [hfail, hv]
    by_cases hz : nx ns0 u i = 0
    · rw [if_pos hz]
      generalize hfd : nx ns0 (nd ns0 u).back i = fail at *
      rw [setNext_eq (by omega) (by rw [hrow' u hu]; exact hi), ok_bind, sat_ok]
      have hn : ∀ k, nd (ns.set u { nd ns u with next := (nd ns u).next.set i (fail) }) k =
          if k = u then { nd ns u with next := (nd ns u).next.set i (fail) } else nd ns k :=
        fun k => nd_set (by omega)
      have hkk : kids ns0 u (i + 1) = kids ns0 u i := by rw [kids_succ, if_pos hz, List.append_nil]
      refine ⟨by simp only [List.length_set]; exact hlen, ?_, ?_, ?_, ?_, ?_, ?_, ?_⟩
      · intro k; simp only [hn]; split
        · rename_i e; subst e; simp only [List.length_set]; exact h.row k
        · exact h.row k
      · intro k; simp only [hn]; split
        · rename_i e; subst e; exact h.fin k
        · exact h.fin k
      · intro k hk c
        unfold nx; simp only [hn]; rw [if_neg hk]; exact h.nxt k hk c
      · intro c
        have e1 : nx (ns.set u { nd ns u with next := (nd ns u).next.set i (fail) }) u c =
            if c = i then fail else nx ns u c := by
          unfold nx; rw [hn, if_pos rfl]; simp only
          rw [getD_set (by rw [hrow' u hu]; exact hi)]
        simp only
        rw [e1, h.nxu]
        by_cases e : c = i
        · subst e; rw [if_pos rfl, if_pos ⟨by omega, hz⟩, hfd]
        · rw [if_neg e]
          by_cases h2 : c < i ∧ nx ns0 u c = 0
          · rw [if_pos h2, if_pos ⟨by omega, h2.2⟩]
          · rw [if_neg h2, if_neg (fun h3 => h2 ⟨by omega, h3.2⟩)]
      · intro k hk
        rw [hkk] at hk
        simp only [hn]; split
        · rename_i e; subst e; exact h.same k hk
        · exact h.same k hk
      · intro c hc hne
        have hci : c < i := by
          rcases Nat.lt_succ_iff_lt_or_eq.1 hc with h1 | rfl
          · exact h1
          · exact absurd hz hne
        simp only [hn]
        rw [if_neg (hkid c (by omega) hne).2]
        exact h.kid c hci hne
      · rw [hkk]; exact h.que
    · rw [if_neg hz]
      obtain ⟨hvl, hvu⟩ := hkid i hi hz
      obtain ⟨hfl, hfk⟩ := hf i hi
      generalize hvd : nx ns0 u i = v at *
      generalize hfd : nx ns0 (nd ns0 u).back i = fail at *
      have hfv : fail ≠ v := by
        intro e
        exact hfk (mem_kids.2 ⟨by rw [e]; exact hz, i, hi, by rw [hvd, e]⟩)
      have hl2 : ∀ a, (ns.set v a).length = ns0.length := fun a => by rw [List.length_set]; exact hlen
      rw [idx_of_some (nd_some (by omega : v < ns.length)), ok_bind, upd_of_lt (by omega), ok_bind,
        idx_of_some (nd_some (by rw [hl2]; exact hfl)), ok_bind,
        idx_of_some (nd_some (by rw [hl2]; exact hvl)), ok_bind, upd_of_lt (by rw [hl2]; exact hvl), ok_bind,
        sat_ok]
      rw [nd_set (by omega), nd_set (by omega), if_neg hfv, if_pos rfl]
      have hfi : fail ∉ kids ns0 u i := fun hm => hfk (hks i _ (by omega) hm)
      rw [h.fin fail, (h.same fail hfi).2]
      generalize hout : (if (nd ns0 fail).fin.isSome = true then some fail else (nd ns0 fail).output) = out
      rw [List.set_set]
      have hn : ∀ k, nd (ns.set v { nd ns v with back := fail, output := out }) k =
          if k = v then { nd ns v with back := fail, output := out } else nd ns k :=
        fun k => nd_set (by omega)
      have hkk : kids ns0 u (i + 1) = kids ns0 u i ++ [v] := by
        rw [kids_succ, hvd, if_neg hz]
      have hnx : ∀ k c, nx (ns.set v { nd ns v with back := fail, output := out }) k c = nx ns k c := by
        intro k c; unfold nx; rw [hn]; split
        · rename_i e; subst e; rfl
        · rfl
      refine ⟨hl2 _, ?_, ?_, ?_, ?_, ?_, ?_, ?_⟩
      · intro k; simp only [hn]; split
        · rename_i e; subst e; exact h.row k
        · exact h.row k
      · intro k; simp only [hn]; split
        · rename_i e; subst e; exact h.fin k
        · exact h.fin k
      · intro k hk c; simp only; rw [hnx]; exact h.nxt k hk c
      · intro c
        simp only; rw [hnx, h.nxu]
        by_cases e : c = i
        · subst e; rw [if_neg (by omega), if_neg (by rw [hvd]; exact fun h => hz h.2)]
        · by_cases h2 : c < i ∧ nx ns0 u c = 0
          · rw [if_pos h2, if_pos ⟨by omega, h2.2⟩]
          · rw [if_neg h2, if_neg (fun h3 => h2 ⟨by omega, h3.2⟩)]
      · intro k hk
        rw [hkk] at hk
        simp only [List.mem_append, List.mem_singleton, not_or] at hk
        simp only [hn]; rw [if_neg hk.2]; exact h.same k hk.1
      · intro c hc hne
        by_cases e : c = i
        · subst e
          simp only [hvd, hfd]
          rw [hn, if_pos rfl]
          exact ⟨rfl, hout.symm⟩
        · have hcv : nx ns0 u c ≠ v := by
            intro e2
            exact e (hinj c i (by omega) hi hne (by rw [e2, hvd]))
          simp only
          rw [hn, if_neg hcv]
          exact h.kid c (by omega) hne
      · rw [hkk]
        simp only
        rw [show q = q0 ++ kids ns0 u i from h.que, List.append_assoc]

theorem matchesAt_tail {w : List Nat} (h : lookupLast E w = none) : matchesAt E w = matchesAt E w.tail := by
  cases w with
  | nil => rfl
  | cons c w => rw [matchesAt_cons, h]; rfl

theorem kids_nodup {ns : List ACNode} {u n : Nat}
    (hinj : ∀ c d, c < n → d < n → nx ns u c ≠ 0 → nx ns u c = nx ns u d → c = d) : (kids ns u n).Nodup := by
  unfold kids
  rw [List.filter_map]
  refine List.Nodup.map_on ?_ (List.nodup_range.filter _)
  intro c hc d hd e
  simp at hc hd
  exact hinj c d hc.1 hd.1 hc.2 e

theorem bd_step (hw : Words off N S E) {ns : List ACNode} {u : Nat} {q : List Nat} {D : Finset Nat}
    (h : Bd off N S E ns (u :: q) D) :
    Sat (buildStep N u (ns, q)) (fun s => Bd off N S E s.1 s.2 (insert u D)) := by
  obtain ⟨hul, huD⟩ := h.ql u (List.mem_cons_self ..)
  have hune : st S u ≠ [] := by
    intro e
    exact huD ((st_inj hw.nodup hul hw.pos (by rw [e, hw.root])) ▸ h.zero)
  have hupos : 0 < (st S u).length := List.length_pos_iff.2 hune
  obtain ⟨hbl, hbls, -⟩ := h.lk u hul (.inr (List.mem_cons_self ..))
  generalize hb : (nd ns u).back = b at *
  have hblen : (st S b).length < (st S u).length := by
    have := hbls.suf.length_le
    rw [List.length_tail] at this; omega
  have hbD : b ∈ D := h.shorter hw hbl hblen
  have hfull := (h.dn b hbD).2
  have hraw := h.un u hul huD
  have hkl : ∀ v, v ∈ kids ns u N → v < S.length ∧ ∃ c, c < N ∧ nx ns u c = v ∧ st S v = st S u ++ [off + c] := by
    intro v hv
    obtain ⟨h0, c, hc, e⟩ := mem_kids.1 hv
    subst e
    obtain ⟨h1, h2⟩ := (hraw c hc).1 h0
    exact ⟨h1, c, hc, rfl, h2⟩
  have hflen : ∀ c, c < N → (st S (nx ns b c)).length ≤ (st S u).length := by
    intro c hc
    have := (hfull c hc).2.suf.length_le
    simp at this; omega
  have hinj : ∀ c d, c < N → d < N → nx ns u c ≠ 0 → nx ns u c = nx ns u d → c = d := by
    intro c d hc hd h0 e
    have h1 := ((hraw c hc).1 h0).2
    have h2 := ((hraw d hd).1 (by rw [← e]; exact h0)).2
    rw [← e, h1] at h2
    have := (List.append_inj' h2 rfl).2
    simp at this; omega
  have hfk : ∀ c, c < N → nx ns b c ∉ kids ns u N := by
    intro c hc hm
    obtain ⟨_, d, _, _, e⟩ := hkl _ hm
    have := hflen c hc
    rw [e] at this; simp at this <;> omega
  have htail : ∀ c : Nat, (st S u ++ [c]).tail = (st S u).tail ++ [c] := by
    intro c; rw [List.tail_append_of_ne_nil hune]
  have hfls : ∀ c, c < N → LS S ((st S u).tail ++ [off + c]) (st S (nx ns b c)) := by
    intro c hc
    exact LS.step hw.closed hbls (hfull c hc).2
  have hku : u ∉ kids ns u N := by
    intro hm
    obtain ⟨_, c, _, _, e⟩ := hkl u hm
    have := congrArg List.length e
    simp at this
  have step := buildStep_sat (N := N) (ns0 := ns) (u := u) (q0 := q) (by rw [h.len]; exact hul)
    (fun k hk => h.row k (by rw [← h.len]; exact hk)) (by rw [hb, h.len]; exact hbl)
    (by rw [hb]; rintro rfl; omega) (by
      intro c hc h0
      obtain ⟨h1, h2⟩ := (hraw c hc).1 h0
      refine ⟨by rw [h.len]; exact h1, fun e => ?_⟩
      rw [e] at h2
      have := congrArg List.length h2
      simp at this) hinj (by
      intro c hc
      rw [hb, h.len]
      exact ⟨(hfull c hc).1, hfk c hc⟩)
  refine step.mono ?_
  rintro ⟨ns', q'⟩ hi
  have hkidq : ∀ v, v ∈ kids ns u N → v ∉ D ∧ v ∉ u :: q := by
    intro v hv
    obtain ⟨h1, c, hc, _, e⟩ := hkl v hv
    have := h.par u v _ hul h1 e
    exact ⟨fun h' => huD (this.1 (.inl h')), fun h' => huD (this.1 (.inr h'))⟩
  have hq' : q' = q ++ kids ns u N := hi.que
  have huq : u ∉ q := (List.nodup_cons.1 h.qn).1
  have hql : ∀ x ∈ q, (st S u).length ≤ (st S x).length ∧ (st S x).length ≤ (st S u).length + 1 := by
    intro x hx
    exact ⟨(List.pairwise_cons.1 h.srt).1 x hx, h.lvl u (List.mem_cons_self ..) x (List.mem_cons_of_mem _ hx)⟩
  have hkn : ∀ x ∈ kids ns u N, (st S x).length = (st S u).length + 1 := by
    intro x hx
    obtain ⟨_, c, _, _, e⟩ := hkl x hx
    rw [e]; simp
  have hnxk : ∀ k, k ≠ u → ∀ c, nx ns' k c = nx ns k c := fun k hk c => hi.nxt k hk c
  have hnxu : ∀ c, c < N → nx ns' u c = if nx ns u c = 0 then nx ns b c else nx ns u c := by
    intro c hc
    have := hi.nxu c
    rw [hb] at this
    simp only at this
    rw [this]
    simp [hc]
  subst hq'
  refine ⟨hi.len.trans h.len, ?_, ?_, ?_, ?_, ?_, ?_, ?_, Finset.mem_insert_of_mem h.zero, ?_, ?_, ?_⟩
  · intro k hk; rw [show (nd ns' k).next.length = _ from hi.row k]; exact h.row k hk
  · intro k hk; rw [show (nd ns' k).fin = _ from hi.fin k]; exact h.fin k hk
  · intro k hk
    rcases Finset.mem_insert.1 hk with rfl | hk
    · refine ⟨hul, fun c hc => ?_⟩
      rw [hnxu c hc]
      by_cases hz : nx ns k c = 0
      · rw [if_pos hz]
        refine ⟨(hfull c hc).1, ?_⟩
        have h1 := hfls c hc
        have h2 := htail (off + c)
        obtain ⟨a, t, e⟩ := List.exists_cons_of_ne_nil (show st S k ++ [off + c] ≠ [] by simp)
        rw [e, List.tail_cons] at h2
        rw [e]
        refine ⟨h1.mem, (h1.suf.trans (by rw [h2])).trans (List.suffix_cons a t), fun x hx hxs => ?_⟩
        rcases List.suffix_cons_iff.1 hxs with rfl | hxs
        · exfalso
          obtain ⟨v, hv, e3⟩ := mem_st hx
          have := (hraw c hc).2 v hv (by rw [e3, e])
          rw [hz] at this
          subst this
          rw [hw.root] at e3
          cases e3
        · exact h1.max x hx (by rw [← h2]; exact hxs)
      · rw [if_neg hz]
        obtain ⟨h1, h2⟩ := (hraw c hc).1 hz
        exact ⟨h1, by rw [← h2]; exact LS.refl (st_mem h1)⟩
    · obtain ⟨h1, h2⟩ := h.dn k hk
      have hne : k ≠ u := fun e => huD (e ▸ hk)
      refine ⟨h1, fun c hc => ?_⟩
      rw [hnxk k hne]
      exact h2 c hc
  · intro k hk hkD
    rw [Finset.mem_insert, not_or] at hkD
    have := h.un k hk hkD.2
    intro c hc
    rw [hnxk k hkD.1]
    exact this c hc
  · intro k hk hkk
    by_cases hm : k ∈ kids ns u N
    · obtain ⟨h1, c, hc, rfl, e⟩ := hkl k hm
      obtain ⟨h0, -⟩ := mem_kids.1 hm
      obtain ⟨e1, e2⟩ := hi.kid c hc h0
      simp only at e1 e2
      rw [hb] at e1 e2
      rw [e1, e2, e, htail]
      have hls := hfls c hc
      have hfl := (hfull c hc).1
      have hfu := hflen c hc
      generalize nx ns b c = fail at *
      refine ⟨hfl, hls, ?_⟩
      have hma : matchesAt E ((st S u).tail ++ [off + c]) = matchesAt E (st S fail) :=
        matchesAt_ls hls.suf fun x hx hs => hls.max x (hw.num x hs) hx
      have hlink : fail ∈ D ∨ fail ∈ u :: q := by
        rcases hw.parent hfl with rfl | ⟨k', c', hk', hc', e'⟩
        · exact .inl h.zero
        · refine (h.par k' fail _ hk' hfl e').2 (h.shorter hw hk' ?_)
          rw [e'] at hfu; simp at hfu; omega
      obtain ⟨-, -, hout⟩ := h.lk fail hfl hlink
      rw [h.fin fail hfl]
      by_cases hs : (lookupLast E (st S fail)).isSome
      · rw [if_pos hs]
        refine ⟨hfl, by rw [htail]; exact hma, by simp; omega, hs⟩
      · rw [if_neg hs]
        have hnone : lookupLast E (st S fail) = none := by simpa using hs
        cases ho : (nd ns fail).output with
        | none =>
          rw [ho] at hout
          show matchesAt E (st S u ++ [off + c]).tail = []
          rw [htail, hma, matchesAt_tail hnone]; exact hout
        | some x =>
          rw [ho] at hout
          obtain ⟨o1, o2, o3, o4⟩ := hout
          refine ⟨o1, ?_, by simp; omega, o4⟩
          rw [htail, hma, matchesAt_tail hnone]; exact o2
    · obtain ⟨e1, e2⟩ := hi.same k hm
      simp only at e1 e2
      rw [e1, e2]
      apply h.lk k hk
      rcases hkk with hkk | hkk
      · rcases Finset.mem_insert.1 hkk with rfl | hkk
        · exact .inr (List.mem_cons_self ..)
        · exact .inl hkk
      · rcases List.mem_append.1 hkk with hkk | hkk
        · exact .inr (List.mem_cons_of_mem _ hkk)
        · exact absurd hkk hm
  · intro k hk
    rcases List.mem_append.1 hk with hk | hk
    · obtain ⟨h1, h2⟩ := h.ql k (List.mem_cons_of_mem _ hk)
      refine ⟨h1, ?_⟩
      rw [Finset.mem_insert, not_or]
      exact ⟨fun e => huq (e ▸ hk), h2⟩
    · refine ⟨(hkl k hk).1, ?_⟩
      rw [Finset.mem_insert, not_or]
      exact ⟨fun e => hku (e ▸ hk), (hkidq k hk).1⟩
  · rw [List.nodup_append]
    refine ⟨(List.nodup_cons.1 h.qn).2, kids_nodup hinj, ?_⟩
    rintro a ha b hb rfl
    exact (hkidq a hb).2 (List.mem_cons_of_mem _ ha)
  · intro k v c hk hv e
    have hp := h.par k v c hk hv e
    rw [Finset.mem_insert, Finset.mem_insert, List.mem_append]
    constructor
    · rintro ((rfl | h1) | h1 | h1)
      · exact .inr (hp.1 (.inr (List.mem_cons_self ..)))
      · exact .inr (hp.1 (.inl h1))
      · exact .inr (hp.1 (.inr (List.mem_cons_of_mem _ h1)))
      · obtain ⟨_, d, _, _, e'⟩ := hkl v h1
        rw [e] at e'
        exact .inl (st_inj hw.nodup hk hul (List.append_inj' e' rfl).1)
    · rintro (rfl | h1)
      · have hm := st_mem hv
        rw [e] at hm
        obtain ⟨_, h2, h3⟩ := hw.alpha _ _ hm
        obtain ⟨d, rfl⟩ : ∃ d, c = off + d := ⟨c - off, by omega⟩
        refine .inr (.inr (mem_kids.2 ⟨?_, d, by omega, (hraw d (by omega)).2 v hv e⟩))
        rintro rfl
        rw [hw.root] at e
        have := congrArg List.length e
        simp at this
      · rcases hp.2 h1 with h2 | h2
        · exact .inl (.inr h2)
        · rcases List.mem_cons.1 h2 with rfl | h2
          · exact .inl (.inl rfl)
          · exact .inr (.inl h2)
  · rw [List.pairwise_append]
    refine ⟨(List.pairwise_cons.1 h.srt).2, ?_, ?_⟩
    · rw [List.pairwise_iff_forall_sublist]
      intro a b hab
      have h1 : a ∈ kids ns u N := hab.subset (by simp)
      have h2 : b ∈ kids ns u N := hab.subset (by simp)
      rw [hkn a h1, hkn b h2]
    · intro a ha b hb
      rw [hkn b hb]; exact (hql a ha).2
  · intro x hx y hy
    have hy2 : (st S y).length ≤ (st S u).length + 1 := by
      rcases List.mem_append.1 hy with hy | hy
      · exact (hql y hy).2
      · rw [hkn y hy]
    have hx2 : (st S u).length ≤ (st S x).length := by
      rcases List.mem_append.1 hx with hx | hx
      · exact (hql x hx).1
      · rw [hkn x hx]; omega
    omega

/-- The queue that `build` starts with. -/
theorem first_queue {ns : List ACNode} (hsh : Shape off N ns S) :
    forRange 0 N ([] : List Nat) (fun i q => do
      let v ← getNext ns 0 i
      if v ≠ 0 then ok (q ++ [v]) else ok q) = ok (kids ns 0 N) := by
  have hq := forRange_sat (f := fun i (q : List Nat) => do
      let v ← getNext ns 0 i
      if v ≠ 0 then ok (q ++ [v]) else ok q) (fun i q => q = kids ns 0 i) (Nat.zero_le N) (s := []) (by simp [kids]) (by
    rintro i q - hi rfl
    rw [getNext_eq (by rw [hsh.len]; exact hsh.pos) (by rw [hsh.row 0 hsh.pos]; exact hi), ok_bind, kids_succ]
    by_cases hz : nx ns 0 i = 0 <;> simp [hz])
  obtain ⟨q, e, rfl⟩ := hq
  exact e

theorem Trie.words {ns : List ACNode} {W : List (List Nat)} (h : Trie off N ns S E W)
    (hne : lookupLast E [] = none) : Words off N S E :=
  ⟨h.sh.pos, h.sh.root, h.sh.nodup, h.sh.alpha, fun x hx => by
    obtain ⟨j, hj⟩ := Option.isSome_iff_exists.1 hx
    exact h.num _ (lookupLast_mem hj), hne⟩

theorem bd_start {ns : List ACNode} {W : List (List Nat)} (h : Trie off N ns S E W)
    (hne : lookupLast E [] = none) : Bd off N S E ns (kids ns 0 N) {0} := by
  have hsh := h.sh
  have hw := h.words hne
  have hraw : ∀ k, k < S.length → Raw off N ns S k := fun k hk c hc =>
    ⟨hsh.nxt k c hk hc, fun v hv e => hsh.nxt' k v c hk hv hc e⟩
  have hkl : ∀ v, v ∈ kids ns 0 N → v < S.length ∧ ∃ c, c < N ∧ nx ns 0 c = v ∧ st S v = [off + c] := by
    intro v hv
    obtain ⟨h0, c, hc, rfl⟩ := mem_kids.1 hv
    obtain ⟨h1, h2⟩ := (hraw 0 hsh.pos c hc).1 h0
    rw [hsh.root] at h2
    exact ⟨h1, c, hc, rfl, h2⟩
  have hnil : ([] : List Nat) ∈ S := by rw [← hsh.root]; exact st_mem hsh.pos
  refine ⟨hsh.len, hsh.row, h.fin, ?_, fun k hk _ => hraw k hk, ?_, ?_, ?_, by simp, ?_, ?_, ?_⟩
  · intro k hk
    rw [Finset.mem_singleton] at hk; subst hk
    refine ⟨hsh.pos, fun c hc => ?_⟩
    by_cases hz : nx ns 0 c = 0
    · rw [hz, hsh.root]
      refine ⟨hsh.pos, hnil, List.nil_suffix, fun x hx hxs => ?_⟩
      rcases List.suffix_cons_iff.1 hxs with rfl | hxs
      · exfalso
        obtain ⟨v, hv, e⟩ := mem_st hx
        have := (hraw 0 hsh.pos c hc).2 v hv (by rw [e, hsh.root]; rfl)
        rw [hz] at this
        subst this
        rw [hsh.root] at e
        exact absurd e (by simp)
      · exact hxs
    · obtain ⟨h1, h2⟩ := (hraw 0 hsh.pos c hc).1 hz
      exact ⟨h1, by rw [← h2]; exact LS.refl (st_mem h1)⟩
  · intro k hk hkk
    have ht : (st S k).tail = [] := by
      rcases hkk with hkk | hkk
      · rw [Finset.mem_singleton] at hkk; subst hkk; rw [hsh.root]; rfl
      · obtain ⟨_, c, _, _, e⟩ := hkl k hkk
        rw [e]; rfl
    obtain ⟨hb, ho⟩ := h.back k hk
    rw [hb, ho, ht, hsh.root]
    refine ⟨hsh.pos, LS.refl hnil, ?_⟩
    show matchesAt E (st S k).tail = []
    rw [ht]; exact matchesAt_nil hne
  · intro k hk
    obtain ⟨h1, c, _, _, e⟩ := hkl k hk
    refine ⟨h1, ?_⟩
    rw [Finset.mem_singleton]
    rintro rfl
    rw [hsh.root] at e; cases e
  · apply kids_nodup
    intro c d hc hd h0 e
    have h1 := ((hraw 0 hsh.pos c hc).1 h0).2
    have h2 := ((hraw 0 hsh.pos d hd).1 (by rw [← e]; exact h0)).2
    rw [← e, h1] at h2
    have := (List.append_inj' h2 rfl).2
    simp at this; omega
  · intro k v c hk hv e
    rw [Finset.mem_singleton, Finset.mem_singleton]
    constructor
    · rintro (rfl | h1)
      · rw [hsh.root] at e
        have := congrArg List.length e
        simp at this
      · obtain ⟨_, d, _, _, e'⟩ := hkl v h1
        rw [e] at e'
        apply st_inj hsh.nodup hk hsh.pos
        rw [hsh.root]
        have := congrArg List.length e'
        simp at this
        exact this
    · rintro rfl
      have hm := st_mem hv
      rw [e] at hm
      obtain ⟨_, h2, h3⟩ := hw.alpha _ _ hm
      obtain ⟨d, rfl⟩ : ∃ d, c = off + d := ⟨c - off, by omega⟩
      refine .inr (mem_kids.2 ⟨?_, d, by omega, (hraw 0 hk d (by omega)).2 v hv e⟩)
      rintro rfl
      rw [hw.root] at e
      have := congrArg List.length e
      simp at this
  · rw [List.pairwise_iff_forall_sublist]
    intro a b hab
    obtain ⟨_, c, _, _, e⟩ := hkl a (hab.subset (by simp))
    obtain ⟨_, d, _, _, e'⟩ := hkl b (hab.subset (by simp))
    rw [e, e']; simp
  · intro x hx y hy
    obtain ⟨_, c, _, _, e⟩ := hkl x hx
    obtain ⟨_, d, _, _, e'⟩ := hkl y hy
    rw [e, e']; simp

theorem Bd.all {ns : List ACNode} (hw : Words off N S E) {D : Finset Nat} (hD : Bd off N S E ns [] D) :
    ∀ k, k < S.length → k ∈ D := by
  intro k hk
  by_contra hkD
  obtain ⟨y, hy, _⟩ := hD.undone hw _ k hk rfl hkD
  cases hy

/-- `build` goes through its queue loop once for every node but the root. -/
theorem buildFuel_sat {n fuel : Nat} {ns : List ACNode} {W : List (List Nat)} (h : Trie off N ns S E W)
    (hne : lookupLast E [] = none) (hf : S.length ≤ fuel) :
    Sat (buildFuel fuel N ⟨n, ns⟩) (fun a => a.n = n ∧ Auto off N a.nodes S E) := by
  have hsh := h.sh
  have hw := h.words hne
  have h0 := bd_start h hne
  unfold buildFuel
  simp only
  rw [first_queue hsh, ok_bind]
  rw [sat_bind]
  refine (loop_satG (σ := List ACNode × List Nat) (fun s k => ∃ D, Bd off N S E s.1 s.2 D ∧ k + D.card = S.length)
    (fun ns => Auto off N ns S E) ?_ _ _ (S.length - 1) ⟨{0}, h0, by have := hsh.pos; simp; omega⟩
    (by have := hsh.pos; omega)).mono ?_
  · rintro ⟨ns, q⟩ k ⟨D, hD, hk⟩
    simp only at hD ⊢
    cases q with
    | nil =>
      simp only [sat_ok]
      have hall := hD.all hw
      exact ⟨hw, hD.len, hD.row, hD.fin, fun k hk => (hD.dn k (hall k hk)).2,
        fun k hk => (hD.lk k hk (.inl (hall k hk))).2.2, fun k hk => (hD.lk k hk (.inl (hall k hk))).1⟩
    | cons u q =>
      simp only [sat_bind]
      refine (bd_step hw hD).mono ?_
      intro s hs
      simp only [sat_ok]
      obtain ⟨hul, huD⟩ := hD.ql u (List.mem_cons_self ..)
      have hc : (insert u D).card = D.card + 1 := Finset.card_insert_of_notMem huD
      have hle : (insert u D).card ≤ S.length := by
        rw [← Finset.card_range S.length]
        apply Finset.card_le_card
        intro x hx
        rw [Finset.mem_range]
        exact (hs.dn x hx).1
      exact ⟨k - 1, by omega, insert u D, hs, by omega⟩
  · intro ns' h'
    rw [sat_ok]
    exact ⟨rfl, h'⟩

theorem build_sat {n : Nat} {ns : List ACNode} {W : List (List Nat)} (h : Trie off N ns S E W)
    (hne : lookupLast E [] = none) :
    Sat (build N ⟨n, ns⟩) (fun a => a.n = n ∧ Auto off N a.nodes S E) :=
  buildFuel_sat h hne (by simp only [h.sh.len]; omega)

/-- With fewer rounds `build` does not finish. -/
theorem buildFuel_short {n fuel : Nat} {ns : List ACNode} {W : List (List Nat)} (h : Trie off N ns S E W)
    (hne : lookupLast E [] = none) (hf : fuel < S.length) : buildFuel fuel N ⟨n, ns⟩ = .diverge := by
  have hw := h.words hne
  unfold buildFuel
  simp only
  rw [first_queue h.sh, ok_bind]
  have key : ∀ (body : List ACNode × List Nat → Res (Ctl (List ACNode × List Nat) (List ACNode))),
      (∀ ns u q, body (ns, u :: q) = buildStep N u (ns, q) >>= fun s => ok (.next s)) →
      ∀ (f : Nat) (ns : List ACNode) (q : List Nat) (D : Finset Nat), Bd off N S E ns q D →
      D.card + f ≤ S.length → loop f (ns, q) body = .diverge := by
    intro body hb
    intro f
    induction f with
    | zero => intros; rfl
    | succ f ih =>
      intro ns q D hD hf
      cases q with
      | nil =>
        have : S.length ≤ D.card := by
          rw [← Finset.card_range S.length]
          apply Finset.card_le_card
          intro x hx
          exact hD.all hw x (Finset.mem_range.1 hx)
        omega
      | cons u q =>
        obtain ⟨s, e, hs⟩ := bd_step hw hD
        have hc : (insert u D).card = D.card + 1 :=
          Finset.card_insert_of_notMem (hD.ql u (List.mem_cons_self ..)).2
        rw [loop]
        rw [hb, e]
        exact ih s.1 s.2 _ hs (by omega)
  rw [key _ (fun _ _ _ => rfl) fuel ns _ _ (bd_start h hne) (by rw [Finset.card_singleton]; omega)]
  rfl

end Verif.ACP
