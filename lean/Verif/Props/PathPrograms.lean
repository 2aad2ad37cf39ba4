import Verif.Props.BinaryLifting
import Verif.Proof.TreeMetric
import Mathlib.Algebra.BigOperators.Group.Finset.Basic
import Mathlib.Algebra.BigOperators.Group.Finset.Piecewise
import Mathlib.Tactic.Linarith
import Mathlib.Algebra.Order.BigOperators.Group.Finset
/-! C122: programs that use `BinaryLifting`: how many paths use an edge, the vertex some edges up, the vertices of a path. -/
namespace Verif.Props
open Res Model Spec TreeP BLP

variable {g : List (List Nat)} {root : Nat}

/-! ### How many of the paths use each edge

The loops are a user's, around `from`, `lca` and `is_ancestor` of /repo/src/graph/binary_lifting.rs:12-63. Sums are of unbounded
integers. -/

/-- `cnt[u] += d`. -/
def addAt (cnt : List Int) (u : Nat) (d : Int) : Res (List Int) := do
  let c ← idx cnt u
  upd cnt u (c + d)

/-- One path: `cnt[u] += 1; cnt[v] += 1; cnt[lca(u, v)] -= 2`. -/
def markPath (t : BinaryLifting) (q : Nat × Nat) (cnt : List Int) : Res (List Int) := do
  let cnt ← addAt cnt q.1 1
  let cnt ← addAt cnt q.2 1
  let l ← t.lca q.1 q.2
  addAt cnt l (-2)

/-- The marks of all vertices that `is_ancestor` places below `x`, added up. -/
def belowSum (t : BinaryLifting) (n : Nat) (cnt : List Int) (x : Nat) : Res Int :=
  forRange 0 n 0 fun y s => do
    let b ← t.isAncestor x y
    if b then do
      let c ← idx cnt y
      ok (s + c)
    else ok s

/-- The whole program: for every vertex `x` the number of paths in `qs` that use the edge from `x` to its parent. -/
def edgeUses (g : List (List Nat)) (root : Nat) (qs : List (Nat × Nat)) : Res (List Int) := do
  let t ← BinaryLifting.from g root
  let cnt ← forList qs (List.replicate g.length 0) (markPath t)
  forRange 0 g.length [] fun x out => do
    let s ← belowSum t g.length cnt x
    ok (out ++ [s])

/-- The path from the first to the second vertex of the pair goes along the edge between `a` and `x`, in either direction. -/
def PathUses (g : List (List Nat)) (a x : Nat) (q : Nat × Nat) : Prop :=
  ∃ p, IsPath g q.1 q.2 p ∧ ([a, x] <:+: p ∨ [x, a] <:+: p)

theorem addAt_sat {cnt : List Int} {u : Nat} {d : Int} (hu : u < cnt.length) :
    ∃ cnt', addAt cnt u d = ok cnt' ∧ cnt'.length = cnt.length ∧
      ∀ S : Finset Nat, ∑ y ∈ S, cnt'.getD y 0 = (∑ y ∈ S, cnt.getD y 0) + if u ∈ S then d else 0 := by
  refine ⟨cnt.set u (cnt[u] + d), ?_, by simp, fun S => ?_⟩
  · rw [addAt, idx_of_lt hu, ok_bind, upd_of_lt hu]
  · have : ∀ y, (cnt.set u (cnt[u] + d)).getD y 0 = cnt.getD y 0 + if u = y then d else 0 := by
      intro y
      rw [List.getD_eq_getElem?_getD, List.getD_eq_getElem?_getD, List.getElem?_set]
      by_cases h : u = y
      · subst h; simp [hu]
      · simp [h]
    simp only [this, Finset.sum_add_distrib, Finset.sum_ite_eq]

section
variable (T : IsTree g) (hr : root < g.length)
include T hr

/-- The only edge between the vertices below `x` and the others is the one from `x` to its parent. -/
theorem below_edge {x a y z : Nat} {A : List Nat} (hx : IsPath g root x (A ++ [a, x])) (hy : Ancestor g root x y)
    (hz : ¬ Ancestor g root x z) (hyz : z ∈ g.getD y []) : y = x ∧ z = a := by
  have hyl := (anc_lt T hr hy).2
  have hzl := T.inRange _ _ hyz
  rw [anc_mem T hr hyl] at hy
  rw [anc_mem T hr hzl] at hz
  rcases rpath_adj T hr hyl hyz with h | h
  · exact absurd (by rw [h]; simp [hy]) hz
  · rw [h] at hy
    have hxy : x = y := by
      rcases List.mem_append.1 hy with h' | h'
      · exact absurd h' hz
      · simpa using h'
    subst hxy
    refine ⟨rfl, ?_⟩
    rw [rpath_eq T hr hx] at h
    obtain ⟨B, hB⟩ := rpath_snoc T hr hzl
    rw [hB] at h
    have h2 : A ++ [a] ++ [x] = (B ++ [z]) ++ [x] := by simpa using h
    have h3 := List.append_cancel_right h2
    have h4 := List.append_inj_right' h3 rfl
    simpa using h4.symm

/-- A path that begins below `x` and never goes along the edge to the parent stays below `x`. -/
theorem stays_below {x a : Nat} {A : List Nat} (hx : IsPath g root x (A ++ [a, x])) :
    ∀ (p : List Nat), p.IsChain (fun a b => b ∈ g.getD a []) → (∀ h, p.head? = some h → Ancestor g root x h) →
      ¬ [x, a] <:+: p → ∀ v ∈ p, Ancestor g root x v := by
  intro p
  induction p with
  | nil => simp
  | cons b p ih =>
    intro hc hh hn v hv
    have hb := hh b rfl
    rcases List.mem_cons.1 hv with rfl | hv
    · exact hb
    · refine ih hc.tail ?_ (fun h => hn (h.trans (List.suffix_cons b p).isInfix)) v hv
      intro c hcc
      cases p with
      | nil => simp at hcc
      | cons d p =>
        simp at hcc
        subst hcc
        rw [List.isChain_cons_cons] at hc
        by_contra hcon
        obtain ⟨rfl, rfl⟩ := below_edge T hr hx hb hcon hc.1
        exact hn ⟨[], p, by simp⟩

/-- A path that begins elsewhere and never goes along the edge from the parent does not get below `x`. -/
theorem stays_off {x a : Nat} {A : List Nat} (hx : IsPath g root x (A ++ [a, x])) :
    ∀ (p : List Nat), p.IsChain (fun a b => b ∈ g.getD a []) → (∀ h, p.head? = some h → ¬ Ancestor g root x h) →
      ¬ [a, x] <:+: p → ∀ v ∈ p, ¬ Ancestor g root x v := by
  intro p
  induction p with
  | nil => simp
  | cons b p ih =>
    intro hc hh hn v hv
    have hb := hh b rfl
    rcases List.mem_cons.1 hv with rfl | hv
    · exact hb
    · refine ih hc.tail ?_ (fun h => hn (h.trans (List.suffix_cons b p).isInfix)) v hv
      intro c hcc hcon
      cases p with
      | nil => simp at hcc
      | cons d p =>
        simp at hcc
        subst hcc
        rw [List.isChain_cons_cons] at hc
        obtain ⟨rfl, rfl⟩ := below_edge T hr hx hcon hb (T.symm _ _ hc.1)
        exact hn ⟨[], p, by simp⟩

/-- A path uses the edge between `x` and its parent exactly if one of its ends is below `x` and the other is not. -/
theorem uses_iff {x a u v : Nat} {A : List Nat} (hx : IsPath g root x (A ++ [a, x])) (hu : u < g.length) (hv : v < g.length) :
    PathUses g a x (u, v) ↔ ¬ (Ancestor g root x u ↔ Ancestor g root x v) := by
  have hxx : Ancestor g root x x := ⟨_, hx, by simp⟩
  have haa : ¬ Ancestor g root x a := by
    have h1 : IsPath g root a (A ++ [a]) := IsPath.take (B := [x]) hx
    rintro ⟨p, hp, hm⟩
    rw [hp.eq T h1 hr] at hm
    have := hx.nodup
    rw [show A ++ [a, x] = (A ++ [a]) ++ [x] by simp, List.nodup_append] at this
    exact this.2.2 x hm x (by simp) rfl
  constructor
  · rintro ⟨p, hp, ⟨B, C, rfl⟩ | ⟨B, C, rfl⟩⟩
    · -- from outside in
      have hnd := hp.nodup
      have hch := hp.chain
      simp only [List.append_assoc, List.cons_append, List.nil_append] at hnd hch hp
      have hlast : Ancestor g root x v := by
        have hs : (x :: C).IsChain (fun a b => b ∈ g.getD a []) := (hch.right_of_append).tail
        refine stays_below T hr hx (x :: C) hs (by simp [hxx]) ?_ v ?_
        · intro h
          have : a ∈ x :: C := h.subset (by simp)
          have h2 := (List.nodup_append.1 hnd).2.1
          exact (List.nodup_cons.1 h2).1 this
        · refine List.mem_of_getLast? ?_
          have := hp.last
          rwa [show B ++ a :: x :: C = (B ++ [a]) ++ (x :: C) by simp, List.getLast?_append_cons] at this
      have hfirst : ¬ Ancestor g root x u := by
        intro hcon
        have h1 : (B ++ [a]).IsChain (fun a b => b ∈ g.getD a []) := by
          rw [show B ++ a :: x :: C = (B ++ [a]) ++ (x :: C) by simp] at hch
          exact hch.left_of_append
        refine haa (stays_below T hr hx (B ++ [a]) h1 ?_ ?_ a (by simp))
        · intro h hh
          have : some u = some h := by
            rw [← hh, ← hp.head]; cases B <;> simp
          cases this; exact hcon
        · intro h
          have h2 : x ∈ B ++ [a] := h.subset (by simp)
          rw [show B ++ a :: x :: C = (B ++ [a]) ++ (x :: C) by simp, List.nodup_append] at hnd
          exact hnd.2.2 x h2 x (by simp) rfl
      tauto
    · have hnd := hp.nodup
      have hch := hp.chain
      simp only [List.append_assoc, List.cons_append, List.nil_append] at hnd hch hp
      have hlast : ¬ Ancestor g root x v := by
        have hs : (a :: C).IsChain (fun a b => b ∈ g.getD a []) := (hch.right_of_append).tail
        refine stays_off T hr hx (a :: C) hs (by simp [haa]) ?_ v ?_
        · intro h
          have : x ∈ a :: C := h.subset (by simp)
          have h2 := (List.nodup_append.1 hnd).2.1
          exact (List.nodup_cons.1 h2).1 this
        · refine List.mem_of_getLast? ?_
          have := hp.last
          rwa [show B ++ x :: a :: C = (B ++ [x]) ++ (a :: C) by simp, List.getLast?_append_cons] at this
      have hfirst : Ancestor g root x u := by
        by_contra hcon
        have h1 : (B ++ [x]).IsChain (fun a b => b ∈ g.getD a []) := by
          rw [show B ++ x :: a :: C = (B ++ [x]) ++ (a :: C) by simp] at hch
          exact hch.left_of_append
        refine stays_off T hr hx (B ++ [x]) h1 ?_ ?_ x (by simp) hxx
        · intro h hh
          have : some u = some h := by
            rw [← hh, ← hp.head]; cases B <;> simp
          cases this; exact hcon
        · intro h
          have h2 : a ∈ B ++ [x] := h.subset (by simp)
          rw [show B ++ x :: a :: C = (B ++ [x]) ++ (a :: C) by simp, List.nodup_append] at hnd
          exact hnd.2.2 a h2 a (by simp) rfl
      tauto
  · intro h
    obtain ⟨p, hp⟩ := (T.path u v hu hv).exists
    refine ⟨p, hp, ?_⟩
    by_contra hcon
    rw [not_or] at hcon
    have hvp : v ∈ p := List.mem_of_getLast? hp.last
    by_cases hxu : Ancestor g root x u
    · exact h ⟨fun _ => stays_below T hr hx p hp.chain (fun b hb => by
        have := hp.head.symm.trans hb; cases this; exact hxu) hcon.2 v hvp, fun _ => hxu⟩
    · exact h ⟨fun h' => absurd h' hxu, fun h' => absurd h' (stays_off T hr hx p hp.chain (fun b hb => by
        have := hp.head.symm.trans hb; cases this; exact hxu) hcon.1 v hvp)⟩

end

open Classical in
/-- **C122, edges used by paths.** Two marks at the ends of every path and two taken away at the answer of `lca`: then the marks
below `x` add up to the number of paths that go along the edge from `x` to its parent `a`. For the root they add up to zero. -/
theorem C122_edge_uses (T : IsTree g) (hr : root < g.length) (hn : g.length < 2 ^ 64) (qs : List (Nat × Nat))
    (hq : ∀ q ∈ qs, q.1 < g.length ∧ q.2 < g.length) :
    ∃ out, edgeUses g root qs = ok out ∧ out.length = g.length ∧ out[root]? = some 0 ∧
      ∀ A a x, IsPath g root x (A ++ [a, x]) →
        out[x]? = some ((qs.countP fun q => decide (PathUses g a x q) : Nat) : Int) := by
  obtain ⟨t, e, hanc⟩ := C16_is_ancestor T hr hn
  obtain ⟨t', e', hlca⟩ := C17_lca T hr hn
  rw [e] at e'
  cases e'
  let W : Finset Nat → Nat → Nat × Nat → Int := fun S l q =>
    (if q.1 ∈ S then 1 else 0) + (if q.2 ∈ S then 1 else 0) + (if l ∈ S then -2 else 0)
  let below : Nat → Finset Nat := fun x => (Finset.range g.length).filter fun y => Ancestor g root x y
  have hmem : ∀ x y, y ∈ below x ↔ Ancestor g root x y := by
    intro x y
    simp only [below, Finset.mem_filter, Finset.mem_range, and_iff_right_iff_imp]
    exact fun h => (anc_lt T hr h).2
  have hW : ∀ x q l, q.1 < g.length → q.2 < g.length → IsLca g root q.1 q.2 l →
      W (below x) l q = if (Ancestor g root x q.1 ↔ Ancestor g root x q.2) then 0 else 1 := by
    rintro x ⟨u, v⟩ l hu hv ⟨h1, h2, h3⟩
    have hl : Ancestor g root x l ↔ Ancestor g root x u ∧ Ancestor g root x v :=
      ⟨fun h => ⟨anc_trans T hr h h1, anc_trans T hr h h2⟩, fun h => h3 x h.1 h.2⟩
    simp only [W, hmem, hl]
    by_cases a1 : Ancestor g root x u <;> by_cases a2 : Ancestor g root x v <;> simp [a1, a2]
  have marks : Sat (forList qs (List.replicate g.length 0) (markPath t)) (fun cnt => cnt.length = g.length ∧
      ∀ x, ∑ y ∈ below x, cnt.getD y 0 =
        ((qs.countP fun q => decide (¬ (Ancestor g root x q.1 ↔ Ancestor g root x q.2)) : Nat) : Int)) := by
    have := forList_sat (f := markPath t) (fun l (cnt : List Int) => cnt.length = g.length ∧
      ∀ x, ∑ y ∈ below x, cnt.getD y 0 =
        ((l.countP fun q => decide (¬ (Ancestor g root x q.1 ↔ Ancestor g root x q.2)) : Nat) : Int))
      qs [] (List.replicate g.length 0) ⟨by simp, fun x => ?_⟩ ?_
    · simpa using this
    · rw [List.countP_nil]
      refine Finset.sum_eq_zero fun y _ => ?_
      rw [List.getD_eq_getElem?_getD, List.getElem?_replicate]; split <;> rfl
    · rintro p q r cnt hp ⟨i1, i2⟩
      obtain ⟨h1, h2⟩ := hq q (by
        have : q ∈ [] ++ qs := by rw [hp]; simp
        simpa using this)
      obtain ⟨l, hl, hL⟩ := hlca q.1 q.2 h1 h2
      have hl' := (anc_lt T hr hL.1).1
      obtain ⟨c1, e1, l1, s1⟩ := addAt_sat (d := 1) (i1.symm ▸ h1)
      obtain ⟨c2, e2, l2, s2⟩ := addAt_sat (d := 1) (cnt := c1) (u := q.2) (by omega)
      obtain ⟨c3, e3, l3, s3⟩ := addAt_sat (d := -2) (cnt := c2) (u := l) (by omega)
      rw [markPath, e1, ok_bind, e2, ok_bind, hl, ok_bind, e3, sat_ok]
      refine ⟨by omega, fun x => ?_⟩
      have hw := hW x q l h1 h2 hL
      simp only [W] at hw
      rw [s3, s2, s1, i2, List.countP_append, List.countP_singleton]
      by_cases hc : (Ancestor g root x q.1 ↔ Ancestor g root x q.2)
      · rw [if_pos hc] at hw
        have hd : (if (decide ¬ (Ancestor g root x q.1 ↔ Ancestor g root x q.2)) = true then 1 else 0) = 0 :=
          if_neg (by simpa using hc)
        rw [hd, Nat.add_zero]
        linarith
      · rw [if_neg hc] at hw
        have hd : (if (decide ¬ (Ancestor g root x q.1 ↔ Ancestor g root x q.2)) = true then 1 else 0) = 1 :=
          if_pos (by simpa using hc)
        rw [hd]
        push_cast
        linarith
  obtain ⟨cnt, ec, c1, c2⟩ := marks
  have hbelow : ∀ x < g.length, belowSum t g.length cnt x = ok (∑ y ∈ below x, cnt.getD y 0) := by
    intro x hx
    have : Sat (belowSum t g.length cnt x) (fun s => s = ∑ y ∈ below x, cnt.getD y 0) := by
      refine forRange_sat (fun k s => s = ∑ y ∈ (Finset.range k).filter (fun y => Ancestor g root x y), cnt.getD y 0)
        (Nat.zero_le _) (by simp) ?_
      rintro y s - hy rfl
      obtain ⟨b, eb, hb⟩ := hanc x y hx hy
      rw [eb, ok_bind, Finset.range_add_one, Finset.filter_insert]
      by_cases h : Ancestor g root x y
      · rw [if_pos (hb.2 h), if_pos h, idx_of_lt (by omega), ok_bind, sat_ok, Finset.sum_insert (by simp), add_comm,
          List.getD_eq_getElem?_getD, List.getElem?_eq_getElem (by omega : y < cnt.length)]
        rfl
      · rw [if_neg (fun hh => h (hb.1 hh)), if_neg h, sat_ok]
    obtain ⟨s, es, rfl⟩ := this
    exact es
  have last : Sat (forRange 0 g.length [] fun x out => do
      let s ← belowSum t g.length cnt x
      ok (out ++ [s])) (fun out => out = (List.range g.length).map fun x => ∑ y ∈ below x, cnt.getD y 0) := by
    refine forRange_sat (fun k out => out = (List.range k).map fun x => ∑ y ∈ below x, cnt.getD y 0) (Nat.zero_le _) rfl ?_
    rintro x out - hx rfl
    rw [hbelow x hx, ok_bind, sat_ok, List.range_succ, List.map_append]
    rfl
  obtain ⟨out, eo, ho⟩ := last
  have hget : ∀ x < g.length, out[x]? = some (∑ y ∈ below x, cnt.getD y 0) := by
    intro x hx
    rw [ho, List.getElem?_map, List.getElem?_range hx]; rfl
  refine ⟨out, ?_, by rw [ho]; simp, ?_, ?_⟩
  · rw [edgeUses, e, ok_bind, ec, ok_bind]; exact eo
  · rw [hget root hr, c2]
    congr 2
    rw [List.countP_eq_zero]
    intro q hqq
    obtain ⟨h1, h2⟩ := hq q hqq
    simp [anc_root T hr h1, anc_root T hr h2]
  · intro A a x hx
    have hxl := hx.lt T hr x (by simp)
    rw [hget x hxl, c2]
    congr 2
    refine List.countP_congr fun q hqq => ?_
    obtain ⟨h1, h2⟩ := hq q hqq
    simp only [decide_eq_true_eq]
    exact (uses_iff T hr hx h1 h2).symm

/-- Three paths in the tree of the other examples: `2` to `5`, `4` to `5` and from `1` to itself. -/
example : edgeUses treeExample 0 [(2, 5), (4, 5), (1, 1)] = ok [0, 1, 1, 1, 1, 2] := by decide +kernel

/-! ### The vertex some edges up, and the vertices of a path -/

/-- `for i in 0..level { if k >> i & 1 == 1 { v = pa[v][i] } }`, with the tables of /repo/src/graph/binary_lifting.rs:4-8. -/
def jumpUp (t : BinaryLifting) (v k : Nat) : Res Nat :=
  forRange 0 t.level v fun i v =>
    if k.testBit i then do
      let row ← idx t.pa v
      idx row i
    else ok v

/-- **C122, the vertex some edges up.** The tables give for every vertex `v` and every `k < n` the vertex `k` edges up on the way
to the root (the root if the way is shorter). -/
theorem C122_jump (T : IsTree g) (hr : root < g.length) (hn : g.length < 2 ^ 64) :
    ∃ t, BinaryLifting.from g root = .ok t ∧ ∀ v p k, IsPath g root v p → k < g.length →
      ∃ a, jumpUp t v k = ok a ∧ p[p.length - 1 - k]? = some a := by
  obtain ⟨t, e, ht⟩ := C17_tables T hr hn
  obtain ⟨t', e', hrep⟩ := from_sat T hr hn
  rw [e] at e'
  cases e'
  refine ⟨t, e, fun v p k hp hk => ?_⟩
  have hpos : 0 < p.length := List.length_pos_iff.2 hp.ne_nil
  have main : Sat (jumpUp t v k) (fun a => p[p.length - 1 - k % 2 ^ t.level]? = some a) := by
    refine forRange_sat (fun i a => p[p.length - 1 - k % 2 ^ i]? = some a) (Nat.zero_le _) ?_ ?_
    · have := hp.last
      rw [List.getLast?_eq_getElem?] at this
      simpa [Nat.mod_one] using this
    · rintro i a - hi ha
      have hmod : k % 2 ^ (i + 1) = k % 2 ^ i + if k.testBit i then 2 ^ i else 0 := by
        rw [Nat.mod_pow_succ, Nat.testBit_eq_decide_div_mod_eq]
        rcases Nat.mod_two_eq_zero_or_one (k / 2 ^ i) with h | h <;> simp [h]
      by_cases hb : k.testBit i
      · rw [if_pos hb] at hmod
        rw [if_pos hb]
        obtain ⟨hj, hja⟩ := List.getElem?_eq_some_iff.1 ha
        have hsplit : p = p.take (p.length - 1 - k % 2 ^ i) ++ a :: p.drop (p.length - 1 - k % 2 ^ i + 1) := by
          rw [← hja, List.getElem_cons_drop, List.take_append_drop]
        have hpa : IsPath g root a (p.take (p.length - 1 - k % 2 ^ i) ++ [a]) := by
          rw [hsplit] at hp
          exact hp.take
        obtain ⟨-, row, h1, h2, h3⟩ := ht a _ hpa
        obtain ⟨b, hb1, hb2⟩ := h3 i hi
        obtain ⟨ha', hrow⟩ := List.getElem?_eq_some_iff.1 h1
        obtain ⟨hi', hbi⟩ := List.getElem?_eq_some_iff.1 hb1
        rw [idx_of_lt ha', ok_bind, hrow, idx_of_lt hi', sat_ok, hbi, hmod, ← hb2]
        have hlen : (p.take (p.length - 1 - k % 2 ^ i)).length = p.length - 1 - k % 2 ^ i := by
          rw [List.length_take]; omega
        rw [List.length_append, hlen, List.length_singleton, Nat.add_sub_cancel, ← Nat.sub_sub]
        generalize hm : p.length - 1 - k % 2 ^ i = m at *
        have h2i := Nat.two_pow_pos i
        rcases Nat.eq_zero_or_pos m with h0 | h0
        · subst h0
          simpa using ha
        · rw [List.getElem?_append_left (by omega), List.getElem?_take_of_lt (by omega)]
      · rw [if_neg hb, sat_ok, hmod, if_neg hb]
        exact ha
  obtain ⟨a, ea, ha⟩ := main
  rw [Nat.mod_eq_of_lt (hk.trans hrep.level)] at ha
  exact ⟨a, ea, ha⟩

example : (do let t ← BinaryLifting.from treeExample 0; jumpUp t 5 2) = .ok 1 := by decide +kernel
example : (do let t ← BinaryLifting.from treeExample 4; jumpUp t 2 3) = .ok 3 := by decide +kernel

/-- The vertex `k` edges along the path from `u` to `v`: up from `u` if that is before the answer of `lca`, otherwise up from `v`. -/
def alongPath (t : BinaryLifting) (u v k : Nat) : Res Nat := do
  let l ← t.lca u v
  let du ← idx t.dep u
  let dl ← idx t.dep l
  if k ≤ du - dl then jumpUp t u k
  else do
    let d ← t.dis u v
    jumpUp t v (d - k)

/-- **C122, the vertices of a path.** The program that goes up from one of the two ends returns, for every `k`, the vertex `k`
edges along the path from `u` to `v`. -/
theorem C122_along (T : IsTree g) (hr : root < g.length) (hn : g.length < 2 ^ 63) :
    ∃ t, BinaryLifting.from g root = .ok t ∧ ∀ u v p k, u < g.length → IsPath g u v p → k < p.length →
      ∃ a, alongPath t u v k = ok a ∧ p[k]? = some a := by
  obtain ⟨t, e, hj⟩ := C122_jump T hr (by omega)
  obtain ⟨t1, e1, hlca⟩ := C17_lca T hr (by omega : g.length < 2 ^ 64)
  obtain ⟨t2, e2, hdis⟩ := C17_dis T hr hn
  obtain ⟨t3, e3, htab⟩ := C17_tables T hr (by omega : g.length < 2 ^ 64)
  rw [e] at e1 e2 e3
  cases e1; cases e2; cases e3
  refine ⟨t, e, fun u v p k hu hp hk => ?_⟩
  have hv : v < g.length := hp.lt T hu v (List.mem_of_getLast? hp.last)
  have hkn : k < g.length := lt_of_lt_of_le hk (hp.length_le T hu)
  obtain ⟨l, el, hl⟩ := hlca u v hu hv
  obtain ⟨d, ed, hd⟩ := hdis u v hu hv
  have hll := (anc_lt T hr hl.1).1
  have hvia := path_via T hr hu hv hl
  have hpe := hp.eq T hvia hu
  have hu1 := rpath_path T hr hu
  have hv1 := rpath_path T hr hv
  have hl1 := rpath_path T hr hll
  have du := (htab u _ hu1).1
  have dl := (htab l _ hl1).1
  obtain ⟨hdu, hdu'⟩ := List.getElem?_eq_some_iff.1 du
  obtain ⟨hdl, hdl'⟩ := List.getElem?_eq_some_iff.1 dl
  have hlu := ((anc_iff T hr hll hu).1 hl.1).length_le
  have hlv := ((anc_iff T hr hll hv).1 hl.2.1).length_le
  have hlpos := rpath_pos T hr hll
  have hdp : d = p.length - 1 := dist_unique hd (dist_of_path T hr hp hu)
  rw [alongPath, el, ok_bind, idx_of_lt hdu, ok_bind, idx_of_lt hdl, ok_bind, hdu', hdl']
  have hlen := congrArg List.length hpe
  simp only [List.length_append, List.length_reverse, List.length_drop] at hlen
  by_cases hc : k ≤ (rpath g root u).length - 1 - ((rpath g root l).length - 1)
  · rw [if_pos hc]
    obtain ⟨a, ea, ha⟩ := hj u _ k hu1 hkn
    refine ⟨a, ea, ?_⟩
    rw [hpe, List.getElem?_append_left (by simp only [List.length_reverse, List.length_drop]; omega),
      List.getElem?_reverse (by simp only [List.length_drop]; omega), List.getElem?_drop, ← ha]
    congr 1
    simp only [List.length_drop]
    omega
  · rw [if_neg hc, ed, ok_bind]
    obtain ⟨a, ea, ha⟩ := hj v _ (d - k) hv1 (by have := hp.length_le T hu; omega)
    refine ⟨a, ea, ?_⟩
    rw [hpe, List.getElem?_append_right (by simp only [List.length_reverse, List.length_drop]; omega),
      List.getElem?_drop, ← ha]
    congr 1
    simp only [List.length_reverse, List.length_drop]
    omega

/-- The path `2, 0, 1, 3, 5` of the example, from above and from below the lowest common ancestor. -/
example : (do let t ← BinaryLifting.from treeExample 0; alongPath t 2 5 1) = .ok 0 ∧
    (do let t ← BinaryLifting.from treeExample 0; alongPath t 2 5 3) = .ok 3 := by decide +kernel

end Verif.Props
