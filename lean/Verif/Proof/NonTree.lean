import Verif.Spec.TreeAny
import Verif.Proof.TreeAnc
import Mathlib.Algebra.BigOperators.Group.Finset.Basic
import Mathlib.Algebra.Order.BigOperators.Group.Finset
/-! Walks that do not turn round, cycles, and trees. -/
namespace Verif.TreeP
open Spec

variable {g : List (List Nat)} {root : Nat}

theorem nrw_mono {k p u : Nat} (h : NoReturnWalk g (k + 1) p u) : NoReturnWalk g k p u := by
  induction k generalizing p u with
  | zero => trivial
  | succ k ih =>
    obtain ⟨v, hv, hne, h⟩ := h
    exact ⟨v, hv, hne, ih h⟩

theorem nrw_le {k j p u : Nat} (hj : j ≤ k) (h : NoReturnWalk g k p u) : NoReturnWalk g j p u := by
  induction k with
  | zero => rw [Nat.le_zero.1 hj]; trivial
  | succ k ih =>
    rcases Nat.lt_or_eq_of_le hj with h1 | rfl
    · exact ih (by omega) (nrw_mono h)
    · exact h

/-- Consecutive vertices at distance two differ. -/
def NB : List Nat → Prop
  | a :: b :: c :: l => a ≠ c ∧ NB (b :: c :: l)
  | _ => True

theorem nb_tail {a : Nat} {l : List Nat} (h : NB (a :: l)) : NB l := by
  match l, h with
  | [], _ => trivial
  | [_], _ => trivial
  | _ :: _ :: _, h => exact h.2

theorem nb_of_nodup {l : List Nat} (h : l.Nodup) : NB l := by
  induction l with
  | nil => trivial
  | cons a l ih =>
    have h2 := ih (List.nodup_cons.1 h).2
    match l, h, h2 with
    | [], _, _ => trivial
    | [_], _, _ => trivial
    | b :: c :: l, h, h2 =>
      refine ⟨?_, h2⟩
      rintro rfl
      simp at h

theorem nb_append {A B : List Nat} {b a : Nat} (h1 : NB (A ++ [b, a])) (h2 : NB (b :: a :: B)) :
    NB (A ++ b :: a :: B) := by
  induction A with
  | nil => exact h2
  | cons x A ih =>
    have h3 := ih (nb_tail h1)
    match A, h1, h3 with
    | [], h1, h3 => exact ⟨h1.1, h3⟩
    | [y], h1, h3 => exact ⟨h1.1, h3⟩
    | y :: z :: A, h1, h3 => exact ⟨h1.1, h3⟩

/-- A walk that does not turn round and meets a vertex twice runs through a cycle. -/
theorem cycle_of_nb (hir : ∀ u, u ∉ g.getD u []) {l : List Nat}
    (hc : l.IsChain (fun a b => b ∈ g.getD a [])) (hb : NB l) (hn : ¬ l.Nodup) :
    ∃ c, IsCycle g c ∧ ∀ x ∈ c, x ∈ l := by
  induction l with
  | nil => simp at hn
  | cons a l ih =>
    by_cases hl : l.Nodup
    · have ha : a ∈ l := by
        by_contra h
        exact hn (List.nodup_cons.2 ⟨h, hl⟩)
      obtain ⟨A, B, rfl⟩ := List.append_of_mem ha
      have hA : a ∉ A := fun hs => (List.nodup_append.1 hl).2.2 a hs a (by simp) rfl
      refine ⟨a :: A, ⟨?_, ?_, ?_, ?_⟩, ?_⟩
      · match A, hc, hb with
        | [], hc, _ =>
          simp only [List.nil_append, List.isChain_cons_cons] at hc
          exact absurd hc.1 (hir a)
        | [x], _, hb => exact absurd rfl hb.1
        | _ :: _ :: _, _, _ => simp
      · exact List.nodup_cons.2 ⟨hA, (List.nodup_append.1 hl).1⟩
      · have : (a :: A ++ a :: B).IsChain (fun a b => b ∈ g.getD a []) := by simpa using hc
        exact this.left_of_append
      · intro x y hx hy
        simp only [List.head?_cons, Option.some.injEq] at hx
        subst hx
        rw [List.getLast?_eq_some_iff] at hy
        obtain ⟨ys, hy⟩ := hy
        have : (a :: A ++ a :: B).IsChain (fun a b => b ∈ g.getD a []) := by simpa using hc
        rw [hy, List.append_assoc] at this
        have := this.right_of_append
        simp only [List.singleton_append, List.isChain_cons_cons] at this
        exact this.1
      · intro x hx
        simp only [List.mem_cons, List.mem_append] at hx ⊢
        tauto
    · obtain ⟨c, h1, h2⟩ := ih (by
        cases l with
        | nil => simp
        | cons b l => exact (List.isChain_cons_cons.1 hc).2) (nb_tail hb) hl
      exact ⟨c, h1, fun x hx => List.mem_cons_of_mem _ (h2 x hx)⟩

theorem nrw_list {k p u : Nat} (h : NoReturnWalk g k p u) :
    ∃ l, l.length = k ∧ (u :: l).IsChain (fun a b => b ∈ g.getD a []) ∧ NB (u :: l) ∧
      ∀ v, l.head? = some v → v ≠ p := by
  induction k generalizing p u with
  | zero => exact ⟨[], rfl, by simp, trivial, by simp⟩
  | succ k ih =>
    obtain ⟨v, hv, hne, h⟩ := h
    obtain ⟨l, h1, h2, h3, h4⟩ := ih h
    refine ⟨v :: l, by simp [h1], List.isChain_cons_cons.2 ⟨hv, h2⟩, ?_, by rintro w ⟨⟩; exact hne⟩
    match l, h3, h4 with
    | [], _, _ => trivial
    | w :: l, h3, h4 => exact ⟨(h4 w rfl).symm, h3⟩

theorem chain_conn {l : List Nat} {u : Nat} (h : (u :: l).IsChain (fun a b => b ∈ g.getD a [])) :
    ∀ x ∈ u :: l, Connected g u x := by
  intro x hx
  obtain ⟨s, t, e⟩ := List.append_of_mem hx
  refine ⟨s ++ [x], ?_, by simp, ?_⟩
  · cases s with
    | nil => simp at e; simp [e.1]
    | cons a s => simp at e; simp [e.1]
  · rw [e, show s ++ x :: t = (s ++ [x]) ++ t by simp] at h
    exact h.left_of_append

theorem conn_trans {u v w : Nat} (h1 : Connected g u v) (h2 : Connected g v w) : Connected g u w := by
  obtain ⟨p, a1, a2, a3⟩ := h1
  obtain ⟨q, b1, b2, b3⟩ := h2
  obtain ⟨p', rfl⟩ := List.getLast?_eq_some_iff.1 a2
  obtain ⟨q', rfl⟩ := List.head?_eq_some_iff.1 b1
  refine ⟨p' ++ v :: q', ?_, ?_, ?_⟩
  · cases p' <;> simpa using a1
  · rw [List.getLast?_append]; rw [b2]; rfl
  · rw [List.isChain_append] at a3 ⊢
    refine ⟨a3.1, b3, ?_⟩
    intro x hx y hy
    simp only [List.head?_cons, Option.mem_def, Option.some.injEq] at hy
    exact a3.2.2 x hx y (by simpa using hy)

theorem conn_refl (u : Nat) : Connected g u u := ⟨[u], rfl, rfl, by simp⟩

theorem conn_step {u v w : Nat} (h : Connected g u v) (hw : w ∈ g.getD v []) : Connected g u w :=
  conn_trans h ⟨[v, w], rfl, rfl, by simpa using hw⟩

/-- Induction along a walk. -/
theorem conn_induct {u : Nat} {P : Nat → Prop} (h0 : P u) (hs : ∀ x y, P x → y ∈ g.getD x [] → P y) {v : Nat}
    (h : Connected g u v) : P v := by
  obtain ⟨w, h1, h2, h3⟩ := h
  induction w generalizing u with
  | nil => simp at h1
  | cons a w ih =>
    simp only [List.head?_cons, Option.some.injEq] at h1
    subst h1
    cases w with
    | nil => simp at h2; rwa [← h2]
    | cons b w =>
      rw [List.isChain_cons_cons] at h3
      exact ih (hs _ _ h0 h3.1) rfl (by simpa using h2) h3.2

theorem conn_symm (hsy : ∀ u v, v ∈ g.getD u [] → u ∈ g.getD v []) {u v : Nat} (h : Connected g u v) :
    Connected g v u :=
  conn_induct (P := fun x => Connected g x u) (conn_refl u)
    (fun x y hx hy => conn_trans ⟨[y, x], rfl, rfl, by simpa using hsy _ _ hy⟩ hx) h

theorem conn_lt (hin : ∀ u v, v ∈ g.getD u [] → v < g.length) {u v : Nat} (hu : u < g.length)
    (h : Connected g u v) : v < g.length :=
  conn_induct (P := (· < g.length)) hu (fun x y _ hy => hin x y hy) h

/-- Long walks that do not turn round run through a cycle. -/
theorem cycle_of_long (S : IsSimpleGraph g) {p u : Nat} (hu : u < g.length)
    (h : NoReturnWalk g g.length p u) : HasCycleAt g u := by
  obtain ⟨l, h1, h2, h3, -⟩ := nrw_list h
  have hlt : ∀ x ∈ u :: l, x < g.length := fun x hx => conn_lt S.inRange hu (chain_conn h2 x hx)
  have hn : ¬ (u :: l).Nodup := by
    intro hn
    have h4 : (u :: l).toFinset ⊆ Finset.range g.length := by
      intro x hx
      exact Finset.mem_range.2 (hlt x (List.mem_toFinset.1 hx))
    have := Finset.card_le_card h4
    rw [List.toFinset_card_of_nodup hn, Finset.card_range] at this
    simp at this
    omega
  obtain ⟨c, hc, hcl⟩ := cycle_of_nb S.irrefl h2 h3 hn
  obtain ⟨x, c', rfl⟩ := List.exists_cons_of_length_pos (l := c) (by have := hc.len; omega)
  exact ⟨_, x, hc, by simp, chain_conn h2 x (hcl x (by simp))⟩

theorem cycle_rotate {a : Nat} {l : List Nat} (h : IsCycle g (a :: l)) : IsCycle g (l ++ [a]) := by
  obtain ⟨h1, h2, h3, h4⟩ := h
  have hl : l ≠ [] := by rintro rfl; simp at h1
  refine ⟨by simpa using h1, ?_, ?_, ?_⟩
  · rw [List.nodup_append]
    refine ⟨(List.nodup_cons.1 h2).2, by simp, ?_⟩
    intro x hx y hy
    simp at hy
    subst hy
    rintro rfl
    exact (List.nodup_cons.1 h2).1 hx
  · rw [List.isChain_append]
    refine ⟨?_, by simp, ?_⟩
    · cases l with
      | nil => simp
      | cons b l => exact (List.isChain_cons_cons.1 h3).2
    · intro x hx y hy
      simp at hy
      subst hy
      refine h4 _ x rfl ?_
      rw [List.getLast?_cons]
      rw [hx]; rfl
  · intro x y hx hy
    simp at hy
    subst hy
    cases l with
    | nil => exact absurd rfl hl
    | cons b l =>
      simp at hx
      subst hx
      exact (List.isChain_cons_cons.1 h3).1

/-- One can run along a cycle forever. -/
theorem nrw_cycle {k a b : Nat} {l : List Nat} (h : IsCycle g (a :: b :: l)) : NoReturnWalk g k a b := by
  induction k generalizing a b l with
  | zero => trivial
  | succ k ih =>
    cases l with
    | nil => have := h.len; simp at this
    | cons d l =>
      refine ⟨d, ?_, ?_, ih (l := l ++ [a]) (cycle_rotate h)⟩
      · have := h.chain
        rw [List.isChain_cons_cons, List.isChain_cons_cons] at this
        exact this.2.1
      · rintro rfl
        have := h.nodup
        simp at this

/-- From everywhere in a component with a cycle there are arbitrarily long walks that do not turn round. -/
theorem nrw_of_cycle (S : IsSimpleGraph g) {u : Nat} (h : HasCycleAt g u) (k : Nat) : NoReturnWalk g k u u := by
  obtain ⟨c, x, hc, hx, hux⟩ := h
  have key : ∀ k, ∃ v ∈ g.getD u [], NoReturnWalk g k u v := by
    refine conn_induct (P := fun y => ∀ k, ∃ v ∈ g.getD y [], NoReturnWalk g k y v) (u := x) ?_ ?_
      (conn_symm S.symm hux)
    · intro k
      -- rotate `x` to the front
      obtain ⟨s, t, rfl⟩ := List.append_of_mem hx
      have hrot : ∀ (s t : List Nat), IsCycle g (s ++ t) → IsCycle g (t ++ s) := by
        intro s
        induction s with
        | nil => intro t h; simpa using h
        | cons a s ih =>
          intro t h
          have := ih (t ++ [a]) (by have := cycle_rotate h; simpa using this)
          simpa using this
      have h1 := hrot s (x :: t) hc
      rw [List.cons_append] at h1
      generalize t ++ s = l at h1
      cases l with
      | nil => have := h1.len; simp at this
      | cons b l =>
        exact ⟨b, (List.isChain_cons_cons.1 h1.chain).1, nrw_cycle h1⟩
    · intro y z hy hz k
      obtain ⟨v, hv, h⟩ := hy (k + 1)
      by_cases hvz : v = z
      · subst hvz
        obtain ⟨v', h1, -, h3⟩ := h
        exact ⟨v', h1, h3⟩
      · exact ⟨y, S.symm _ _ hz, nrw_le (Nat.le_add_right k 2) ⟨v, hv, hvz, h⟩⟩
  cases k with
  | zero => trivial
  | succ k =>
    obtain ⟨v, hv, h⟩ := key k
    exact ⟨v, hv, fun e => S.irrefl u (e ▸ hv), h⟩

/-- Two different simple paths close a cycle. -/
theorem path_unique (S : IsSimpleGraph g) {u v : Nat} {p q : List Nat} (hno : ¬ HasCycleAt g u)
    (hp : IsPath g u v p) (hq : IsPath g u v q) : p = q := by
  induction p generalizing u q with
  | nil => simpa using hp.head
  | cons a p ih =>
    obtain ⟨p1, p2, p3, p4⟩ := hp
    simp only [List.head?_cons, Option.some.injEq] at p1
    subst p1
    obtain ⟨q1, q2, q3, q4⟩ := hq
    obtain ⟨q, rfl⟩ := List.head?_eq_some_iff.1 q1
    cases p with
    | nil =>
      simp at p2
      subst p2
      cases q with
      | nil => rfl
      | cons c q =>
        rw [List.getLast?_cons_cons] at q2
        exact absurd (List.mem_of_getLast? q2) (List.nodup_cons.1 q4).1
    | cons b p =>
      cases q with
      | nil =>
        simp at q2
        subst q2
        rw [List.getLast?_cons_cons] at p2
        exact absurd (List.mem_of_getLast? p2) (List.nodup_cons.1 p4).1
      | cons c q =>
        have hb := (List.isChain_cons_cons.1 p3).1
        by_cases hbc : b = c
        · subst hbc
          have := ih (u := b) (q := b :: q) (fun ⟨cc, x, h1, h2, h3⟩ =>
              hno ⟨cc, x, h1, h2, conn_trans (conn_step (conn_refl _) hb) h3⟩)
            ⟨rfl, by rwa [List.getLast?_cons_cons] at p2, (List.isChain_cons_cons.1 p3).2, (List.nodup_cons.1 p4).2⟩
            ⟨rfl, by rwa [List.getLast?_cons_cons] at q2, (List.isChain_cons_cons.1 q3).2, (List.nodup_cons.1 q4).2⟩
          rw [this]
        · exfalso
          have hrev : (a :: b :: p).reverse.IsChain (fun a b => b ∈ g.getD a []) := by
            rw [List.isChain_reverse]
            exact p3.imp fun x y h => S.symm _ _ h
          have e : (a :: b :: p).reverse = p.reverse ++ [b, a] := by simp
          have hch : (p.reverse ++ b :: a :: c :: q).IsChain (fun a b => b ∈ g.getD a []) := by
            rw [e] at hrev
            have h1 : (p.reverse ++ [b, a] ++ c :: q).IsChain (fun a b => b ∈ g.getD a []) := by
              rw [List.isChain_append]
              refine ⟨hrev, (List.isChain_cons_cons.1 q3).2, ?_⟩
              intro x hx y hy
              simp at hx hy
              subst hx hy
              exact (List.isChain_cons_cons.1 q3).1
            simpa using h1
          have hnb : NB (p.reverse ++ b :: a :: c :: q) := by
            refine nb_append ?_ ⟨hbc, nb_of_nodup q4⟩
            rw [← e]
            exact nb_of_nodup (List.nodup_reverse.2 p4)
          have hv1 : v ∈ p.reverse ++ [b] := by
            rw [List.getLast?_cons_cons] at p2
            have := List.mem_of_getLast? p2
            simp at this ⊢
            tauto
          have hv2 : v ∈ c :: q := by
            rw [List.getLast?_cons_cons] at q2
            exact List.mem_of_getLast? q2
          have hnn : ¬ (p.reverse ++ b :: a :: c :: q).Nodup := by
            intro hn
            rw [show p.reverse ++ b :: a :: c :: q = (p.reverse ++ [b]) ++ a :: c :: q by simp] at hn
            exact (List.nodup_append.1 hn).2.2 v hv1 v (List.mem_cons_of_mem _ hv2) rfl
          obtain ⟨cc, h1, h2⟩ := cycle_of_nb S.irrefl hch hnb hnn
          obtain ⟨x, c', rfl⟩ := List.exists_cons_of_length_pos (l := cc) (by have := h1.len; omega)
          refine hno ⟨_, x, h1, by simp, ?_⟩
          have h3 := h2 x (by simp)
          simp only [List.mem_append, List.mem_reverse] at h3
          rcases h3 with h3 | h3
          · exact chain_conn p3 x (by simp [h3])
          · rcases List.mem_cons.1 h3 with rfl | h3
            · exact chain_conn p3 _ (by simp)
            · exact chain_conn q3 x h3

theorem hasCycle_conn {u v : Nat} (h : Connected g u v) (hc : HasCycleAt g v) : HasCycleAt g u := by
  obtain ⟨c, x, h1, h2, h3⟩ := hc
  exact ⟨c, x, h1, h2, conn_trans h h3⟩

/-- The usual description of trees. -/
theorem isTree_of_acyclic (S : IsSimpleGraph g) (hc : ∀ u v, u < g.length → v < g.length → Connected g u v)
    (hno : ∀ c, ¬ IsCycle g c) : IsTree g := by
  refine ⟨S.inRange, S.symm, S.irrefl, S.nodup, ?_⟩
  intro u v hu hv
  obtain ⟨w, hw⟩ := hc u v hu hv
  obtain ⟨p, hp, -⟩ := walk_to_path hw
  exact ⟨p, hp, fun q hq => path_unique S (fun ⟨c, _, h, _⟩ => hno c h) hq hp⟩

theorem simple_of_tree (T : IsTree g) : IsSimpleGraph g := ⟨T.inRange, T.symm, T.irrefl, T.nodup⟩

/-- A tree has no cycle. -/
theorem acyclic_of_tree (T : IsTree g) (c : List Nat) : ¬ IsCycle g c := by
  intro h
  obtain ⟨h1, h2, h3, h4⟩ := h
  match c, h1, h2, h3, h4 with
  | a :: b :: d :: l, _, h2, h3, h4 =>
    obtain ⟨z, hz⟩ : ∃ z, (a :: b :: d :: l).getLast? = some z := ⟨_, List.getLast?_eq_some_getLast (by simp)⟩
    have ha := h4 a z rfl hz
    have hza : z ≠ a := by
      rintro rfl
      rw [List.getLast?_cons_cons] at hz
      exact (List.nodup_cons.1 h2).1 (List.mem_of_getLast? hz)
    have hal : a < g.length := T.inRange _ _ ha
    have p1 : IsPath g a z (a :: b :: d :: l) := ⟨rfl, hz, h3, h2⟩
    have p2 : IsPath g a z [a, z] := ⟨rfl, rfl, by simpa using T.symm _ _ ha, by simp [hza.symm]⟩
    have := p1.eq T p2 hal
    simp at this

/-! ### Bounded and unbounded walks in any graph -/

open Classical in
/-- The directed edges with walks of `k` more edges beyond them. -/
noncomputable def edgesN (g : List (List Nat)) (k : Nat) : Finset (Nat × Nat) :=
  ((Finset.range g.length).biUnion fun u => (g.getD u []).toFinset.image fun v => (u, v)).filter
    fun e => NoReturnWalk g k e.1 e.2

theorem mem_edgesN {k u v : Nat} : (u, v) ∈ edgesN g k ↔ v ∈ g.getD u [] ∧ NoReturnWalk g k u v := by
  have hlt : v ∈ g.getD u [] → u < g.length := by
    intro hv
    by_contra hu
    rw [List.getD_eq_getElem?_getD, List.getElem?_eq_none (by omega)] at hv
    simp at hv
  unfold edgesN
  simp only [Finset.mem_filter, Finset.mem_biUnion, Finset.mem_range, Finset.mem_image, List.mem_toFinset,
    Prod.mk.injEq]
  constructor
  · rintro ⟨⟨a, ha, b, hb, rfl, rfl⟩, h⟩
    exact ⟨hb, h⟩
  · rintro ⟨h1, h2⟩
    exact ⟨⟨u, hlt h1, v, h1, rfl, rfl⟩, h2⟩

theorem edgesN_zero_card : (edgesN g 0).card ≤ (g.map List.length).sum := by
  classical
  unfold edgesN
  refine (Finset.card_filter_le _ _).trans (Finset.card_biUnion_le.trans ?_)
  have h1 : ∀ l : List (List Nat), ∑ u ∈ Finset.range l.length, (l.getD u []).length = (l.map List.length).sum := by
    intro l
    induction l with
    | nil => rfl
    | cons a l ih =>
      rw [List.length_cons, Finset.sum_range_succ']
      simp only [List.getD_cons_succ, List.getD_cons_zero, List.map_cons, List.sum_cons]
      rw [ih]; omega
  rw [← h1]
  refine Finset.sum_le_sum fun u _ => ?_
  exact Finset.card_image_le.trans (List.toFinset_card_le _)

theorem edgesN_anti {k : Nat} : edgesN g (k + 1) ⊆ edgesN g k := by
  rintro ⟨u, v⟩ h
  rw [mem_edgesN] at h ⊢
  exact ⟨h.1, nrw_mono h.2⟩

theorem edgesN_stable {k : Nat} (h : edgesN g (k + 1) = edgesN g k) (j : Nat) : edgesN g (k + j) = edgesN g k := by
  induction j with
  | zero => rfl
  | succ j ih =>
    rw [← h]
    ext ⟨u, v⟩
    rw [mem_edgesN, mem_edgesN, ← Nat.add_assoc]
    refine and_congr_right fun _ => ?_
    constructor
    · rintro ⟨w, h1, h2, h3⟩
      have : (v, w) ∈ edgesN g (k + j) := mem_edgesN.2 ⟨h1, h3⟩
      rw [ih] at this
      exact ⟨w, h1, h2, (mem_edgesN.1 this).2⟩
    · rintro ⟨w, h1, h2, h3⟩
      have : (v, w) ∈ edgesN g k := mem_edgesN.2 ⟨h1, h3⟩
      rw [← ih] at this
      exact ⟨w, h1, h2, (mem_edgesN.1 this).2⟩

/-- A walk that does not turn round and is longer than the number of directed edges can go on forever. -/
theorem nrw_unbounded {p u k : Nat} (hk : (g.map List.length).sum + 2 ≤ k) (h : NoReturnWalk g k p u) (j : Nat) :
    NoReturnWalk g j p u := by
  classical
  have hst : ∃ i ≤ (g.map List.length).sum, edgesN g (i + 1) = edgesN g i := by
    by_contra hc
    have h1 : ∀ i, i ≤ (g.map List.length).sum + 1 → (edgesN g i).card + i ≤ (g.map List.length).sum := by
      intro i
      induction i with
      | zero => intro _; exact edgesN_zero_card
      | succ i ih =>
        intro hi
        have h2 := ih (by omega)
        have h3 : edgesN g (i + 1) ⊂ edgesN g i :=
          Finset.ssubset_iff_subset_ne.2 ⟨edgesN_anti, fun e => hc ⟨i, by omega, e⟩⟩
        have := Finset.card_lt_card h3
        omega
    have := h1 _ (Nat.le_refl _)
    omega
  obtain ⟨i, hi, he⟩ := hst
  obtain ⟨v, h1, h2, h3⟩ := nrw_le hk h
  have h4 : (u, v) ∈ edgesN g i := mem_edgesN.2 ⟨h1, nrw_le (by omega) h3⟩
  rw [← edgesN_stable he j] at h4
  refine nrw_le (k := i + j + 1) (by omega) ⟨v, h1, h2, (mem_edgesN.1 h4).2⟩

end Verif.TreeP
