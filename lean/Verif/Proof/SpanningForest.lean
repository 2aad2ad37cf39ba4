import Verif.Proof.UnionFind
import Mathlib.Data.Finset.Card
import Mathlib.Algebra.BigOperators.Group.List.Basic
/-! Components of a list of pairs, greedy spanning forests, and their weight. -/
namespace Verif.SForest
open Spec UFP

variable {es A B : List (Nat × Nat)} {n x y : Nat}

theorem conn_snoc {u v : Nat} : Conn (es ++ [(x, y)]) u v ↔
    Conn es u v ∨ (Conn es u x ∧ Conn es y v) ∨ (Conn es u y ∧ Conn es x v) := by
  constructor
  · intro h
    induction h with
    | rel a b h =>
      rcases List.mem_append.1 h with h | h
      · exact .inl (.rel _ _ h)
      · rw [List.mem_singleton] at h
        cases h
        exact .inr (.inl ⟨.refl _, .refl _⟩)
    | refl a => exact .inl (.refl _)
    | symm a b _ ih =>
      rcases ih with h | ⟨h1, h2⟩ | ⟨h1, h2⟩
      · exact .inl (.symm _ _ h)
      · exact .inr (.inr ⟨.symm _ _ h2, .symm _ _ h1⟩)
      · exact .inr (.inl ⟨.symm _ _ h2, .symm _ _ h1⟩)
    | trans a b c _ _ ih1 ih2 =>
      have tr : ∀ {p q r : Nat}, Conn es p q → Conn es q r → Conn es p r := fun h1 h2 => .trans _ _ _ h1 h2
      rcases ih1 with h | ⟨h1, h2⟩ | ⟨h1, h2⟩ <;> rcases ih2 with k | ⟨k1, k2⟩ | ⟨k1, k2⟩
      · exact .inl (tr h k)
      · exact .inr (.inl ⟨tr h k1, k2⟩)
      · exact .inr (.inr ⟨tr h k1, k2⟩)
      · exact .inr (.inl ⟨h1, tr h2 k⟩)
      · exact .inr (.inl ⟨h1, k2⟩)
      · exact .inl (tr h1 k2)
      · exact .inr (.inr ⟨h1, tr h2 k⟩)
      · exact .inl (tr h1 k2)
      · exact .inr (.inr ⟨h1, k2⟩)
  · have hm : ∀ {p q : Nat}, Conn es p q → Conn (es ++ [(x, y)]) p q := fun h =>
      Conn.mono (fun _ hp => List.mem_append_left _ hp) h
    have he : Conn (es ++ [(x, y)]) x y := .rel _ _ (by simp)
    rintro (h | ⟨h1, h2⟩ | ⟨h1, h2⟩)
    · exact hm h
    · exact .trans _ _ _ (hm h1) (.trans _ _ _ he (hm h2))
    · exact .trans _ _ _ (hm h1) (.trans _ _ _ (.symm _ _ he) (hm h2))

theorem conn_of_edges (h : ∀ e ∈ A, Conn B e.1 e.2) {u v : Nat} (hc : Conn A u v) : Conn B u v := by
  induction hc with
  | rel a b hab => exact h _ hab
  | refl => exact .refl _
  | symm _ _ _ ih => exact .symm _ _ ih
  | trans _ _ _ _ _ ih1 ih2 => exact .trans _ _ _ ih1 ih2

open Classical in
/-- The least vertices of the components. -/
noncomputable def leasts (n : Nat) (es : List (Nat × Nat)) : Finset Nat :=
  (Finset.range n).filter fun v => ∀ u, u < v → ¬ Conn es u v

theorem mem_leasts {v : Nat} : v ∈ leasts n es ↔ v < n ∧ ∀ u, u < v → ¬ Conn es u v := by
  simp [leasts]

theorem leasts_mono (h : ∀ u v, Conn A u v → Conn B u v) : leasts n B ⊆ leasts n A := by
  intro v hv
  rw [mem_leasts] at hv ⊢
  exact ⟨hv.1, fun u hu hc => hv.2 u hu (h _ _ hc)⟩

/-- The least vertex connected to `v`. -/
theorem exists_least (es : List (Nat × Nat)) (v : Nat) : ∃ m, Conn es m v ∧ m ≤ v ∧ ∀ u, u < m → ¬ Conn es u v := by
  classical
  have hex : ∃ m, Conn es m v := ⟨v, .refl _⟩
  exact ⟨Nat.find hex, Nat.find_spec hex, Nat.find_min' hex (.refl _), fun u hu => Nat.find_min hex hu⟩

/-- One edge between two components joins them. -/
theorem leasts_snoc (hx : x < n) (hy : y < n) (h : ¬ Conn es x y) :
    (leasts n (es ++ [(x, y)])).card + 1 = (leasts n es).card := by
  have tr : ∀ {p q r : Nat}, Conn es p q → Conn es q r → Conn es p r := fun h1 h2 => .trans _ _ _ h1 h2
  have sy : ∀ {p q : Nat}, Conn es p q → Conn es q p := fun h1 => .symm _ _ h1
  obtain ⟨a, ha, hax, hal⟩ := exists_least es x
  obtain ⟨b, hb, hby, hbl⟩ := exists_least es y
  have hab : a ≠ b := by
    rintro rfl
    exact h (tr (sy ha) hb)
  have key : leasts n (es ++ [(x, y)]) = (leasts n es).erase (max a b) := by
    ext v
    rw [Finset.mem_erase, mem_leasts, mem_leasts]
    constructor
    · rintro ⟨hv, hl⟩
      refine ⟨?_, hv, fun u hu hc => hl u hu (conn_snoc.2 (.inl hc))⟩
      rintro rfl
      rcases Nat.lt_or_gt_of_ne hab with hlt | hlt
      · rw [Nat.max_eq_right (by omega)] at hl
        exact hl a hlt (conn_snoc.2 (.inr (.inl ⟨ha, sy hb⟩)))
      · rw [Nat.max_eq_left (by omega)] at hl
        exact hl b hlt (conn_snoc.2 (.inr (.inr ⟨hb, sy ha⟩)))
    · rintro ⟨hne, hv, hl⟩
      refine ⟨hv, fun u hu hc => ?_⟩
      rcases conn_snoc.1 hc with h1 | ⟨h1, h2⟩ | ⟨h1, h2⟩
      · exact hl u hu h1
      · have hvb : v = b := by
          rcases Nat.lt_trichotomy v b with hh | hh | hh
          · exact absurd (sy h2) (hbl v hh)
          · exact hh
          · exact absurd (tr hb h2) (hl b hh)
        have : a ≤ u := Nat.le_of_not_lt fun hh => hal u hh h1
        apply hne
        rw [Nat.max_eq_right (by omega), hvb]
      · have hva : v = a := by
          rcases Nat.lt_trichotomy v a with hh | hh | hh
          · exact absurd (sy h2) (hal v hh)
          · exact hh
          · exact absurd (tr ha h2) (hl a hh)
        have : b ≤ u := Nat.le_of_not_lt fun hh => hbl u hh h1
        apply hne
        rw [Nat.max_eq_left (by omega), hva]
  have hmem : max a b ∈ leasts n es := by
    rcases Nat.lt_or_gt_of_ne hab with hlt | hlt
    · rw [Nat.max_eq_right (by omega), mem_leasts]
      exact ⟨by omega, fun u hu hc => hbl u hu (tr hc hb)⟩
    · rw [Nat.max_eq_left (by omega), mem_leasts]
      exact ⟨by omega, fun u hu hc => hal u hu (tr hc ha)⟩
  rw [key, Finset.card_erase_of_mem hmem]
  have := Finset.card_pos.2 ⟨_, hmem⟩
  omega

theorem leasts_nil : leasts n [] = Finset.range n := by
  ext v
  rw [mem_leasts, Finset.mem_range]
  refine ⟨fun h => h.1, fun h => ⟨h, fun u hu hc => ?_⟩⟩
  have : ∀ {p q : Nat}, Conn [] p q → p = q := by
    intro p q hpq
    induction hpq with
    | rel _ _ h => cases h
    | refl => rfl
    | symm _ _ _ ih => exact ih.symm
    | trans _ _ _ _ _ h1 h2 => exact h1.trans h2
  have := this hc
  omega

/-- Every edge lies between two components of the edges before it. -/
inductive Indep : List (Nat × Nat) → Prop where
  | nil : Indep []
  | snoc {l : List (Nat × Nat)} {a b : Nat} : Indep l → ¬ Conn l a b → Indep (l ++ [(a, b)])

theorem Indep.card (h : Indep A) (hr : ∀ e ∈ A, e.1 < n ∧ e.2 < n) : (leasts n A).card + A.length = n := by
  induction h with
  | nil => simp [leasts_nil]
  | @snoc es x y _ hc ih =>
    have := ih fun e he => hr e (by simp [he])
    have h2 := hr (x, y) (by simp)
    have := leasts_snoc (x := x) (y := y) h2.1 h2.2 hc
    rw [List.length_append, List.length_singleton]
    omega

theorem card_ge (hr : ∀ e ∈ B, e.1 < n ∧ e.2 < n) : n ≤ (leasts n B).card + B.length := by
  induction B using List.reverseRecOn with
  | nil => simp [leasts_nil]
  | append_singleton B e ih =>
    have := ih fun e he => hr e (by simp [he])
    have h2 := hr e (by simp)
    rw [List.length_append, List.length_singleton]
    obtain ⟨x, y⟩ := e
    by_cases hc : Conn B x y
    · have : leasts n B ⊆ leasts n (B ++ [(x, y)]) := leasts_mono fun u v h => by
        refine conn_of_edges (fun e he => ?_) h
        rcases List.mem_append.1 he with he | he
        · exact .rel _ _ he
        · rw [List.mem_singleton] at he
          subst he
          exact hc
      have := Finset.card_le_card this
      omega
    · have := leasts_snoc (x := x) (y := y) h2.1 h2.2 hc
      omega

/-- Independent edges are no more than edges that connect all they connect. -/
theorem Indep.length_le (h : Indep A) (hA : ∀ e ∈ A, e.1 < n ∧ e.2 < n) (hB : ∀ e ∈ B, e.1 < n ∧ e.2 < n)
    (hc : ∀ e ∈ A, Conn B e.1 e.2) : A.length ≤ B.length := by
  have h1 := h.card hA
  have h2 := card_ge hB
  have h3 := Finset.card_le_card (leasts_mono (n := n) fun u v (h : Conn A u v) => conn_of_edges hc h)
  omega

/-! ### The greedy choice -/

/-- The ends of weighted edges. -/
abbrev endsOf (es : List (Nat × Nat × Nat)) : List (Nat × Nat) := es.map fun e => (e.1, e.2.1)

/-- The edges kept when each is kept if its ends are not connected by the earlier ones. -/
inductive Greedy : List (Nat × Nat × Nat) → List (Nat × Nat × Nat) → Prop where
  | nil : Greedy [] []
  | skip {d k e} : Greedy d k → Conn (endsOf d) e.1 e.2.1 → Greedy (d ++ [e]) k
  | take {d k e} : Greedy d k → ¬ Conn (endsOf d) e.1 e.2.1 → Greedy (d ++ [e]) (k ++ [e])

variable {d k : List (Nat × Nat × Nat)}

theorem Greedy.sublist (h : Greedy d k) : k.Sublist d := by
  induction h with
  | nil => exact List.Sublist.refl _
  | skip _ _ ih => exact ih.trans (List.sublist_append_left _ _)
  | take _ _ ih => exact ih.append (List.Sublist.refl _)

theorem Greedy.conn (h : Greedy d k) (u v : Nat) : Conn (endsOf d) u v ↔ Conn (endsOf k) u v := by
  refine ⟨fun hc => conn_of_edges ?_ hc, Conn.mono fun p hp => (h.sublist.map _).subset hp⟩
  clear hc
  induction h with
  | nil => simp
  | @skip d k e _ hc ih =>
    intro p hp
    rw [endsOf, List.map_append, List.mem_append] at hp
    rcases hp with hp | hp
    · exact ih p hp
    · rw [List.map_singleton, List.mem_singleton] at hp
      subst hp
      exact conn_of_edges ih hc
  | @take d k e _ hc ih =>
    intro p hp
    rw [endsOf, List.map_append, List.mem_append] at hp
    rcases hp with hp | hp
    · exact Conn.mono (fun q hq => by rw [endsOf, List.map_append]; exact List.mem_append_left _ hq) (ih p hp)
    · rw [List.map_singleton, List.mem_singleton] at hp
      subst hp
      exact .rel _ _ (by simp)

theorem Greedy.indep (h : Greedy d k) : Indep (endsOf k) := by
  induction h with
  | nil => exact .nil
  | skip _ _ ih => exact ih
  | take h hc ih =>
    rw [endsOf, List.map_append]
    exact .snoc ih fun hk => hc ((h.conn _ _).2 hk)

theorem Greedy.split {d' : List (Nat × Nat × Nat)} (h : Greedy (d ++ d') k) :
    ∃ k1 k2, k = k1 ++ k2 ∧ Greedy d k1 ∧ k2.Sublist d' := by
  induction d' using List.reverseRecOn generalizing k with
  | nil => exact ⟨k, [], by simp, by simpa using h, List.Sublist.refl _⟩
  | append_singleton d' e ih =>
    rw [← List.append_assoc] at h
    generalize hD : d ++ d' ++ [e] = D at h
    cases h with
    | nil => simp at hD
    | skip h1 hc =>
      obtain ⟨rfl, hE⟩ := List.append_inj' hD rfl
      obtain ⟨k1, k2, rfl, hk1, hk2⟩ := ih h1
      exact ⟨k1, k2, rfl, hk1, hk2.trans (List.sublist_append_left _ _)⟩
    | take h1 hc =>
      obtain ⟨rfl, hE⟩ := List.append_inj' hD rfl
      obtain ⟨k1, k2, rfl, hk1, hk2⟩ := ih h1
      cases hE
      exact ⟨k1, k2 ++ [e], by simp, hk1, hk2.append (List.Sublist.refl _)⟩

theorem sorted_split {l : List (Nat × Nat × Nat)} (hs : l.Pairwise fun a b => a.2.2 ≤ b.2.2) (t : Nat) :
    l = l.filter (fun e => decide (e.2.2 ≤ t)) ++ l.filter (fun e => decide (t < e.2.2)) := by
  induction l with
  | nil => rfl
  | cons e l ih =>
    obtain ⟨h1, h2⟩ := List.pairwise_cons.1 hs
    by_cases he : e.2.2 ≤ t
    · rw [List.filter_cons_of_pos (by simpa using he), List.filter_cons_of_neg (by simp; omega), List.cons_append, ← ih h2]
    · have h0 : l.filter (fun e => decide (e.2.2 ≤ t)) = [] := by
        rw [List.filter_eq_nil_iff]
        intro a ha
        have := h1 a ha
        simp
        omega
      have h3 := ih h2
      rw [h0, List.nil_append] at h3
      rw [List.filter_cons_of_neg (by simpa using he), List.filter_cons_of_pos (by simp; omega), h0, ← h3]
      rfl

/-- The weight as a sum over thresholds. -/
theorem weight_eq {l : List (Nat × Nat × Nat)} {T : Nat} (h : ∀ e ∈ l, e.2.2 ≤ T) :
    (l.map fun e => e.2.2).sum = ((List.range T).map fun t => (l.filter fun e => decide (t < e.2.2)).length).sum := by
  induction l with
  | nil =>
    simp
  | cons e l ih =>
    have he := h e (by simp)
    rw [List.map_cons, List.sum_cons, ih fun a ha => h a (by simp [ha])]
    have h1 : ∀ t, ((e :: l).filter fun e => decide (t < e.2.2)).length =
        (if t < e.2.2 then 1 else 0) + (l.filter fun e => decide (t < e.2.2)).length := by
      intro t
      rw [List.filter_cons]
      by_cases ht : t < e.2.2 <;> simp [ht]
      omega
    simp only [h1]
    have h2 : ∀ (w T : Nat) (f : Nat → Nat), w ≤ T →
        ((List.range T).map fun t => (if t < w then 1 else 0) + f t).sum = w + ((List.range T).map f).sum := by
      intro w T f
      induction T generalizing w with
      | zero => intro h; simp; omega
      | succ T ihT =>
        intro hw
        simp only [List.range_succ, List.map_append, List.sum_append, List.map_singleton, List.sum_singleton]
        by_cases hwT : w ≤ T
        · rw [ihT w hwT, if_neg (by omega)]
          omega
        · have hwe : w = T + 1 := by omega
          subst hwe
          have h3 := ihT T (Nat.le_refl _)
          have h4 : ((List.range T).map fun t => (if t < T + 1 then 1 else 0) + f t) =
              (List.range T).map fun t => (if t < T then 1 else 0) + f t := by
            apply List.map_congr_left
            intro t ht
            rw [List.mem_range] at ht
            rw [if_pos (by omega), if_pos ht]
          rw [h4, h3, if_pos (by omega)]
          omega
    exact (h2 e.2.2 T _ he).symm

/-- The greedy forest of edges in order of weight is lightest among all sets of edges that connect what it connects. -/
theorem Greedy.lightest (h : Greedy d k) (hs : d.Pairwise fun a b => a.2.2 ≤ b.2.2)
    (hr : ∀ e ∈ d, e.1 < n ∧ e.2.1 < n) {F : List (Nat × Nat × Nat)} (hF : ∀ e ∈ F, e ∈ d)
    (hc : ∀ e ∈ d, Conn (endsOf F) e.1 e.2.1) : (k.map fun e => e.2.2).sum ≤ (F.map fun e => e.2.2).sum := by
  obtain ⟨T, hT⟩ : ∃ T, ∀ e ∈ d, e.2.2 ≤ T := by
    clear h hs hr hF hc
    induction d with
    | nil => exact ⟨0, by simp⟩
    | cons e d ih =>
      obtain ⟨T, hT⟩ := ih
      refine ⟨max e.2.2 T, fun a ha => ?_⟩
      rcases List.mem_cons.1 ha with rfl | ha
      · exact Nat.le_max_left _ _
      · exact Nat.le_trans (hT a ha) (Nat.le_max_right _ _)
  rw [weight_eq fun e he => hT e (h.sublist.subset he), weight_eq fun e he => hT e (hF e he)]
  have hle : ∀ t, (k.filter fun e => decide (t < e.2.2)).length ≤ (F.filter fun e => decide (t < e.2.2)).length := by
    intro t
    have hd := sorted_split hs t
    have hg := h
    rw [hd] at hg
    obtain ⟨k1, k2, rfl, hk1, hk2⟩ := hg.split
    have hrange : ∀ {l : List (Nat × Nat × Nat)}, (∀ e ∈ l, e ∈ d) → ∀ p ∈ endsOf l, p.1 < n ∧ p.2 < n := by
      intro l hl p hp
      obtain ⟨e, he, rfl⟩ := List.mem_map.1 hp
      exact hr e (hl e he)
    have h1 : (endsOf (k1 ++ k2)).length ≤ (endsOf (k1 ++ F.filter fun e => decide (t < e.2.2))).length := by
      refine h.indep.length_le (n := n) (hrange fun e he => h.sublist.subset he) (hrange ?_) ?_
      · intro e he
        rcases List.mem_append.1 he with he | he
        · exact h.sublist.subset (List.mem_append_left _ he)
        · exact hF e (List.mem_filter.1 he).1
      · intro p hp
        obtain ⟨e, he, rfl⟩ := List.mem_map.1 hp
        refine conn_of_edges (A := endsOf F) ?_ (hc e (h.sublist.subset he))
        intro q hq
        obtain ⟨f, hf, rfl⟩ := List.mem_map.1 hq
        by_cases hft : t < f.2.2
        · exact .rel _ _ (by
            rw [endsOf, List.map_append]
            exact List.mem_append_right _ (List.mem_map.2 ⟨f, List.mem_filter.2 ⟨hf, by simpa using hft⟩, rfl⟩))
        · have : Conn (endsOf (d.filter fun e => decide (e.2.2 ≤ t))) f.1 f.2.1 :=
            .rel _ _ (List.mem_map.2 ⟨f, List.mem_filter.2 ⟨hF f hf, by simpa using hft⟩, rfl⟩)
          exact Conn.mono (fun q hq => by rw [endsOf, List.map_append]; exact List.mem_append_left _ hq)
            ((hk1.conn _ _).1 this)
    have h2 : (k1 ++ k2).filter (fun e => decide (t < e.2.2)) = k2 := by
      rw [List.filter_append, List.filter_eq_nil_iff.2, List.filter_eq_self.2, List.nil_append]
      · intro e he
        exact (List.mem_filter.1 (hk2.subset he)).2
      · intro e he
        have := (List.mem_filter.1 (hk1.sublist.subset he)).2
        simp at this ⊢
        omega
    rw [h2]
    simp only [endsOf, List.length_map, List.length_append] at h1
    omega
  generalize List.range T = l
  induction l with
  | nil => simp
  | cons t l ih =>
    rw [List.map_cons, List.map_cons, List.sum_cons, List.sum_cons]
    exact Nat.add_le_add (hle t) ih

end Verif.SForest
