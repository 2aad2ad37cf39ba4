import Verif.Props.MatchDuality
/-! C104: relations between the answers of `AugmentedPath::solve` for related bipartite graphs. -/
namespace Verif.Props
open Model Spec Res BipP FMP Finset

/-- A fresh `AugmentedPath` with `n` left and `m` right vertices and the edges `E` answers `k`. -/
def MatchAns (n m : Nat) (E : List (Nat × Nat)) (k : Nat) : Prop :=
  matchRun (AugmentedPath.new n m) (matchCalls E) = ok [k]

/-- The edges whose left end is in `A`. -/
def leftIn (E : List (Nat × Nat)) (A : Finset Nat) : List (Nat × Nat) := E.filter fun e => decide (e.1 ∈ A)

variable {n m n' m' k k' k'' : Nat} {E E' : List (Nat × Nat)}

theorem maxOf (hE : ∀ e ∈ E, e.1 < n ∧ e.2 < m) (h : MatchAns n m E k) : IsMaxMatching E k := by
  obtain ⟨k', e, h'⟩ := matchCalls_ok hE
  unfold MatchAns at h
  rw [e] at h
  cases h
  exact h'

theorem coverOf (hE : ∀ e ∈ E, e.1 < n ∧ e.2 < m) (h : MatchAns n m E k) : IsMinCover E k :=
  (C60_konig_spec E k).1 (maxOf hE h)

theorem max_mono (h : IsMaxMatching E k) (h' : IsMaxMatching E' k') (hs : ∀ e ∈ E, e ∈ E') : k ≤ k' := by
  obtain ⟨M, hM, rfl⟩ := h.1
  exact h'.2 M ⟨fun e he => hs e (hM.sub e he), hM.left, hM.right⟩

/-- C104: there is always an answer, the greatest number of disjoint edges. -/
theorem C104_answers (hE : ∀ e ∈ E, e.1 < n ∧ e.2 < m) : ∃ k, MatchAns n m E k ∧ IsMaxMatching E k := matchCalls_ok hE

/-- C104: only the set of edges matters, not their order or number, nor unused vertices. -/
theorem C104_set (hE : ∀ e ∈ E, e.1 < n ∧ e.2 < m) (hE' : ∀ e ∈ E', e.1 < n' ∧ e.2 < m')
    (hs : ∀ e, e ∈ E ↔ e ∈ E') (h : MatchAns n m E k) (h' : MatchAns n' m' E' k') : k = k' :=
  Nat.le_antisymm (max_mono (maxOf hE h) (maxOf hE' h') fun e he => (hs e).1 he)
    (max_mono (maxOf hE' h') (maxOf hE h) fun e he => (hs e).2 he)

/-- C104: more edges, no smaller answer. -/
theorem C104_mono (hE : ∀ e ∈ E, e.1 < n ∧ e.2 < m) (hE' : ∀ e ∈ E', e.1 < n' ∧ e.2 < m')
    (hs : ∀ e ∈ E, e ∈ E') (h : MatchAns n m E k) (h' : MatchAns n' m' E' k') : k ≤ k' :=
  max_mono (maxOf hE h) (maxOf hE' h') hs

theorem cover_image {f g : Nat → Nat} {e : Nat × Nat → Nat × Nat} (h : IsMinCover E k) (h' : IsMinCover (E.map e) k')
    (he : ∀ x ∈ E, e x = (f x.1, g x.2)) : k' ≤ k := by
  obtain ⟨C, D, h1, h2⟩ := h.1
  refine (h'.2 (C.image f) (D.image g) ?_).trans ?_
  · intro x hx
    obtain ⟨y, hy, rfl⟩ := List.mem_map.1 hx
    rw [he y hy]
    exact (h1 y hy).imp (mem_image_of_mem f) (mem_image_of_mem g)
  · have := card_image_le (s := C) (f := f)
    have := card_image_le (s := D) (f := g)
    omega

/-- C104: renaming the vertices of either side, different ones differently, keeps the answer. -/
theorem C104_relabel {f g : Nat → Nat} (hf : ∀ x < n, ∀ y < n, f x = f y → x = y)
    (hg : ∀ x < m, ∀ y < m, g x = g y → x = y) (hE : ∀ e ∈ E, e.1 < n ∧ e.2 < m)
    (hE' : ∀ e ∈ E, f e.1 < n' ∧ g e.2 < m') (h : MatchAns n m E k)
    (h' : MatchAns n' m' (E.map fun e => (f e.1, g e.2)) k') : k = k' := by
  have a := maxOf hE h
  have hE2 : ∀ e ∈ E.map fun e => (f e.1, g e.2), e.1 < n' ∧ e.2 < m' := by
    intro e he
    obtain ⟨y, hy, rfl⟩ := List.mem_map.1 he
    exact hE' y hy
  refine Nat.le_antisymm ?_ (cover_image (coverOf hE h) (coverOf hE2 h') fun _ _ => rfl)
  obtain ⟨M, hM, rfl⟩ := a.1
  have b := (maxOf hE2 h').2 (M.map fun e => (f e.1, g e.2)) ⟨?_, ?_, ?_⟩
  · rwa [List.length_map] at b
  · intro e he
    obtain ⟨y, hy, rfl⟩ := List.mem_map.1 he
    exact List.mem_map.2 ⟨y, hM.sub y hy, rfl⟩
  · rw [List.map_map]
    have := hM.left
    rw [show (Prod.fst ∘ fun e : Nat × Nat => (f e.1, g e.2)) = f ∘ Prod.fst from rfl, ← List.map_map]
    refine List.Nodup.map_on ?_ this
    intro x hx y hy
    obtain ⟨e, he, rfl⟩ := List.mem_map.1 hx
    obtain ⟨e', he', rfl⟩ := List.mem_map.1 hy
    exact hf _ (hE e (hM.sub e he)).1 _ (hE e' (hM.sub e' he')).1
  · rw [List.map_map]
    have := hM.right
    rw [show (Prod.snd ∘ fun e : Nat × Nat => (f e.1, g e.2)) = g ∘ Prod.snd from rfl, ← List.map_map]
    refine List.Nodup.map_on ?_ this
    intro x hx y hy
    obtain ⟨e, he, rfl⟩ := List.mem_map.1 hx
    obtain ⟨e', he', rfl⟩ := List.mem_map.1 hy
    exact hg _ (hE e (hM.sub e he)).2 _ (hE e' (hM.sub e' he')).2

/-- C104: exchanging the two sides keeps the answer. -/
theorem C104_transposed (hE : ∀ e ∈ E, e.1 < n ∧ e.2 < m) (h : MatchAns n m E k)
    (h' : MatchAns m n (E.map Prod.swap) k') : k = k' := by
  have key : ∀ {E : List (Nat × Nat)} {k k' : Nat}, IsMinCover E k → IsMinCover (E.map Prod.swap) k' → k' ≤ k := by
    intro E k k' a b
    obtain ⟨C, D, h1, h2⟩ := a.1
    have := b.2 D C (by
      intro x hx
      obtain ⟨y, hy, rfl⟩ := List.mem_map.1 hx
      exact (h1 y hy).symm)
    omega
  have hE2 : ∀ e ∈ E.map Prod.swap, e.1 < m ∧ e.2 < n := by
    intro e he
    obtain ⟨y, hy, rfl⟩ := List.mem_map.1 he
    exact (hE y hy).symm
  have a := coverOf hE h
  have b := coverOf hE2 h'
  refine Nat.le_antisymm (key b ?_) (key a b)
  simpa using a

/-- C104: the edges of two graphs together: at least either answer, at most their sum. -/
theorem C104_union (hE : ∀ e ∈ E, e.1 < n ∧ e.2 < m) (hE' : ∀ e ∈ E', e.1 < n ∧ e.2 < m)
    (h : MatchAns n m E k) (h' : MatchAns n m E' k') (h'' : MatchAns n m (E ++ E') k'') :
    max k k' ≤ k'' ∧ k'' ≤ k + k' := by
  have hE2 : ∀ e ∈ E ++ E', e.1 < n ∧ e.2 < m := fun e he => (List.mem_append.1 he).elim (hE e) (hE' e)
  refine ⟨Nat.max_le.2 ⟨C104_mono hE hE2 (fun e he => by simp [he]) h h'',
    C104_mono hE' hE2 (fun e he => by simp [he]) h' h''⟩, ?_⟩
  obtain ⟨C, D, h1, h2⟩ := (coverOf hE h).1
  obtain ⟨C', D', h3, h4⟩ := (coverOf hE' h').1
  have := (coverOf hE2 h'').2 (C ∪ C') (D ∪ D') (by
    intro e he
    simp only [mem_union]
    rcases List.mem_append.1 he with he | he
    · exact (h1 e he).imp .inl .inl
    · exact (h3 e he).imp .inr .inr)
  have := card_union_le C C'
  have := card_union_le D D'
  omega

/-- C104: for two graphs without common vertices the answers add up. -/
theorem C104_disjoint (hE : ∀ e ∈ E, e.1 < n ∧ e.2 < m) (hE' : ∀ e ∈ E', e.1 < n ∧ e.2 < m)
    (hd : ∀ e ∈ E, ∀ e' ∈ E', e.1 ≠ e'.1 ∧ e.2 ≠ e'.2)
    (h : MatchAns n m E k) (h' : MatchAns n m E' k') (h'' : MatchAns n m (E ++ E') k'') : k'' = k + k' := by
  refine Nat.le_antisymm (C104_union hE hE' h h' h'').2 ?_
  have hE2 : ∀ e ∈ E ++ E', e.1 < n ∧ e.2 < m := fun e he => (List.mem_append.1 he).elim (hE e) (hE' e)
  obtain ⟨M, hM, rfl⟩ := (maxOf hE h).1
  obtain ⟨M', hM', rfl⟩ := (maxOf hE' h').1
  have := (maxOf hE2 h'').2 (M ++ M') ⟨?_, ?_, ?_⟩
  · rwa [List.length_append] at this
  · intro e he
    exact List.mem_append.2 ((List.mem_append.1 he).imp (hM.sub e) (hM'.sub e))
  · rw [List.map_append, List.nodup_append]
    refine ⟨hM.left, hM'.left, ?_⟩
    intro x hx y hy
    obtain ⟨e, he, rfl⟩ := List.mem_map.1 hx
    obtain ⟨e', he', rfl⟩ := List.mem_map.1 hy
    exact (hd e (hM.sub e he) e' (hM'.sub e' he')).1
  · rw [List.map_append, List.nodup_append]
    refine ⟨hM.right, hM'.right, ?_⟩
    intro x hx y hy
    obtain ⟨e, he, rfl⟩ := List.mem_map.1 hx
    obtain ⟨e', he', rfl⟩ := List.mem_map.1 hy
    exact (hd e (hM.sub e he) e' (hM'.sub e' he')).2

/-- C104: deleting all edges at one left vertex lowers the answer by at most one, and never raises it. -/
theorem C104_delete_left (u : Nat) (hE : ∀ e ∈ E, e.1 < n ∧ e.2 < m) (h : MatchAns n m E k)
    (h' : MatchAns n m (E.filter fun e => decide (e.1 ≠ u)) k') : k' ≤ k ∧ k ≤ k' + 1 := by
  have hE2 : ∀ e ∈ E.filter fun e => decide (e.1 ≠ u), e.1 < n ∧ e.2 < m := fun e he => hE e (List.mem_filter.1 he).1
  refine ⟨C104_mono hE2 hE (fun e he => (List.mem_filter.1 he).1) h' h, ?_⟩
  obtain ⟨C, D, h1, h2⟩ := (coverOf hE2 h').1
  have := (coverOf hE h).2 (insert u C) D (by
    intro e he
    by_cases hu : e.1 = u
    · exact .inl (mem_insert.2 (.inl hu))
    · exact (h1 e (List.mem_filter.2 ⟨he, by simpa using hu⟩)).imp (mem_insert_of_mem) id)
  have := card_insert_le u C
  omega

/-- C104: the same for a right vertex. -/
theorem C104_delete_right (v : Nat) (hE : ∀ e ∈ E, e.1 < n ∧ e.2 < m) (h : MatchAns n m E k)
    (h' : MatchAns n m (E.filter fun e => decide (e.2 ≠ v)) k') : k' ≤ k ∧ k ≤ k' + 1 := by
  have hE2 : ∀ e ∈ E.filter fun e => decide (e.2 ≠ v), e.1 < n ∧ e.2 < m := fun e he => hE e (List.mem_filter.1 he).1
  refine ⟨C104_mono hE2 hE (fun e he => (List.mem_filter.1 he).1) h' h, ?_⟩
  obtain ⟨C, D, h1, h2⟩ := (coverOf hE2 h').1
  have := (coverOf hE h).2 C (insert v D) (by
    intro e he
    by_cases hu : e.2 = v
    · exact .inr (mem_insert.2 (.inl hu))
    · exact (h1 e (List.mem_filter.2 ⟨he, by simpa using hu⟩)).imp id (mem_insert_of_mem))
  have := card_insert_le v D
  omega

/-- C104: one more edge raises the answer by at most one, and never lowers it. -/
theorem C104_add_edge {u v : Nat} (hE : ∀ e ∈ E, e.1 < n ∧ e.2 < m) (hu : u < n) (hv : v < m) (h : MatchAns n m E k)
    (h' : MatchAns n m (E ++ [(u, v)]) k') : k ≤ k' ∧ k' ≤ k + 1 := by
  have hE1 : ∀ e ∈ [(u, v)], e.1 < n ∧ e.2 < m := by simp [hu, hv]
  obtain ⟨j, h1, h2⟩ := matchCalls_ok (n := n) (m := m) (E := [(u, v)]) hE1
  have a := C104_union hE hE1 h h1 h'
  have b : j ≤ 1 := by
    obtain ⟨M, hM, rfl⟩ := h2.1
    have := hM.left
    match M, hM.sub, this with
    | [], _, _ => simp
    | [_], _, _ => simp
    | x :: y :: _, hs, hn =>
      have hx := hs x (by simp)
      have hy := hs y (by simp)
      simp only [List.mem_singleton] at hx hy
      subst hx hy
      simp at hn
  omega

theorem mem_leftIn {A : Finset Nat} {e : Nat × Nat} : e ∈ leftIn E A ↔ e ∈ E ∧ e.1 ∈ A := by
  simp [leftIn]

theorem leftIn_range {A : Finset Nat} (hE : ∀ e ∈ E, e.1 < n ∧ e.2 < m) : ∀ e ∈ leftIn E A, e.1 < n ∧ e.2 < m :=
  fun e he => hE e (mem_leftIn.1 he).1

theorem cover_submodular {A B : Finset Nat} {a b c d : Nat} (ha : IsMinCover (leftIn E A) a)
    (hb : IsMinCover (leftIn E B) b) (hc : IsMinCover (leftIn E (A ∪ B)) c) (hd : IsMinCover (leftIn E (A ∩ B)) d) :
    c + d ≤ a + b := by
  obtain ⟨C, D, h1, h2⟩ := ha.1
  obtain ⟨C', D', h3, h4⟩ := hb.1
  have k1 : ∀ e ∈ E, e.1 ∈ A \ C → e.2 ∈ D := fun e he h =>
    (h1 e (mem_leftIn.2 ⟨he, (mem_sdiff.1 h).1⟩)).resolve_left (mem_sdiff.1 h).2
  have k2 : ∀ e ∈ E, e.1 ∈ B \ C' → e.2 ∈ D' := fun e he h =>
    (h3 e (mem_leftIn.2 ⟨he, (mem_sdiff.1 h).1⟩)).resolve_left (mem_sdiff.1 h).2
  have l1 := hc.2 ((A ∪ B) \ (A \ C ∪ B \ C')) (D ∪ D') (by
    intro e he
    obtain ⟨he, hm⟩ := mem_leftIn.1 he
    by_cases hx : e.1 ∈ A \ C ∪ B \ C'
    · exact .inr (mem_union.2 ((mem_union.1 hx).imp (k1 e he) (k2 e he)))
    · exact .inl (mem_sdiff.2 ⟨hm, hx⟩))
  have l2 := hd.2 ((A ∩ B) \ ((A \ C) ∩ (B \ C'))) (D ∩ D') (by
    intro e he
    obtain ⟨he, hm⟩ := mem_leftIn.1 he
    by_cases hx : e.1 ∈ (A \ C) ∩ (B \ C')
    · exact .inr (mem_inter.2 ⟨k1 e he (mem_inter.1 hx).1, k2 e he (mem_inter.1 hx).2⟩)
    · exact .inl (mem_sdiff.2 ⟨hm, hx⟩))
  have s1 := card_sdiff_add_card_eq_card (union_subset_union (sdiff_subset (s := A) (t := C)) (sdiff_subset (s := B) (t := C')))
  have s2 := card_sdiff_add_card_eq_card (inter_subset_inter (sdiff_subset (s := A) (t := C)) (sdiff_subset (s := B) (t := C')))
  have s3 := card_union_add_card_inter A B
  have s4 := card_union_add_card_inter (A \ C) (B \ C')
  have s5 := card_union_add_card_inter D D'
  have s6 := le_card_sdiff C A
  have s7 := le_card_sdiff C' B
  omega

/-- C104: as a function of the set of left vertices that may be used, the answer is submodular. -/
theorem C104_submodular (A B : Finset Nat) {a b c d : Nat} (hE : ∀ e ∈ E, e.1 < n ∧ e.2 < m)
    (ha : MatchAns n m (leftIn E A) a) (hb : MatchAns n m (leftIn E B) b) (hc : MatchAns n m (leftIn E (A ∪ B)) c)
    (hd : MatchAns n m (leftIn E (A ∩ B)) d) : c + d ≤ a + b :=
  cover_submodular (coverOf (leftIn_range hE) ha) (coverOf (leftIn_range hE) hb) (coverOf (leftIn_range hE) hc)
    (coverOf (leftIn_range hE) hd)

/-- C104: when all of `A` and all of the larger set `B` of left vertices can be matched, some vertex of `B` can be added
to `A`. -/
theorem C104_exchange (A B : Finset Nat) (hE : ∀ e ∈ E, e.1 < n ∧ e.2 < m)
    (ha : MatchAns n m (leftIn E A) A.card) (hb : MatchAns n m (leftIn E B) B.card) (hlt : A.card < B.card) :
    ∃ x ∈ B, x ∉ A ∧ MatchAns n m (leftIn E (insert x A)) (insert x A).card := by
  have ex : ∀ S : Finset Nat, ∃ k, MatchAns n m (leftIn E S) k := fun S =>
    (matchCalls_ok (leftIn_range (A := S) hE)).imp fun k h => h.1
  choose r hr using ex
  have fn : ∀ {S : Finset Nat} {k : Nat}, MatchAns n m (leftIn E S) k → r S = k := by
    intro S k h
    have := hr S
    unfold MatchAns at this h
    rw [h] at this
    cases this
    rfl
  have mono : ∀ {S T : Finset Nat}, S ⊆ T → r S ≤ r T := fun {S T} h =>
    C104_mono (leftIn_range hE) (leftIn_range hE)
      (fun e he => mem_leftIn.2 ⟨(mem_leftIn.1 he).1, h (mem_leftIn.1 he).2⟩) (hr S) (hr T)
  by_contra hc
  push Not at hc
  have stuck : ∀ x ∈ B, x ∉ A → r (insert x A) ≤ r A := by
    intro x hx hxa
    by_contra hlt
    refine hc x hx hxa ?_
    have h1 : r (insert x A) ≤ r A + 1 := by
      obtain ⟨C, D, c1, c2⟩ := (coverOf (leftIn_range hE) (hr A)).1
      have := (coverOf (leftIn_range hE) (hr (insert x A))).2 (insert x C) D (by
        intro e he
        obtain ⟨he, hm⟩ := mem_leftIn.1 he
        rcases mem_insert.1 hm with h | h
        · exact .inl (mem_insert.2 (.inl h))
        · exact (c1 e (mem_leftIn.2 ⟨he, h⟩)).imp mem_insert_of_mem id)
      have := card_insert_le x C
      omega
    have h2 := fn ha
    have : r (insert x A) = (insert x A).card := by rw [card_insert_of_notMem hxa]; omega
    rw [← this]
    exact hr _
  have all : ∀ S : Finset Nat, S ⊆ B → r (A ∪ S) ≤ r A := by
    intro S
    induction S using Finset.induction_on with
    | empty => intro _; simp
    | insert x S hx ih =>
      intro hS
      have h0 := ih fun y hy => hS (mem_insert_of_mem hy)
      by_cases hxa : x ∈ A
      · rw [union_insert, insert_eq_of_mem (mem_union_left _ hxa)]
        exact h0
      have h1 := stuck x (hS (mem_insert_self ..)) hxa
      have h2 := C104_submodular (A ∪ S) (insert x A) hE (hr _) (hr _) (hr _) (hr _)
      have h3 : (A ∪ S) ∪ insert x A = A ∪ insert x S := by
        ext y; simp only [mem_union, mem_insert]; tauto
      have h4 : r A ≤ r ((A ∪ S) ∩ insert x A) :=
        mono fun y hy => mem_inter.2 ⟨mem_union_left _ hy, mem_insert_of_mem hy⟩
      rw [h3] at h2
      omega
  have h1 := all B (Subset.refl _)
  have h2 : r B ≤ r (A ∪ B) := mono subset_union_right
  have h3 := fn ha
  have h4 := fn hb
  omega

/-! Four left and three right vertices; left vertices 0 and 1 have only the neighbour 0. -/
def matchExample : List (Nat × Nat) := [(0, 0), (1, 0), (2, 0), (2, 1), (3, 1), (3, 2), (3, 2)]

example : ∀ e ∈ matchExample, e.1 < 4 ∧ e.2 < 3 := by decide

/-- The answer is 3; with the sides exchanged too; 2 without the left vertex 3; 1 for the left vertices 0 and 1 alone. -/
example : MatchAns 4 3 matchExample 3 ∧ MatchAns 3 4 (matchExample.map Prod.swap) 3 ∧
    MatchAns 4 3 (matchExample.filter fun e => decide (e.1 ≠ 3)) 2 ∧ MatchAns 4 3 (leftIn matchExample {0, 1}) 1 ∧
    MatchAns 4 4 (matchExample ++ [(1, 3)]) 4 := by
  unfold MatchAns; decide +kernel

/-- `{0}` and `{1, 2}` can both be matched; 2 can be added to `{0}`, 1 cannot. -/
example : MatchAns 4 3 (leftIn matchExample {0}) ({0} : Finset Nat).card ∧
    MatchAns 4 3 (leftIn matchExample {1, 2}) ({1, 2} : Finset Nat).card ∧
    MatchAns 4 3 (leftIn matchExample {2, 0}) 2 ∧ MatchAns 4 3 (leftIn matchExample {1, 0}) 1 := by
  unfold MatchAns; decide +kernel

/-- Two graphs without common vertices. -/
example : (∀ e ∈ [(0, 0), (1, 0)], ∀ e' ∈ [(2, 1), (3, 1), (3, 2)], e.1 ≠ e'.1 ∧ e.2 ≠ e'.2) ∧
    MatchAns 4 3 [(0, 0), (1, 0)] 1 ∧ MatchAns 4 3 [(2, 1), (3, 1), (3, 2)] 2 := by
  unfold MatchAns; decide +kernel

end Verif.Props
