import Verif.Spec.FlowMatching
import Verif.Proof.Flow
import Mathlib.Data.List.Nodup
import Mathlib.Data.Finset.Card
import Mathlib.Algebra.BigOperators.Intervals
import Mathlib.Data.Set.Function
/-! Flows of the unit network of a bipartite graph are matchings. -/
namespace Verif.FMP
open Spec FlowP Finset

/-- The network as edges of the specification. -/
def net (n m : Nat) (E : List (Nat × Nat)) : List NEdge := (unitNet n m E).map fun e => ⟨e.1, e.2.1, e.2.2, 0⟩

/-- The `k`-th edge of the graph. -/
def eg (E : List (Nat × Nat)) (k : Nat) : Nat × Nat := E.getD k (0, 0)

theorem net_length (n m : Nat) (E : List (Nat × Nat)) : (net n m E).length = n + E.length + m := by
  simp [net, unitNet]; omega

theorem ed_src {n m : Nat} {E : List (Nat × Nat)} {u : Nat} (h : u < n) : ed (net n m E) u = ⟨n + m, u, 1, 0⟩ := by
  unfold ed net unitNet
  rw [List.getD_eq_getElem?_getD, List.getElem?_map, List.append_assoc,
    List.getElem?_append_left (by simpa using h)]
  simp [h]

theorem ed_mid {n m : Nat} {E : List (Nat × Nat)} {k : Nat} (h : k < E.length) :
    ed (net n m E) (n + k) = ⟨(eg E k).1, n + (eg E k).2, 1, 0⟩ := by
  unfold ed net unitNet eg
  rw [List.getD_eq_getElem?_getD, List.getElem?_map, List.append_assoc,
    List.getElem?_append_right (by simp), List.getElem?_append_left (by simpa using h)]
  simp [List.getD_eq_getElem?_getD, h]

theorem ed_snk {n m : Nat} {E : List (Nat × Nat)} {v : Nat} (h : v < m) :
    ed (net n m E) (n + E.length + v) = ⟨n + v, n + m + 1, 1, 0⟩ := by
  unfold ed net unitNet
  rw [List.getD_eq_getElem?_getD, List.getElem?_map,
    List.getElem?_append_right (by simp)]
  simp [h]

/-- Sums over the edges, in three parts. -/
theorem sum_net {n m : Nat} {E : List (Nat × Nat)} (F : Nat → NEdge → Int) :
    ∑ k ∈ range (net n m E).length, F k (ed (net n m E) k) =
      ∑ u ∈ range n, F u ⟨n + m, u, 1, 0⟩ +
      ∑ k ∈ range E.length, F (n + k) ⟨(eg E k).1, n + (eg E k).2, 1, 0⟩ +
      ∑ v ∈ range m, F (n + E.length + v) ⟨n + v, n + m + 1, 1, 0⟩ := by
  rw [net_length, Finset.sum_range_add, Finset.sum_range_add]
  congr 1
  · congr 1
    · exact Finset.sum_congr rfl fun u hu => by rw [ed_src (mem_range.1 hu)]
    · exact Finset.sum_congr rfl fun u hu => by rw [ed_mid (mem_range.1 hu)]
  · exact Finset.sum_congr rfl fun u hu => by rw [ed_snk (mem_range.1 hu)]

theorem netOut_net {n m : Nat} {E : List (Nat × Nat)} (x : Nat → Int) (y : Nat) :
    netOut (net n m E) x y =
      ∑ u ∈ range n, ((if n + m = y then x u else 0) - (if u = y then x u else 0)) +
      ∑ k ∈ range E.length, ((if (eg E k).1 = y then x (n + k) else 0) - (if n + (eg E k).2 = y then x (n + k) else 0)) +
      ∑ v ∈ range m, ((if n + v = y then x (n + E.length + v) else 0) -
        (if n + m + 1 = y then x (n + E.length + v) else 0)) := by
  rw [netOut_range]
  exact sum_net fun k e => (if e.u = y then x k else 0) - (if e.v = y then x k else 0)

/-- In range. -/
def InR (n m : Nat) (E : List (Nat × Nat)) : Prop := ∀ e ∈ E, e.1 < n ∧ e.2 < m

theorem InR.eg {n m : Nat} {E : List (Nat × Nat)} (h : InR n m E) {k : Nat} (hk : k < E.length) :
    (eg E k).1 < n ∧ (FMP.eg E k).2 < m := by
  apply h
  unfold FMP.eg
  rw [List.getD_eq_getElem?_getD, List.getElem?_eq_getElem hk]
  simp

theorem out_left {n m : Nat} {E : List (Nat × Nat)} (hE : InR n m E) (x : Nat → Int) {u : Nat} (hu : u < n) :
    netOut (net n m E) x u = - x u + ∑ k ∈ range E.length, (if (eg E k).1 = u then x (n + k) else 0) := by
  rw [netOut_net]
  have h1 : ∑ w ∈ range n, ((if n + m = u then x w else 0) - (if w = u then x w else 0)) = - x u := by
    rw [Finset.sum_congr rfl (g := fun w => if w = u then - x u else 0)]
    · rw [Finset.sum_ite_eq']; simp [hu]
    · intro w _
      rw [if_neg (by omega)]
      split
      · rename_i h; subst h; omega
      · rfl
  have h2 : ∑ v ∈ range m, ((if n + v = u then x (n + E.length + v) else 0) -
        (if n + m + 1 = u then x (n + E.length + v) else 0)) = 0 := by
    apply Finset.sum_eq_zero
    intro v _
    rw [if_neg (by omega), if_neg (by omega)]; rfl
  rw [h1, h2, add_zero]
  congr 1
  refine Finset.sum_congr rfl fun k hk => ?_
  rw [if_neg (c := n + (eg E k).2 = u) (by omega), sub_zero]

theorem out_right {n m : Nat} {E : List (Nat × Nat)} (hE : InR n m E) (x : Nat → Int) {v : Nat} (hv : v < m) :
    netOut (net n m E) x (n + v) =
      - ∑ k ∈ range E.length, (if (eg E k).2 = v then x (n + k) else 0) + x (n + E.length + v) := by
  rw [netOut_net]
  have h1 : ∑ w ∈ range n, ((if n + m = n + v then x w else 0) - (if w = n + v then x w else 0)) = 0 := by
    apply Finset.sum_eq_zero
    intro w hw
    have := mem_range.1 hw
    rw [if_neg (by omega), if_neg (by omega)]; rfl
  have h2 : ∑ w ∈ range m, ((if n + w = n + v then x (n + E.length + w) else 0) -
        (if n + m + 1 = n + v then x (n + E.length + w) else 0)) = x (n + E.length + v) := by
    rw [Finset.sum_congr rfl (g := fun w => if w = v then x (n + E.length + v) else 0)]
    · rw [Finset.sum_ite_eq']; simp [hv]
    · intro w _
      rw [if_neg (c := n + m + 1 = n + v) (by omega)]
      by_cases h : w = v
      · subst h; simp
      · rw [if_neg (by omega), if_neg h]; rfl
  rw [h1, h2, zero_add]
  congr 1
  rw [← Finset.sum_neg_distrib]
  refine Finset.sum_congr rfl fun k hk => ?_
  have := (hE.eg (mem_range.1 hk)).1
  rw [if_neg (c := (eg E k).1 = n + v) (by omega)]
  by_cases h : (eg E k).2 = v
  · rw [if_pos (by omega), if_pos h]; omega
  · rw [if_neg (by omega), if_neg h]; omega

theorem out_src {n m : Nat} {E : List (Nat × Nat)} (hE : InR n m E) (x : Nat → Int) :
    netOut (net n m E) x (n + m) = ∑ u ∈ range n, x u := by
  rw [netOut_net]
  have h2 : ∑ w ∈ range m, ((if n + w = n + m then x (n + E.length + w) else 0) -
        (if n + m + 1 = n + m then x (n + E.length + w) else 0)) = 0 := by
    apply Finset.sum_eq_zero
    intro w hw
    have := mem_range.1 hw
    rw [if_neg (by omega), if_neg (by omega)]; rfl
  have h3 : ∑ k ∈ range E.length, ((if (eg E k).1 = n + m then x (n + k) else 0) -
      (if n + (eg E k).2 = n + m then x (n + k) else 0)) = 0 := by
    apply Finset.sum_eq_zero
    intro k hk
    have := hE.eg (mem_range.1 hk)
    rw [if_neg (by omega), if_neg (by omega)]; rfl
  rw [h2, h3, add_zero, add_zero]
  refine Finset.sum_congr rfl fun k hk => ?_
  have := mem_range.1 hk
  rw [if_pos rfl, if_neg (by omega), sub_zero]

theorem out_other {n m : Nat} {E : List (Nat × Nat)} (hE : InR n m E) (x : Nat → Int) {y : Nat} (hy : n + m + 1 < y) :
    netOut (net n m E) x y = 0 := by
  rw [netOut_net]
  have h1 : ∑ w ∈ range n, ((if n + m = y then x w else 0) - (if w = y then x w else 0)) = 0 := by
    apply Finset.sum_eq_zero
    intro w hw
    have := mem_range.1 hw
    rw [if_neg (by omega), if_neg (by omega)]; rfl
  have h2 : ∑ w ∈ range m, ((if n + w = y then x (n + E.length + w) else 0) -
        (if n + m + 1 = y then x (n + E.length + w) else 0)) = 0 := by
    apply Finset.sum_eq_zero
    intro w hw
    have := mem_range.1 hw
    rw [if_neg (by omega), if_neg (by omega)]; rfl
  have h3 : ∑ k ∈ range E.length, ((if (eg E k).1 = y then x (n + k) else 0) -
      (if n + (eg E k).2 = y then x (n + k) else 0)) = 0 := by
    apply Finset.sum_eq_zero
    intro k hk
    have := hE.eg (mem_range.1 hk)
    rw [if_neg (by omega), if_neg (by omega)]; rfl
  rw [h1, h2, h3]; rfl

/-! ### Sets of edge numbers -/

/-- A matching as a set of edge numbers. -/
structure IdxMatch (E : List (Nat × Nat)) (K : Finset Nat) : Prop where
  lt : ∀ k ∈ K, k < E.length
  left : ∀ k ∈ K, ∀ k' ∈ K, (eg E k).1 = (eg E k').1 → k = k'
  right : ∀ k ∈ K, ∀ k' ∈ K, (eg E k).2 = (eg E k').2 → k = k'

theorem sum_ite_card {L : Nat} {K : Finset Nat} (hK : ∀ k ∈ K, k < L) (P : Nat → Prop) [DecidablePred P] :
    ∑ k ∈ range L, (if P k then (if k ∈ K then (1 : Int) else 0) else 0) = ((K.filter P).card : Int) := by
  rw [Finset.card_eq_sum_ones, Nat.cast_sum, Finset.sum_filter]
  have hsub : K ⊆ range L := fun k hk => mem_range.2 (hK k hk)
  rw [← Finset.sum_subset hsub]
  · refine Finset.sum_congr rfl fun k hk => ?_
    rw [if_pos hk]; split <;> simp
  · intro k _ hk
    rw [if_neg hk]; simp

theorem idxMatch_flow {n m : Nat} {E : List (Nat × Nat)} (hE : InR n m E) {K : Finset Nat} (hK : IdxMatch E K) :
    ∃ x, IsFlow (net n m E) (n + m) (n + m + 1) x ∧ netOut (net n m E) x (n + m) = K.card := by
  let x : Nat → Int := fun j =>
    if j < n then ((K.filter fun k => (eg E k).1 = j).card : Int)
    else if j < n + E.length then (if j - n ∈ K then 1 else 0)
    else ((K.filter fun k => (eg E k).2 = j - n - E.length).card : Int)
  have xl : ∀ u, u < n → x u = ((K.filter fun k => (eg E k).1 = u).card : Int) := by
    intro u hu; simp only [x]; rw [if_pos hu]
  have xm : ∀ k, k < E.length → x (n + k) = if k ∈ K then 1 else 0 := by
    intro k hk; simp only [x]; rw [if_neg (by omega), if_pos (by omega), Nat.add_sub_cancel_left]
  have xr : ∀ v, x (n + E.length + v) = ((K.filter fun k => (eg E k).2 = v).card : Int) := by
    intro v; simp only [x]; rw [if_neg (by omega), if_neg (by omega)]
    rw [show n + E.length + v - n - E.length = v by omega]
  have one : ∀ P : Nat → Prop, ∀ _ : DecidablePred P, (∀ k ∈ K, ∀ k' ∈ K, P k → P k' → k = k') →
      (K.filter P).card ≤ 1 := by
    intro P _ h
    rw [Finset.card_le_one]
    intro a ha b hb
    rw [Finset.mem_filter] at ha hb
    exact h a ha.1 b hb.1 ha.2 hb.2
  refine ⟨x, ⟨?_, ?_⟩, ?_⟩
  · intro k
    have hk := Nat.lt_of_lt_of_eq k.2 (net_length n m E)
    rw [← ed_eq]
    by_cases h1 : (k : Nat) < n
    · rw [ed_src h1, xl _ h1]
      have := one (fun j => (eg E j).1 = k) inferInstance fun a ha b hb h h' => hK.left a ha b hb (h.trans h'.symm)
      simp only; omega
    · by_cases h2 : (k : Nat) < n + E.length
      · obtain ⟨j, hj⟩ : ∃ j, (k : Nat) = n + j := ⟨k - n, by omega⟩
        rw [hj, ed_mid (by omega), xm _ (by omega)]
        simp only; split <;> omega
      · obtain ⟨j, hj⟩ : ∃ j, (k : Nat) = n + E.length + j := ⟨k - n - E.length, by omega⟩
        rw [hj, ed_snk (by omega), xr]
        have := one (fun i => (eg E i).2 = j) inferInstance fun a ha b hb h h' => hK.right a ha b hb (h.trans h'.symm)
        simp only; omega
  · intro y h1 h2
    by_cases hy : y < n
    · rw [out_left hE x hy, xl y hy, ← sum_ite_card hK.lt]
      have : ∑ k ∈ range E.length, (if (eg E k).1 = y then x (n + k) else 0) =
          ∑ k ∈ range E.length, (if (eg E k).1 = y then (if k ∈ K then (1 : Int) else 0) else 0) :=
        Finset.sum_congr rfl fun k hk => by rw [xm k (mem_range.1 hk)]
      rw [this]; omega
    · by_cases hy2 : y < n + m
      · obtain ⟨v, rfl⟩ : ∃ v, y = n + v := ⟨y - n, by omega⟩
        rw [out_right hE x (by omega), xr, ← sum_ite_card hK.lt]
        have : ∑ k ∈ range E.length, (if (eg E k).2 = v then x (n + k) else 0) =
            ∑ k ∈ range E.length, (if (eg E k).2 = v then (if k ∈ K then (1 : Int) else 0) else 0) :=
          Finset.sum_congr rfl fun k hk => by rw [xm k (mem_range.1 hk)]
        rw [this]; omega
      · exact out_other hE x (by omega)
  · rw [out_src hE, Finset.sum_congr rfl fun u hu => xl u (mem_range.1 hu)]
    rw [← Nat.cast_sum]
    congr 1
    rw [← Finset.card_eq_sum_card_fiberwise]
    intro k hk
    exact Finset.mem_coe.2 (mem_range.2 (hE.eg (hK.lt k hk)).1)

theorem flow_idxMatch {n m : Nat} {E : List (Nat × Nat)} (hE : InR n m E) {x : Nat → Int}
    (hx : IsFlow (net n m E) (n + m) (n + m + 1) x) :
    ∃ K, IdxMatch E K ∧ netOut (net n m E) x (n + m) = K.card := by
  have hl := net_length n m E
  have bl : ∀ u, u < n → 0 ≤ x u ∧ x u ≤ 1 := by
    intro u hu
    have := bounds_range hx (k := u) (by omega)
    rw [ed_src hu] at this; simpa using this
  have bm : ∀ k, k < E.length → 0 ≤ x (n + k) ∧ x (n + k) ≤ 1 := by
    intro k hk
    have := bounds_range hx (k := n + k) (by omega)
    rw [ed_mid hk] at this; simpa using this
  have br : ∀ v, v < m → 0 ≤ x (n + E.length + v) ∧ x (n + E.length + v) ≤ 1 := by
    intro v hv
    have := bounds_range hx (k := n + E.length + v) (by omega)
    rw [ed_snk hv] at this; simpa using this
  have cl : ∀ u, u < n → ∑ k ∈ range E.length, (if (eg E k).1 = u then x (n + k) else 0) = x u := by
    intro u hu
    have := hx.cons u (by omega) (by omega)
    rw [out_left hE x hu] at this; omega
  have cr : ∀ v, v < m → ∑ k ∈ range E.length, (if (eg E k).2 = v then x (n + k) else 0) = x (n + E.length + v) := by
    intro v hv
    have := hx.cons (n + v) (by omega) (by omega)
    rw [out_right hE x hv] at this; omega
  let K := (range E.length).filter fun k => x (n + k) = 1
  have two : ∀ (P : Nat → Prop) [DecidablePred P], ∑ k ∈ range E.length, (if P k then x (n + k) else 0) ≤ 1 →
      ∀ k ∈ K, ∀ k' ∈ K, P k → P k' → k = k' := by
    intro P _ hs k hk k' hk' h h'
    by_contra hne
    rw [Finset.mem_filter] at hk hk'
    have hsub : ({k, k'} : Finset Nat) ⊆ range E.length := by
      intro j hj
      rcases Finset.mem_insert.1 hj with rfl | hj
      · exact hk.1
      · rw [Finset.mem_singleton.1 hj]; exact hk'.1
    have := Finset.sum_le_sum_of_subset_of_nonneg (f := fun k => if P k then x (n + k) else 0) hsub (by
      intro j hj _
      split
      · exact (bm j (mem_range.1 hj)).1
      · exact le_refl _)
    rw [Finset.sum_pair hne, if_pos h, if_pos h', hk.2, hk'.2] at this
    omega
  refine ⟨K, ⟨fun k hk => mem_range.1 (Finset.mem_filter.1 hk).1, ?_, ?_⟩, ?_⟩
  · intro k hk k' hk' h
    have hu := (hE.eg (mem_range.1 (Finset.mem_filter.1 hk).1)).1
    exact two (fun j => (eg E j).1 = (eg E k).1) (by rw [cl _ hu]; exact (bl _ hu).2) k hk k' hk' rfl h.symm
  · intro k hk k' hk' h
    have hu := (hE.eg (mem_range.1 (Finset.mem_filter.1 hk).1)).2
    exact two (fun j => (eg E j).2 = (eg E k).2) (by rw [cr _ hu]; exact (br _ hu).2) k hk k' hk' rfl h.symm
  · rw [out_src hE, ← Finset.sum_congr rfl fun u hu => cl u (mem_range.1 hu), Finset.sum_comm]
    have : ∀ k ∈ range E.length, ∑ u ∈ range n, (if (eg E k).1 = u then x (n + k) else 0) =
        if x (n + k) = 1 then 1 else 0 := by
      intro k hk
      have h1 := (hE.eg (mem_range.1 hk)).1
      have h2 := bm k (mem_range.1 hk)
      rw [Finset.sum_ite_eq, if_pos (mem_range.2 h1)]
      split <;> omega
    rw [Finset.sum_congr rfl this, Finset.card_eq_sum_ones, Finset.sum_filter, Nat.cast_sum]
    refine Finset.sum_congr rfl fun k _ => ?_
    split <;> rfl

/-! ### Matchings as lists -/

theorem eg_mem {E : List (Nat × Nat)} {k : Nat} (hk : k < E.length) : eg E k ∈ E := by
  unfold eg
  rw [List.getD_eq_getElem?_getD, List.getElem?_eq_getElem hk]
  simp

theorem eg_idxOf {E : List (Nat × Nat)} {e : Nat × Nat} (he : e ∈ E) : eg E (E.idxOf e) = e := by
  unfold eg
  rw [List.getD_eq_getElem?_getD, List.getElem?_eq_getElem (List.idxOf_lt_length_iff.2 he)]
  simp

theorem idx_of_matching {E M : List (Nat × Nat)} (h : IsMatching E M) : ∃ K, IdxMatch E K ∧ K.card = M.length := by
  have hnd : M.Nodup := List.Nodup.of_map _ h.left
  have hinj : ∀ e ∈ M, ∀ e' ∈ M, E.idxOf e = E.idxOf e' → e = e' := by
    intro e he e' he' hh
    rw [← eg_idxOf (h.sub e he), ← eg_idxOf (h.sub e' he'), hh]
  have hl := List.inj_on_of_nodup_map h.left
  have hr := List.inj_on_of_nodup_map h.right
  refine ⟨M.toFinset.image (E.idxOf ·), ⟨?_, ?_, ?_⟩, ?_⟩
  · intro k hk
    obtain ⟨e, he, rfl⟩ := Finset.mem_image.1 hk
    exact List.idxOf_lt_length_iff.2 (h.sub e (List.mem_toFinset.1 he))
  · intro k hk k' hk' hh
    obtain ⟨e, he, rfl⟩ := Finset.mem_image.1 hk
    obtain ⟨e', he', rfl⟩ := Finset.mem_image.1 hk'
    rw [List.mem_toFinset] at he he'
    rw [eg_idxOf (h.sub e he), eg_idxOf (h.sub e' he')] at hh
    rw [hl he he' hh]
  · intro k hk k' hk' hh
    obtain ⟨e, he, rfl⟩ := Finset.mem_image.1 hk
    obtain ⟨e', he', rfl⟩ := Finset.mem_image.1 hk'
    rw [List.mem_toFinset] at he he'
    rw [eg_idxOf (h.sub e he), eg_idxOf (h.sub e' he')] at hh
    rw [hr he he' hh]
  · rw [Finset.card_image_of_injOn, List.toFinset_card_of_nodup hnd]
    intro e he e' he' hh
    exact hinj e (List.mem_toFinset.1 he) e' (List.mem_toFinset.1 he') hh

theorem matching_of_idx {E : List (Nat × Nat)} {K : Finset Nat} (h : IdxMatch E K) :
    ∃ M, IsMatching E M ∧ M.length = K.card := by
  refine ⟨K.toList.map (eg E), ⟨?_, ?_, ?_⟩, by simp⟩
  · intro e he
    obtain ⟨k, hk, rfl⟩ := List.mem_map.1 he
    exact eg_mem (h.lt k (Finset.mem_toList.1 hk))
  · rw [List.map_map]
    refine List.Nodup.map_on ?_ (Finset.nodup_toList K)
    intro a ha b hb hh
    exact h.left a (Finset.mem_toList.1 ha) b (Finset.mem_toList.1 hb) hh
  · rw [List.map_map]
    refine List.Nodup.map_on ?_ (Finset.nodup_toList K)
    intro a ha b hb hh
    exact h.right a (Finset.mem_toList.1 ha) b (Finset.mem_toList.1 hb) hh

theorem maxFlow_iff {n m : Nat} {E : List (Nat × Nat)} (hE : InR n m E) {v : Int} :
    IsMaxFlow (net n m E) (n + m) (n + m + 1) v ↔ ∃ k : Nat, v = k ∧ IsMaxMatching E k := by
  constructor
  · rintro ⟨⟨x, hx, rfl⟩, hmax⟩
    obtain ⟨K, hK, e⟩ := flow_idxMatch hE hx
    refine ⟨K.card, e, matching_of_idx hK, ?_⟩
    intro M hM
    obtain ⟨K', hK', e'⟩ := idx_of_matching hM
    obtain ⟨x', hx', e''⟩ := idxMatch_flow hE hK'
    have := hmax x' hx'
    omega
  · rintro ⟨k, rfl, ⟨M, hM, rfl⟩, hmax⟩
    obtain ⟨K, hK, e⟩ := idx_of_matching hM
    obtain ⟨x, hx, e'⟩ := idxMatch_flow hE hK
    refine ⟨⟨x, hx, by omega⟩, ?_⟩
    intro x' hx'
    obtain ⟨K', hK', e''⟩ := flow_idxMatch hE hx'
    obtain ⟨M', hM', e3⟩ := matching_of_idx hK'
    have := hmax M' hM'
    omega

/-! ### Cuts and covers -/

theorem matching_le_cover {E M : List (Nat × Nat)} {C D : Finset Nat} (hM : IsMatching E M) (h : IsCover E C D) :
    M.length ≤ C.card + D.card := by
  have hnd : M.Nodup := List.Nodup.of_map _ hM.left
  have hl := List.inj_on_of_nodup_map hM.left
  have hr := List.inj_on_of_nodup_map hM.right
  rw [← List.toFinset_card_of_nodup hnd, ← Finset.card_filter_add_card_filter_not (s := M.toFinset) (fun e => e.1 ∈ C)]
  refine Nat.add_le_add ?_ ?_
  · refine Finset.card_le_card_of_injOn Prod.fst ?_ ?_
    · intro e he
      exact (Finset.mem_filter.1 he).2
    · intro e he e' he' hh
      have h1 := List.mem_toFinset.1 (Finset.mem_filter.1 he).1
      have h2 := List.mem_toFinset.1 (Finset.mem_filter.1 he').1
      exact hl h1 h2 hh
  · refine Finset.card_le_card_of_injOn Prod.snd ?_ ?_
    · intro e he
      obtain ⟨h1, h2⟩ := Finset.mem_filter.1 he
      exact (h e (hM.sub e (List.mem_toFinset.1 h1))).resolve_left h2
    · intro e he e' he' hh
      have h1 := List.mem_toFinset.1 (Finset.mem_filter.1 he).1
      have h2 := List.mem_toFinset.1 (Finset.mem_filter.1 he').1
      exact hr h1 h2 hh

end Verif.FMP
