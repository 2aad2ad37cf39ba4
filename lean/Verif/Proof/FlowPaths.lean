import Verif.Spec.FlowPaths
import Verif.Proof.Flow
/-! Flows as packings of walks. -/
namespace Verif.FlowP
open Spec Finset

variable {N : List NEdge} {s t : Nat}

theorem ed_some {k : Nat} {e : NEdge} (h : N[k]? = some e) : ed N k = e := by
  unfold ed; rw [List.getD_eq_getElem?_getD, h]; rfl

theorem some_ed {k : Nat} (h : k < N.length) : N[k]? = some (ed N k) := by
  unfold ed; rw [List.getD_eq_getElem?_getD, List.getElem?_eq_getElem h]; rfl

theorem net_add (x x' : Nat → Int) (y : Nat) :
    netOut N (fun k => x k + x' k) y = netOut N x y + netOut N x' y := by
  simp only [netOut_range, ← Finset.sum_add_distrib]
  refine Finset.sum_congr rfl fun k _ => ?_
  split <;> split <;> ring

theorem net_sub (x x' : Nat → Int) (y : Nat) :
    netOut N (fun k => x k - x' k) y = netOut N x y - netOut N x' y := by
  simp only [netOut_range, ← Finset.sum_sub_distrib]
  refine Finset.sum_congr rfl fun k _ => ?_
  split <;> split <;> ring

theorem netOut_single {k : Nat} (hk : k < N.length) (y : Nat) :
    netOut N (fun j => if k = j then 1 else 0) y =
      (if (ed N k).u = y then 1 else 0) - (if (ed N k).v = y then 1 else 0) := by
  rw [netOut_range, Finset.sum_eq_single k]
  · simp
  · intro j _ hj
    simp [Ne.symm hj]
  · intro h; exact absurd (mem_range.2 hk) h

theorem netOut_zero (y : Nat) : netOut N (fun _ => 0) y = 0 := by
  rw [netOut_range]; exact Finset.sum_eq_zero fun k _ => by simp

theorem walk_net {p : List Nat} {x z : Nat} (h : EWalk N x p z) (y : Nat) :
    netOut N (fun k => (p.count k : Int)) y = (if x = y then 1 else 0) - (if z = y then 1 else 0) := by
  induction p generalizing x with
  | nil =>
    have e : x = z := h
    subst e
    simp only [List.count_nil, Nat.cast_zero, netOut_zero]; ring
  | cons k p ih =>
    obtain ⟨e, h1, h2, h3⟩ := h
    have hk : k < N.length := by rw [List.getElem?_eq_some_iff] at h1; exact h1.1
    have : (fun j => (((k :: p).count j : Nat) : Int)) = fun j => (p.count j : Int) + (if k = j then 1 else 0) := by
      funext j
      rw [List.count_cons]
      by_cases h : k = j <;> simp [h]
    rw [this, net_add, ih h3, netOut_single hk, ed_some h1, h2]
    ring

theorem walks_net {ps : List (List Nat)} (h : ∀ p ∈ ps, EWalk N s p t) (y : Nat) :
    netOut N (fun k => (ps.flatten.count k : Int)) y =
      ps.length * ((if s = y then 1 else 0) - (if t = y then 1 else 0)) := by
  induction ps with
  | nil => simp [netOut_zero]
  | cons p ps ih =>
    have : (fun j => (((p :: ps).flatten.count j : Nat) : Int)) =
        fun j => (p.count j : Int) + (ps.flatten.count j : Int) := by
      funext j
      rw [List.flatten_cons, List.count_append]; push_cast; rfl
    rw [this, net_add, walk_net (h p (by simp)), ih fun q hq => h q (List.mem_cons_of_mem _ hq), List.length_cons]
    push_cast; ring

theorem packing_flow (hN : ∀ e ∈ N, e.b = 0) (hst : s ≠ t) {ps : List (List Nat)} (h : IsPacking N s t ps) :
    ∃ x, IsFlow N s t x ∧ netOut N x s = ps.length := by
  refine ⟨fun k => (ps.flatten.count k : Int), ⟨fun k => ⟨?_, ?_⟩, fun y h1 h2 => ?_⟩, ?_⟩
  · have := hN N[k] (List.getElem_mem _)
    rw [this]; simp
  · exact h.cap k N[k] (List.getElem?_eq_getElem _)
  · rw [walks_net h.walk, if_neg (Ne.symm h1), if_neg (Ne.symm h2)]; ring
  · rw [walks_net h.walk, if_pos rfl, if_neg (Ne.symm hst)]; ring

theorem walk_append {p q : List Nat} {x z : Nat} : EWalk N x (p ++ q) z ↔ ∃ y, EWalk N x p y ∧ EWalk N y q z := by
  induction p generalizing x with
  | nil => simp [EWalk]
  | cons k p ih =>
    simp only [List.cons_append, EWalk, ih]
    constructor
    · rintro ⟨e, h1, h2, y, h3, h4⟩; exact ⟨y, ⟨e, h1, h2, h3⟩, h4⟩
    · rintro ⟨y, ⟨e, h1, h2, h3⟩, h4⟩; exact ⟨e, h1, h2, y, h3, h4⟩

/-- A walk without repeated edges among the edges of a walk. -/
theorem walk_nodup {p : List Nat} {x y : Nat} (h : EWalk N x p y) : ∃ q, q.Nodup ∧ q ⊆ p ∧ EWalk N x q y := by
  induction p generalizing x with
  | nil => exact ⟨[], List.nodup_nil, fun _ h => h, h⟩
  | cons k p ih =>
    obtain ⟨e, h1, h2, h3⟩ := h
    obtain ⟨q, q1, q2, q3⟩ := ih h3
    by_cases hk : k ∈ q
    · obtain ⟨a, b, rfl⟩ := List.append_of_mem hk
      obtain ⟨z, z1, e', z2, z3, z4⟩ := walk_append.1 q3
      have : e' = e := by rw [z2] at h1; exact Option.some.inj h1
      subst this
      exact ⟨k :: b, q1.sublist (List.sublist_append_right a _),
        fun j hj => by
          rcases List.mem_cons.1 hj with rfl | hj
          · exact List.mem_cons_self
          · exact List.mem_cons_of_mem _ (q2 (List.mem_append_right _ (List.mem_cons_of_mem _ hj))),
        e', h1, h2, z4⟩
    · exact ⟨k :: q, List.nodup_cons.2 ⟨hk, q1⟩, List.cons_subset_cons k q2, e, h1, h2, q3⟩

/-- A flow of positive value carries something along a walk. -/
theorem walk_exists {x : Nat → Int} (h : IsFlow N s t x) (h0 : ∀ k < N.length, 0 ≤ x k) (hv : 0 < netOut N x s) :
    ∃ p, p.Nodup ∧ EWalk N s p t ∧ ∀ k ∈ p, k < N.length ∧ 1 ≤ x k := by
  classical
  by_contra hc
  let R : Nat → Prop := fun y => ∃ p, EWalk N s p y ∧ ∀ k ∈ p, k < N.length ∧ 1 ≤ x k
  let S : Finset Nat := (insert s ((range N.length).image fun k => (ed N k).v)).filter R
  have hs : s ∈ S := mem_filter.2 ⟨mem_insert_self _ _, [], rfl, by simp⟩
  have ht : t ∉ S := by
    intro h'
    obtain ⟨p, h1, h2⟩ := (mem_filter.1 h').2
    obtain ⟨q, q1, q2, q3⟩ := walk_nodup h1
    exact hc ⟨q, q1, q3, fun k hk => h2 k (q2 hk)⟩
  have hcl : ∀ k < N.length, (ed N k).u ∈ S → (ed N k).v ∉ S → x k ≤ 0 := by
    intro k hk hu hv
    by_contra h1
    obtain ⟨p, p1, p2⟩ := (mem_filter.1 hu).2
    refine hv (mem_filter.2 ⟨mem_insert_of_mem (mem_image_of_mem (fun k => (ed N k).v) (mem_range.2 hk)),
      p ++ [k], walk_append.2 ⟨_, p1, ed N k, some_ed hk, rfl, rfl⟩, ?_⟩)
    intro j hj
    rcases List.mem_append.1 hj with hj | hj
    · exact p2 j hj
    · rw [List.mem_singleton.1 hj]; exact ⟨hk, by omega⟩
  have : netOut N x s ≤ 0 := by
    rw [value_cut h hs ht]
    refine Finset.sum_nonpos fun k hk => ?_
    have hk := mem_range.1 hk
    have h1 := h0 k hk
    by_cases hu : (ed N k).u ∈ S <;> by_cases hv : (ed N k).v ∈ S
    · simp [hu, hv]
    · have := hcl k hk hu hv; simp [hu, hv, this]
    · simp [hu, hv, h1]
    · simp [hu, hv]
  omega

theorem flow_packing (hN : ∀ e ∈ N, e.b = 0) (hst : s ≠ t) {x : Nat → Int} (h : IsFlow N s t x) {v : Nat}
    (hv : netOut N x s = v) : ∃ ps, IsPacking N s t ps ∧ ps.length = v := by
  have hb : ∀ k < N.length, (ed N k).b = 0 := fun k hk => by rw [show ed N k = _ from ed_eq ⟨k, hk⟩]; exact hN _ (List.getElem_mem _)
  have h0 : ∀ k < N.length, 0 ≤ x k := fun k hk => by have := (bounds_range h hk).1; rw [hb k hk] at this; omega
  suffices H : ∃ ps : List (List Nat), (∀ p ∈ ps, EWalk N s p t) ∧ (∀ k < N.length, (ps.flatten.count k : Int) ≤ x k) ∧ ps.length = v by
    obtain ⟨ps, h1, h2, h3⟩ := H
    refine ⟨ps, ⟨h1, fun k e he => ?_⟩, h3⟩
    have hk : k < N.length := by rw [List.getElem?_eq_some_iff] at he; exact he.1
    have := (bounds_range h hk).2
    rw [ed_some he] at this
    exact (h2 k hk).trans this
  induction v generalizing x with
  | zero => exact ⟨[], by simp, fun k hk => by simpa using h0 k hk, rfl⟩
  | succ v ih =>
    obtain ⟨p, p1, p2, p3⟩ := walk_exists h h0 (by rw [hv]; push_cast; omega)
    have hc : ∀ k < N.length, (p.count k : Int) ≤ x k := by
      intro k hk
      by_cases hm : k ∈ p
      · have := p3 k hm
        rw [List.count_eq_one_of_mem p1 hm]; push_cast; omega
      · rw [List.count_eq_zero.2 hm]; exact h0 k hk
    have hf : IsFlow N s t (fun k => x k - (p.count k : Int)) := by
      refine ⟨fun k => ?_, fun y h1 h2 => ?_⟩
      · have h1 := h.bounds k
        have h2 := hc k k.2
        have h3 := hN N[k] (List.getElem_mem _)
        rw [h3] at h1 ⊢
        exact ⟨by omega, by omega⟩
      · rw [net_sub, h.cons y h1 h2, walk_net p2, if_neg (Ne.symm h1), if_neg (Ne.symm h2)]; ring
    obtain ⟨ps, q1, q2, q3⟩ := ih hf (by
      rw [net_sub, hv, walk_net p2, if_pos rfl, if_neg (Ne.symm hst)]; push_cast; ring)
      (fun k hk => by have := hc k hk; show 0 ≤ x k - _; omega)
    refine ⟨p :: ps, ?_, fun k hk => ?_, by rw [List.length_cons, q3]⟩
    · intro q hq
      rcases List.mem_cons.1 hq with rfl | hq
      · exact p2
      · exact q1 q hq
    · have := q2 k hk
      rw [List.flatten_cons, List.count_append]; push_cast; omega

theorem maxFlow_packing (hN : ∀ e ∈ N, 0 ≤ e.a ∧ e.b = 0) (hst : s ≠ t) {v : Int} :
    IsMaxFlow N s t v ↔ ∃ k : Nat, v = k ∧ IsMaxPacking N s t k := by
  have hb : ∀ e ∈ N, e.b = 0 := fun e he => (hN e he).2
  have hnat : IsMaxFlow N s t v → ∃ k : Nat, v = k := by
    intro h
    refine ⟨v.toNat, ?_⟩
    have : 0 ≤ v := by
      have := h.2 (fun _ => 0) ⟨fun k => by rw [hb N[k] (List.getElem_mem _)]; exact ⟨by simp, (hN N[k] (List.getElem_mem _)).1⟩,
        fun y _ _ => netOut_zero y⟩
      rwa [netOut_zero] at this
    omega
  constructor
  · intro h
    obtain ⟨k, rfl⟩ := hnat h
    obtain ⟨⟨x, h1, h2⟩, h3⟩ := h
    refine ⟨k, rfl, flow_packing hb hst h1 h2, fun ps hps => ?_⟩
    obtain ⟨x', h4, h5⟩ := packing_flow hb hst hps
    have := h3 x' h4
    omega
  · rintro ⟨k, rfl, ⟨ps, h1, rfl⟩, h2⟩
    refine ⟨packing_flow hb hst h1, fun x hx => ?_⟩
    by_contra hlt
    obtain ⟨m, hm⟩ : ∃ m : Nat, netOut N x s = m := ⟨(netOut N x s).toNat, by omega⟩
    obtain ⟨ps', h3, h4⟩ := flow_packing hb hst hx hm
    have := h2 ps' h3
    omega

/-- A packing is no larger than the capacity of a separator. -/
theorem packing_le_separator {ps : List (List Nat)} (h : IsPacking N s t ps) {F : Finset (Fin N.length)}
    (hF : Separates N s t F) : (ps.length : Int) ≤ ∑ k ∈ F, N[k].a := by
  have h1 : ∀ qs : List (List Nat), (∀ p ∈ qs, EWalk N s p t) → qs.length ≤ ∑ k ∈ F, qs.flatten.count (k : Nat) := by
    intro qs
    induction qs with
    | nil => simp
    | cons q qs ih =>
      intro hq
      obtain ⟨k, k1, k2⟩ := hF q (hq q (by simp))
      have h2 := ih fun p hp => hq p (List.mem_cons_of_mem _ hp)
      simp only [List.flatten_cons, List.count_append, List.length_cons, Finset.sum_add_distrib]
      have h3 : 1 ≤ ∑ k ∈ F, q.count (k : Nat) :=
        (List.one_le_count_iff.2 k2).trans (Finset.single_le_sum (f := fun k : Fin N.length => q.count (k : Nat))
          (fun _ _ => Nat.zero_le _) k1)
      omega
  have h2 := h1 ps h.walk
  have h3 : ((∑ k ∈ F, ps.flatten.count (k : Nat) : Nat) : Int) ≤ ∑ k ∈ F, N[k].a := by
    push_cast
    exact Finset.sum_le_sum fun k _ => h.cap k N[k] (List.getElem?_eq_getElem _)
  omega

/-- The edges that leave a set with `s` and without `t` separate. -/
theorem cut_separates {S : Finset Nat} (hs : s ∈ S) (ht : t ∉ S) :
    Separates N s t (univ.filter fun k : Fin N.length => N[k].u ∈ S ∧ N[k].v ∉ S) := by
  intro p hp
  induction p generalizing s with
  | nil => cases (show s = t from hp); exact absurd hs ht
  | cons k p ih =>
    obtain ⟨e, h1, h2, h3⟩ := hp
    obtain ⟨hk, h1⟩ := List.getElem?_eq_some_iff.1 h1
    by_cases hv : e.v ∈ S
    · obtain ⟨j, j1, j2⟩ := ih hv h3
      exact ⟨j, j1, List.mem_cons_of_mem _ j2⟩
    · refine ⟨⟨k, hk⟩, mem_filter.2 ⟨mem_univ _, ?_⟩, List.mem_cons_self⟩
      show N[k].u ∈ S ∧ N[k].v ∉ S
      rw [h1, h2]; exact ⟨hs, hv⟩

theorem cutCap_plain (hN : ∀ e ∈ N, e.b = 0) (S : Finset Nat) :
    cutCap N S = ∑ k ∈ univ.filter (fun k : Fin N.length => N[k].u ∈ S ∧ N[k].v ∉ S), N[k].a := by
  rw [cutCap, Finset.sum_filter]
  refine Finset.sum_congr rfl fun k _ => ?_
  split
  · rfl
  · rw [show N[k].b = 0 from hN _ (List.getElem_mem _)]; simp

theorem minSeparator (hN : ∀ e ∈ N, 0 ≤ e.a ∧ e.b = 0) {k : Nat} (h1 : IsMaxPacking N s t k)
    (h2 : IsMinCut N s t k) : IsMinSeparator N s t k := by
  obtain ⟨⟨S, s1, s2, s3⟩, -⟩ := h2
  obtain ⟨⟨ps, p1, rfl⟩, -⟩ := h1
  refine ⟨⟨_, cut_separates s1 s2, ?_⟩, fun F hF => packing_le_separator p1 hF⟩
  rw [← cutCap_plain fun e he => (hN e he).2, s3]

/-! ### Residual reachability -/

/-- Across a cut whose capacity is the value of a flow nothing more can be carried. -/
theorem tight {x : Nat → Int} (h : IsFlow N s t x) {S : Finset Nat} (hs : s ∈ S) (ht : t ∉ S)
    (hv : cutCap N S = netOut N x s) {y z : Nat} (hy : y ∈ S) (hyz : RStep N x y z) : z ∈ S := by
  rw [value_cut h hs ht, cutCap_range] at hv
  have hle : ∀ k ∈ range N.length, ((if (ed N k).u ∈ S then x k else 0) - (if (ed N k).v ∈ S then x k else 0)) ≤
      (if (ed N k).u ∈ S ∧ (ed N k).v ∉ S then (ed N k).a
      else if (ed N k).u ∉ S ∧ (ed N k).v ∈ S then (ed N k).b else 0) := by
    intro k hk
    obtain ⟨h1, h2⟩ := bounds_range h (Finset.mem_range.1 hk)
    by_cases hu : (ed N k).u ∈ S <;> by_cases hv : (ed N k).v ∈ S <;> simp [hu, hv] <;> omega
  have heq := (Finset.sum_eq_sum_iff_of_le hle).1 hv.symm
  by_contra hz
  obtain ⟨k, ⟨h1, h2, h3⟩ | ⟨h1, h2, h3⟩⟩ := hyz <;> have := heq k (mem_range.2 k.2) <;> rw [ed_eq, h1, h2] at this
  · simp [hy, hz] at this
    simp at h3; omega
  · simp [hy, hz] at this
    simp at h3; omega

theorem reach_tight {x : Nat → Int} (h : IsFlow N s t x) {S : Finset Nat} (hs : s ∈ S) (ht : t ∉ S)
    (hv : cutCap N S = netOut N x s) {y : Nat} (hy : RReach N x s y) : y ∈ S := by
  induction hy with
  | refl => exact hs
  | tail _ hst ih => exact tight h hs ht hv ih hst

/-- What can be reached from `s` bounds a cut whose capacity is the value of the flow, if `t` cannot be reached. -/
theorem reach_cut {x : Nat → Int} (h : IsFlow N s t x) {S : Finset Nat} (hS : ∀ y, y ∈ S ↔ RReach N x s y)
    (ht : t ∉ S) : cutCap N S = netOut N x s := by
  rw [value_cut h ((hS s).2 .refl) ht, cutCap_range]
  refine Finset.sum_congr rfl fun k hk => ?_
  have hk := mem_range.1 hk
  obtain ⟨b1, b2⟩ := bounds_range h hk
  have e : ed N k = N[(⟨k, hk⟩ : Fin N.length)] := ed_eq (N := N) ⟨k, hk⟩
  by_cases hu : (ed N k).u ∈ S <;> by_cases hv : (ed N k).v ∈ S
  · simp [hu, hv]
  · simp only [hu, hv, not_false_eq_true, and_self, if_true, if_false]
    by_contra hne
    refine hv ((hS _).2 (((hS _).1 hu).tail ⟨⟨k, hk⟩, .inl ?_⟩))
    rw [← e]; exact ⟨rfl, rfl, by show x k < _; omega⟩
  · simp only [hu, hv, not_false_eq_true, and_self, if_true, if_false, not_true]
    by_contra hne
    refine hu ((hS _).2 (((hS _).1 hv).tail ⟨⟨k, hk⟩, .inr ?_⟩))
    rw [← e]; exact ⟨rfl, rfl, by show _ < x k; omega⟩
  · simp [hu, hv]

end Verif.FlowP
