import Verif.Proof.DinicDfs
/-! Dinic: level search, phases, and max-flow/min-cut. -/
namespace Verif.DinicP
open Res Model Spec FlowP Finset Relation

variable {N : List NEdge} {ty : IntTy}

/-- A level step between vertices that already have a level. -/
def LS (N : List NEdge) (d : Dinic) (h : List Int) (x y : Nat) : Prop :=
  ∃ j, j < 2 * N.length ∧ tl N j = x ∧ hd N j = y ∧ 0 < cp d j ∧ h.getD x (-1) ≠ -1 ∧
    h.getD y (-1) = h.getD x (-1) + 1

/-- Facts about the level table that hold at any time. -/
structure HI (N : List NEdge) (d : Dinic) (s : Nat) (h : List Int) : Prop where
  len : h.length = d.n
  hs : h.getD s (-1) = 0
  rng : ∀ x, h.getD x (-1) = -1 ∨ 0 ≤ h.getD x (-1)
  cnt : ∀ x, h.getD x (-1) < (h.countP (fun o => decide (o ≠ -1)) : Nat)
  reach : ∀ x, h.getD x (-1) ≠ -1 → ReflTransGen (LS N d h) s x

theorem HI.lt {d : Dinic} {s : Nat} {h : List Int} (H : HI N d s h) (x : Nat) :
    h.getD x (-1) < d.n := by
  have h1 := H.cnt x
  have h2 : h.countP (fun o => decide (o ≠ -1)) ≤ h.length := List.countP_le_length
  rw [H.len] at h2
  omega

theorem HI.set {d : Dinic} {s u j : Nat} {h : List Int} (H : HI N d s h) (hu : h.getD u (-1) ≠ -1)
    (hj : j < 2 * N.length) (htl : tl N j = u) (hc : 0 < cp d j) (hv : h.getD (hd N j) (-1) = -1)
    (hvn : hd N j < d.n) :
    HI N d s (h.set (hd N j) (h.getD u (-1) + 1)) ∧
    (∀ x, (h.set (hd N j) (h.getD u (-1) + 1)).getD x (-1) =
      if x = hd N j then h.getD u (-1) + 1 else h.getD x (-1)) ∧
    (h.set (hd N j) (h.getD u (-1) + 1)).countP (fun o => decide (o ≠ -1)) =
      h.countP (fun o => decide (o ≠ -1)) + 1 := by
  have hvl : hd N j < h.length := by rw [H.len]; exact hvn
  have hset : ∀ x, (h.set (hd N j) (h.getD u (-1) + 1)).getD x (-1) =
      if x = hd N j then h.getD u (-1) + 1 else h.getD x (-1) := fun x => getD_set hvl
  have hu0 : 0 ≤ h.getD u (-1) := by
    rcases H.rng u with e | e
    · exact absurd e hu
    · exact e
  have hcnt := countP_visit (a := h.getD u (-1) + 1) hvl hv (by omega)
  have hne : ∀ x, h.getD x (-1) ≠ -1 → x ≠ hd N j := by rintro x hx rfl; exact hx hv
  have hmono : ∀ x y, LS N d h x y → LS N d (h.set (hd N j) (h.getD u (-1) + 1)) x y := by
    rintro x y ⟨i, h1, h2, h3, h4, h5, h6⟩
    have hx0 : 0 ≤ h.getD x (-1) := by
      rcases H.rng x with e | e
      · exact absurd e h5
      · exact e
    refine ⟨i, h1, h2, h3, h4, ?_, ?_⟩
    · rw [hset, if_neg (hne x h5)]; exact h5
    · rw [hset, hset, if_neg (hne x h5), if_neg (hne y (by omega))]; exact h6
  refine ⟨⟨by simpa using H.len, ?_, ?_, ?_, ?_⟩, hset, hcnt⟩
  · rw [hset, if_neg (hne s (by rw [H.hs]; decide))]; exact H.hs
  · intro x
    rw [hset]
    split
    · right; omega
    · exact H.rng x
  · intro x
    rw [hset, hcnt]
    have h1 := H.cnt x
    have h2 := H.cnt u
    push_cast
    split <;> omega
  · intro x hx
    rw [hset] at hx
    by_cases e : x = hd N j
    · subst e
      have hr := ReflTransGen.mono hmono _ _ (H.reach u hu)
      refine hr.tail ⟨j, hj, htl, rfl, hc, ?_, ?_⟩
      · rw [hset, if_neg (hne u hu)]; exact hu
      · rw [hset, hset, if_pos rfl, if_neg (hne u hu)]
    · rw [if_neg e] at hx
      exact ReflTransGen.mono hmono _ _ (H.reach x hx)

/-- What `bfs` guarantees. -/
structure BfsPost (N : List NEdge) (d : Dinic) (s t : Nat) (h : List Int) (b : Bool) : Prop where
  hi : HI N d s h
  found : b = true → s ≠ t ∧ h.getD t (-1) ≠ -1 ∧ (∀ x, h.getD x (-1) ≤ h.getD t (-1)) ∧
    ∀ j, j < 2 * N.length → 0 < cp d j → h.getD (tl N j) (-1) ≠ -1 →
      h.getD (tl N j) (-1) + 1 < h.getD t (-1) →
      h.getD (hd N j) (-1) ≠ -1 ∧ h.getD (hd N j) (-1) ≤ h.getD (tl N j) (-1) + 1
  cut : b = false → (t ≠ s → h.getD t (-1) = -1) ∧
    ∀ j, j < 2 * N.length → h.getD (tl N j) (-1) ≠ -1 → 0 < cp d j → h.getD (hd N j) (-1) ≠ -1

theorem bfs_sat {d : Dinic} {s t : Nat} (h0 : St N d) (hn : d.n < 2 ^ 31) (hs : s < d.n) :
    Sat (d.bfs s t) (fun o => ∃ h, o.1 = { d with h := h } ∧ BfsPost N d s t h o.2) := by
  unfold Dinic.bfs
  have hsl : s < (List.replicate d.h.length (-1 : Int)).length := by simpa [h0.hl] using hs
  simp only []
  rw [upd_of_lt hsl, ok_bind]
  have hrep : ∀ x, ((List.replicate d.h.length (-1 : Int)).set s 0).getD x (-1) =
      if x = s then 0 else -1 := by
    intro x; rw [getD_set hsl, getD_replicate]
  have hcnt0 : ((List.replicate d.h.length (-1 : Int)).set s 0).countP (fun o => decide (o ≠ -1)) = 1 := by
    rw [countP_visit hsl getD_replicate (by decide)]
    simp [List.countP_replicate]
  rw [sat_bind]
  refine (loop_satG (σ := List Int × List Nat) (ρ := List Int × Bool)
    (fun o k => HI N d s o.1 ∧ (∀ x ∈ o.2, o.1.getD x (-1) ≠ -1) ∧
      (∀ j, j < 2 * N.length → o.1.getD (tl N j) (-1) ≠ -1 → tl N j ∉ o.2 → 0 < cp d j →
        o.1.getD (hd N j) (-1) ≠ -1 ∧ o.1.getD (hd N j) (-1) ≤ o.1.getD (tl N j) (-1) + 1) ∧
      (t ≠ s → o.1.getD t (-1) = -1) ∧
      o.2.Pairwise (fun a b => o.1.getD a (-1) ≤ o.1.getD b (-1)) ∧
      (∀ y ∈ o.2, ∀ x, o.1.getD x (-1) ≤ o.1.getD y (-1) + 1) ∧
      k = d.n - o.1.countP (fun o => decide (o ≠ -1)) + o.2.length)
    (fun o => BfsPost N d s t o.1 o.2) ?_ _ _ (d.n - 1 + 1) ⟨⟨?_, ?_, ?_, ?_, ?_⟩, ?_, ?_, ?_, ?_, ?_, ?_⟩
    (by omega)).mono ?_
  · rintro ⟨h, q⟩ k ⟨H, hq, hcl, htt, hpw, hup, rfl⟩
    simp only at H hq hcl htt hpw hup ⊢
    cases q with
    | nil =>
      simp only [sat_ok]
      exact ⟨H, by simp, fun _ => ⟨htt, fun j hj hx hc => (hcl j hj hx (by simp) hc).1⟩⟩
    | cons u q =>
      simp only
      have hu : h.getD u (-1) ≠ -1 := hq u (List.mem_cons_self ..)
      have hun : u < d.n := by rw [← H.len]; exact lt_of_getD_ne hu
      rw [idx_of_some (some_getD [] (by rw [h0.gl]; exact hun)), ok_bind, sat_bind]
      refine (forBrk_sat (σ := List Int × List Nat) (fun xs o => HI N d s o.1 ∧
        (∀ x ∈ o.2, o.1.getD x (-1) ≠ -1) ∧ o.1.getD u (-1) ≠ -1 ∧
        (∀ j, j < 2 * N.length → o.1.getD (tl N j) (-1) ≠ -1 → tl N j ∉ o.2 → tl N j ≠ u → 0 < cp d j →
          o.1.getD (hd N j) (-1) ≠ -1 ∧ o.1.getD (hd N j) (-1) ≤ o.1.getD (tl N j) (-1) + 1) ∧
        (t ≠ s → o.1.getD t (-1) = -1) ∧
        o.2.Pairwise (fun a b => o.1.getD a (-1) ≤ o.1.getD b (-1)) ∧
        (∀ y ∈ o.2, o.1.getD u (-1) ≤ o.1.getD y (-1)) ∧
        (∀ x, o.1.getD x (-1) ≤ o.1.getD u (-1) + 1) ∧
        d.n - o.1.countP (fun o => decide (o ≠ -1)) + o.2.length =
          d.n - h.countP (fun o => decide (o ≠ -1)) + q.length ∧
        ∃ dn, d.g.getD u [] = dn ++ xs ∧ ∀ j ∈ dn, 0 < cp d j → o.1.getD (hd N j) (-1) ≠ -1)
        (fun (h' : List Int) => BfsPost N d s t h' true) (d.g.getD u []) (h, q)
        ⟨H, fun x hx => hq x (List.mem_cons_of_mem _ hx), hu, ?_, htt,
          (List.pairwise_cons.1 hpw).2, (List.pairwise_cons.1 hpw).1, hup u (List.mem_cons_self ..), rfl, [], rfl,
          by simp⟩ ?_).mono ?_
      · intro j hj hx hxq hxu hc
        exact hcl j hj hx (by simp [hxq, hxu]) hc
      · rintro j xs ⟨h1, q1⟩ hjm ⟨H1, hq1, hu1, hcl1, htt1, hpw1, hlo1, hup1, hk1, dn, hdn, hdone⟩
        simp only at H1 hq1 hu1 hcl1 htt1 hpw1 hlo1 hup1 hk1 hdone ⊢
        obtain ⟨hj2, htl⟩ := (h0.g u j).1 hjm
        have hvn := h0.hdn hj2
        rw [idx_of_some (some_getD ⟨0, 0⟩ (by rw [h0.el]; exact hj2)), ok_bind]
        simp only [h0.toh j hj2]
        have hgo : (if 0 < (d.e.getD j ⟨0, 0⟩).cap then do
            let hv ← idx h1 (hd N j)
            ok (decide (hv = -1))
          else ok false : Res Bool) = ok (decide (0 < cp d j ∧ h1.getD (hd N j) (-1) = -1)) := by
          by_cases hc : 0 < (d.e.getD j ⟨0, 0⟩).cap
          · have hc' : 0 < cp d j := hc
            rw [if_pos hc, idx_of_some (some_getD (-1) (by rw [H1.len]; exact hvn)), ok_bind]
            simp [hc']
          · have hc' : ¬ 0 < cp d j := hc
            rw [if_neg hc]; simp [hc']
        rw [hgo, ok_bind]
        by_cases hg : 0 < cp d j ∧ h1.getD (hd N j) (-1) = -1
        · rw [if_pos (by simpa using hg)]
          obtain ⟨hc, hv⟩ := hg
          have hult := H1.lt u
          have hu0 : 0 ≤ h1.getD u (-1) := by
            rcases H1.rng u with e | e
            · exact absurd e hu1
            · exact e
          rw [idx_of_some (some_getD (-1) (by rw [H1.len]; exact hun)), ok_bind,
            ckI_of (by unfold InI; constructor <;> omega), ok_bind,
            upd_of_lt (by rw [H1.len]; exact hvn), ok_bind]
          obtain ⟨H2, hset, hcnt⟩ := H1.set hu1 hj2 htl hc hv hvn
          have hkeep : ∀ x, h1.getD x (-1) ≠ -1 →
              (h1.set (hd N j) (h1.getD u (-1) + 1)).getD x (-1) ≠ -1 := by
            intro x hx
            rw [hset]; split
            · omega
            · exact hx
          have hne : ∀ x, h1.getD x (-1) ≠ -1 → x ≠ hd N j := by rintro x hx rfl; exact hx hv
          have hsame : ∀ x, h1.getD x (-1) ≠ -1 →
              (h1.set (hd N j) (h1.getD u (-1) + 1)).getD x (-1) = h1.getD x (-1) := by
            intro x hx
            rw [hset, if_neg (hne x hx)]
          by_cases hvt : hd N j = t
          · rw [if_pos hvt, sat_ok]
            refine ⟨H2, fun _ => ⟨?_, ?_, ?_, ?_⟩, by simp⟩
            · rintro rfl
              rw [hvt, H1.hs] at hv; cases hv
            · rw [hset, if_pos hvt.symm]; omega
            · intro x
              rw [hset, hset t, if_pos hvt.symm]
              have := hup1 x
              split <;> omega
            · intro i hi hci hx hlt
              rw [hset t, if_pos hvt.symm] at hlt
              by_cases e : tl N i = hd N j
              · rw [e, hset, if_pos rfl] at hlt; omega
              · have hx' : h1.getD (tl N i) (-1) ≠ -1 := by rwa [hset, if_neg e] at hx
                rw [hsame _ hx'] at hlt ⊢
                have hnq : tl N i ∉ q1 := fun hm => by have := hlo1 _ hm; omega
                have hnu : tl N i ≠ u := fun e => by rw [e] at hlt; omega
                obtain ⟨k1, k2⟩ := hcl1 i hi hx' hnq hnu hci
                rw [hsame _ k1]
                exact ⟨k1, k2⟩
          · rw [if_neg hvt, sat_ok]
            refine ⟨H2, ?_, hkeep u hu1, ?_, ?_, ?_, ?_, ?_, ?_, dn ++ [j], by rw [hdn]; simp, ?_⟩
            · intro x hx
              rcases List.mem_append.1 hx with hx | hx
              · exact hkeep x (hq1 x hx)
              · simp at hx; subst hx
                rw [hset, if_pos rfl]; omega
            · intro i hi hx hxq hxu hci
              simp only [List.mem_append, List.mem_singleton, not_or] at hxq
              simp only [hset, if_neg hxq.2] at hx
              obtain ⟨k1, k2⟩ := hcl1 i hi hx hxq.1 hxu hci
              simp only
              rw [hsame _ k1, hsame _ hx]
              exact ⟨k1, k2⟩
            · intro hts
              simp only
              rw [hset, if_neg (Ne.symm hvt)]; exact htt1 hts
            · simp only
              refine List.pairwise_append.2 ⟨?_, List.pairwise_singleton .., ?_⟩
              · refine List.Pairwise.imp_of_mem ?_ hpw1
                intro a b ha hb hab
                rw [hsame _ (hq1 a ha), hsame _ (hq1 b hb)]; exact hab
              · intro a ha b hb
                simp at hb; subst hb
                rw [hsame _ (hq1 a ha), hset, if_pos rfl]
                exact hup1 a
            · intro y hy
              simp only
              rw [hsame _ hu1]
              rcases List.mem_append.1 hy with hy | hy
              · rw [hsame _ (hq1 y hy)]; exact hlo1 y hy
              · simp at hy; subst hy
                rw [hset, if_pos rfl]; omega
            · intro x
              simp only
              rw [hsame _ hu1, hset]
              have := hup1 x
              split <;> omega
            · have hle : (h1.set (hd N j) (h1.getD u (-1) + 1)).countP (fun o => decide (o ≠ -1)) ≤
                (h1.set (hd N j) (h1.getD u (-1) + 1)).length := List.countP_le_length
              rw [H2.len, hcnt] at hle
              simp only [hcnt, List.length_append, List.length_singleton]
              omega
            · intro i hi hci
              rcases List.mem_append.1 hi with hi | hi
              · exact hkeep _ (hdone i hi hci)
              · simp at hi; subst hi
                simp only
                rw [hset, if_pos rfl]; omega
        · rw [if_neg (by simpa using hg), sat_ok]
          refine ⟨H1, hq1, hu1, hcl1, htt1, hpw1, hlo1, hup1, hk1, dn ++ [j], by rw [hdn]; simp, ?_⟩
          intro i hi hci
          rcases List.mem_append.1 hi with hi | hi
          · exact hdone i hi hci
          · simp at hi; subst hi
            exact fun e => hg ⟨hci, e⟩
      · rintro (⟨h1, q1⟩ | h1) hc
        · obtain ⟨H1, hq1, hu1, hcl1, htt1, hpw1, hlo1, hup1, hk1, dn, hdn, hdone⟩ := hc
          rw [List.append_nil] at hdn
          simp only [sat_ok] at *
          refine ⟨_, ?_, H1, hq1, ?_, htt1, hpw1, ?_, rfl⟩
          · rw [hk1]; simp
          · intro j hj hx hxq hc
            by_cases hxu : tl N j = u
            · rw [hxu]
              exact ⟨hdone j (by rw [← hdn]; exact (h0.g u j).2 ⟨hj, hxu⟩) hc, hup1 _⟩
            · exact hcl1 j hj hx hxq hxu hc
          · intro y hy x
            have h1 := hup1 x
            have h2 := hlo1 y hy
            omega
        · simpa only [sat_ok] using hc
  · simpa using h0.hl
  · rw [hrep, if_pos rfl]
  · intro x; rw [hrep]; split
    · right; decide
    · left; rfl
  · intro x
    simp only [hrep, hcnt0]
    split <;> decide
  · intro x hx
    rw [hrep] at hx
    split at hx
    · rename_i e; subst e; exact .refl
    · exact absurd rfl hx
  · intro x hx
    simp at hx; subst hx
    show ((List.replicate d.h.length (-1 : Int)).set x 0).getD x (-1) ≠ -1
    rw [hrep, if_pos rfl]; decide
  · intro j _ hx hxq
    simp only [hrep] at hx
    simp only [List.mem_singleton] at hxq
    rw [if_neg hxq] at hx
    exact absurd rfl hx
  · intro hts
    simp only
    rw [hrep, if_neg hts]
  · exact List.pairwise_singleton ..
  · intro y hy x
    simp at hy; subst hy
    simp only
    rw [hrep, hrep, if_pos rfl]
    split <;> omega
  · simp only [hcnt0]; rfl
  · rintro ⟨h, b⟩ hp
    rw [sat_ok]
    exact ⟨h, rfl, hp⟩

/-! ### `get_max_flow` -/

/-- The flow carried in state `d` relative to the network `N`. -/
def flowOf (N : List NEdge) (d : Dinic) (k : Nat) : Int := (ed N k).a - cp d (2 * k)

theorem cap0_even (k : Nat) : cap0 N (2 * k) = (ed N k).a := by
  unfold cap0; rw [if_pos (by omega), show 2 * k / 2 = k by omega]
theorem cap0_odd (k : Nat) : cap0 N (2 * k + 1) = (ed N k).b := by
  unfold cap0; rw [if_neg (by omega), show (2 * k + 1) / 2 = k by omega]
theorem xor_even (k : Nat) : (2 * k) ^^^ 1 = 2 * k + 1 := by rw [xor_one, if_pos (by omega)]

theorem St.pair' {d : Dinic} (h : St N d) {k : Nat} (hk : k < N.length) :
    cp d (2 * k) + cp d (2 * k + 1) = (ed N k).a + (ed N k).b := by
  have := h.pair (2 * k) (by omega)
  rw [xor_even, cap0_even, cap0_odd] at this
  exact this

/-- Edges carry an admissible flow whose net outflow is `pot` at the start minus `pot` now. -/
theorem flowOf_bounds {d : Dinic} (h : St N d) {k : Nat} (hk : k < N.length) :
    -(ed N k).b ≤ flowOf N d k ∧ flowOf N d k ≤ (ed N k).a := by
  have h1 := h.nn (2 * k) (by omega)
  have h2 := h.nn (2 * k + 1) (by omega)
  have h3 := h.pair' hk
  unfold flowOf
  constructor <;> omega

/-- Potential of the untouched network. -/
def pot0 (N : List NEdge) (y : Nat) : Int :=
  ∑ k ∈ range N.length, ((if (ed N k).u = y then (ed N k).a else 0) -
    (if (ed N k).v = y then (ed N k).a else 0))

theorem netOut_flowOf (d : Dinic) (y : Nat) : netOut N (flowOf N d) y = pot0 N y - pot N d y := by
  rw [netOut_range, pot0, pot, ← Finset.sum_sub_distrib]
  refine Finset.sum_congr rfl fun k _ => ?_
  unfold flowOf
  split <;> split <;> omega

theorem isFlow_of {d : Dinic} {s t : Nat} {ans : Int} (h : St N d)
    (hp : ∀ y, pot N d y = pot0 N y - (dl s y ans - dl t y ans)) :
    IsFlow N s t (flowOf N d) ∧ (∀ y, netOut N (flowOf N d) y = dl s y ans - dl t y ans) := by
  have hn : ∀ y, netOut N (flowOf N d) y = dl s y ans - dl t y ans := by
    intro y; rw [netOut_flowOf, hp]; omega
  refine ⟨⟨?_, ?_⟩, hn⟩
  · intro k
    have := flowOf_bounds h k.2
    rw [ed_eq] at this
    exact this
  · intro y h1 h2
    rw [hn]
    simp [dl, Ne.symm h1, Ne.symm h2]

/-- The network after the call. -/
theorem total_eq {d : Dinic} (h : St N d) : (d.e.map FEdge.cap).sum = total N := by
  have h1 : ∀ (l : List FEdge) (m : Nat), l.length = 2 * m → (l.map FEdge.cap).sum =
      ∑ k ∈ range m, ((l.getD (2 * k) ⟨0, 0⟩).cap + (l.getD (2 * k + 1) ⟨0, 0⟩).cap) := by
    intro l m
    induction m generalizing l with
    | zero => intro hl; simp at hl; subst hl; rfl
    | succ m ih =>
      intro hl
      match l, hl with
      | a :: b :: l, hl =>
        rw [Finset.sum_range_succ', List.map_cons, List.map_cons, List.sum_cons, List.sum_cons,
          ih l (by simp at hl; omega)]
        have : ∀ k, 2 * (k + 1) = 2 * k + 1 + 1 := by intro k; omega
        simp only [this, List.getD_cons_succ, Nat.mul_zero, List.getD_cons_zero, Nat.zero_add]
        ring
  rw [h1 d.e N.length h.el, total]
  refine Finset.sum_congr rfl fun k hk => ?_
  have := h.pair' (mem_range.1 hk)
  exact this

theorem sum_toNat_le (l : List FEdge) : (l.map FEdge.cap).sum.toNat ≤ (l.map fun e => e.cap.toNat).sum := by
  induction l with
  | nil => simp
  | cons e l ih => simp only [List.map_cons, List.sum_cons]; omega

theorem loop_levels {d0 : Dinic} {s t : Nat} (h0 : St N d0)
    (hini : ∀ j, j < 2 * N.length → cp d0 j = cap0 N j) (hfit : Fits ty N)
    (hmx : 0 < ty.mx) (hn : d0.n < 2 ^ 31) (hs : s < d0.n) (ht : t < d0.n) :
    SatOr (∃ x, IsFlow N s t x ∧ ty.mx < netOut N x s) (d0.getMaxFlow ty s t) (fun o =>
      o.2 ≤ ty.mx ∧ St N o.1 ∧ o.1.n = d0.n ∧ o.1.g = d0.g ∧ IsFlow N s t (flowOf N o.1) ∧
      netOut N (flowOf N o.1) s = o.2 ∧ IsMaxFlow N s t o.2 ∧ (s ≠ t → IsMinCut N s t o.2) ∧
      BfsPost N o.1 s t o.1.h false) := by
  have hnn0 : ∀ k < N.length, 0 ≤ (ed N k).a ∧ 0 ≤ (ed N k).b := by
    intro k hk
    have h1 := h0.nn (2 * k) (by omega)
    have h2 := h0.nn (2 * k + 1) (by omega)
    rw [hini _ (by omega), cap0_even] at h1
    rw [hini _ (by omega), cap0_odd] at h2
    exact ⟨h1, h2⟩
  have hpot0 : ∀ y, pot N d0 y = pot0 N y := by
    intro y
    unfold pot pot0
    refine Finset.sum_congr rfl fun k hk => ?_
    rw [hini _ (by have := mem_range.1 hk; omega), cap0_even]
  unfold Dinic.getMaxFlow
  rw [assert_true hs, ok_bind, assert_true ht, ok_bind]
  have htot0 : 0 ≤ total N := by
    unfold total
    exact Finset.sum_nonneg fun k hk => by have := hnn0 k (mem_range.1 hk); omega
  refine loop_satOrG (σ := Dinic × Int) (fun o k => St N o.1 ∧ o.1.n = d0.n ∧ o.1.g = d0.g ∧
    (∀ y, pot N o.1 y = pot0 N y - (dl s y o.2 - dl t y o.2)) ∧ 0 ≤ o.2 ∧ o.2 ≤ ty.mx ∧ (s = t → o.2 = 0) ∧
    k = (total N - o.2).toNat) _ ?_ _ _ (total N).toNat ⟨h0, rfl, rfl, ?_, le_refl _, le_of_lt hmx,
      fun _ => rfl, by simp⟩ (by have := sum_toNat_le d0.e; rw [total_eq h0] at this; omega)
  · rintro ⟨d, ans⟩ k ⟨hst, hdn, hdg, hpot, hans, hansmx, hself, rfl⟩
    simp only at hst hdn hdg hpot hans hansmx hself ⊢
    refine satOr_bind ?_
    refine (bfs_sat (t := t) hst (by omega) (by omega)).toOr.mono ?_
    rintro ⟨d1, b⟩ ⟨h, hd1, hb⟩
    simp only at hd1 hb ⊢
    subst hd1
    have hst1 : St N { d with h := h } := ⟨hst.el, hst.gl, hst.cl, hb.hi.len, hst.toh, hst.tln, hst.g,
      hst.nn, hst.pair⟩
    cases b with
    | true =>
      simp only [if_true]
      obtain ⟨hstt, hht, -⟩ := hb.found rfl
      have hst2 : St N { d with h := h, cur := List.replicate d.cur.length 0 } :=
        ⟨hst.el, hst.gl, by simpa using hst.cl, hb.hi.len, hst.toh, hst.tln, hst.g, hst.nn, hst.pair⟩
      have hcur : CurOk N t { d with h := h, cur := List.replicate d.cur.length 0 } := by
        intro x i j hi
        have : i < (List.replicate d.cur.length 0).getD x 0 := hi
        rw [getD_replicate] at this
        omega
      have hlvs : lv { d with h := h, cur := List.replicate d.cur.length 0 } s = 0 := hb.hi.hs
      refine satOr_bind ?_
      refine (dfs_sat (n := d.n) t hfit (by omega) (d.n + 1) s ty.mx _ hst2 hcur rfl (by omega)
        (fun x => hb.hi.lt x) (by rw [hlvs]) hmx (le_refl _) (by rw [hlvs]; push_cast; omega)).toOr.mono ?_
      rintro ⟨d2, a⟩ ⟨hP, ha0, ham, hdead⟩
      simp only at hP ha0 ham hdead ⊢
      have hpath : ReflTransGen (LStep N { d with h := h, cur := List.replicate d.cur.length 0 }) s t := by
        refine ReflTransGen.mono ?_ _ _ (hb.hi.reach t hht)
        rintro x y ⟨j, h1, h2, h3, h4, _, h6⟩
        exact ⟨j, h1, h2, h3, h4, h6⟩
      have hapos : 0 < a := by
        apply lt_of_le_of_ne ha0
        intro e
        have hz := hP.zero e.symm
        apply hdead (by omega)
        refine ReflTransGen.mono ?_ _ _ hpath
        rintro x y ⟨j, h1, h2, h3, h4, h5⟩
        refine ⟨j, h1, h2, h3, by rw [hz j h1]; exact h4, ?_⟩
        rw [hP.mono.lv]; exact h5
      have hpot2 : ∀ y, pot N d2 y = pot0 N y - (dl s y (ans + a) - dl t y (ans + a)) := by
        intro y
        have e1 := hP.pot y
        have e2 : pot N { d with h := h, cur := List.replicate d.cur.length 0 } y = pot N d y := rfl
        rw [e1, e2, hpot]
        simp only [dl]
        split <;> split <;> omega
      obtain ⟨hfl, hval⟩ := isFlow_of hP.st hpot2
      have hvs : netOut N (flowOf N d2) s = ans + a := by
        rw [hval]; simp [dl, Ne.symm hstt]
      by_cases hov : ans + a ≤ ty.mx
      · rw [IntTy.ck_of (IntTy.in_of_nonneg (by omega) hov), ok_bind]
        have hle := value_le_total hfl hnn0
        rw [hvs] at hle
        refine (satOr_ok.2 ⟨(total N - (ans + a)).toNat, by omega, hP.st, hP.n.trans hdn, hP.g.trans hdg,
          hpot2, by simp only; omega, hov, fun e => absurd e hstt, rfl⟩)
      · rw [IntTy.ck_panic (fun h => hov h.2)]
        refine satOr_panic ⟨flowOf N d2, hfl, ?_⟩
        rw [hvs]; omega
    | false =>
      simp only [Bool.false_eq_true, if_false]
      obtain ⟨hfl, hval⟩ := isFlow_of hst hpot
      have hfl1 : flowOf N { d with h := h } = flowOf N d := rfl
      rw [satOr_ok]
      by_cases hstt : s = t
      · subst hstt
        have hz := hself rfl
        have hv0 := value_self hfl
        refine ⟨hansmx, hst1, hdn, hdg, hfl, by rw [hfl1, hv0, hz], ⟨⟨_, hfl, by rw [hv0, hz]⟩, fun x hx => ?_⟩,
          fun h => absurd rfl h, ⟨⟨hb.hi.len, hb.hi.hs, hb.hi.rng, hb.hi.cnt, hb.hi.reach⟩, hb.found, hb.cut⟩⟩
        rw [value_self hx, hz]
      · have hvs : netOut N (flowOf N d) s = ans := by
          rw [hval]; simp [dl, Ne.symm hstt]
        obtain ⟨hcut1, hcut2⟩ := hb.cut rfl
        let S : Finset Nat := (range d.n).filter fun x => h.getD x (-1) ≠ -1
        have hS : ∀ x, x ∈ S ↔ h.getD x (-1) ≠ -1 := by
          intro x
          simp only [S, mem_filter, mem_range]
          exact ⟨fun h => h.2, fun hx => ⟨by rw [← hb.hi.len]; exact lt_of_getD_ne hx, hx⟩⟩
        have hsS : s ∈ S := (hS s).2 (by rw [hb.hi.hs]; decide)
        have htS : t ∉ S := fun h' => (hS t).1 h' (hcut1 (Ne.symm hstt))
        have hclose : ∀ j, j < 2 * N.length → tl N j ∈ S → hd N j ∉ S → cp d j = 0 := by
          intro j hj h1 h2
          have h3 := hst.nn j hj
          apply le_antisymm _ h3
          apply not_lt.1
          intro hc
          exact h2 ((hS _).2 (hcut2 j hj ((hS _).1 h1) hc))
        have heq : netOut N (flowOf N d) s = cutCap N S := by
          rw [value_cut hfl hsS htS, cutCap_range]
          refine Finset.sum_congr rfl fun k hk => ?_
          have hk := mem_range.1 hk
          have e1 : tl N (2 * k) = (ed N k).u := by
            unfold tl; rw [if_pos (by omega), show 2 * k / 2 = k by omega]
          have e2 : hd N (2 * k) = (ed N k).v := by
            unfold hd; rw [if_pos (by omega), show 2 * k / 2 = k by omega]
          have e3 : tl N (2 * k + 1) = (ed N k).v := by
            unfold tl; rw [if_neg (by omega), show (2 * k + 1) / 2 = k by omega]
          have e4 : hd N (2 * k + 1) = (ed N k).u := by
            unfold hd; rw [if_neg (by omega), show (2 * k + 1) / 2 = k by omega]
          have c1 := hclose (2 * k) (by omega)
          have c2 := hclose (2 * k + 1) (by omega)
          have hp := hst.pair' hk
          rw [e1, e2] at c1
          rw [e3, e4] at c2
          unfold flowOf
          by_cases hu : (ed N k).u ∈ S <;> by_cases hv : (ed N k).v ∈ S
          · simp [hu, hv]
          · have := c1 hu hv
            simp [hu, hv, this]
          · have := c2 hv hu
            simp [hu, hv]; omega
          · simp [hu, hv]
        refine ⟨hansmx, hst1, hdn, hdg, hfl, hvs, ⟨⟨_, hfl, hvs⟩, fun x hx => ?_⟩, fun _ => ⟨⟨S, hsS, htS, ?_⟩, ?_⟩,
          ⟨⟨hb.hi.len, hb.hi.hs, hb.hi.rng, hb.hi.cnt, hb.hi.reach⟩, hb.found, hb.cut⟩⟩
        · rw [← hvs, heq]; exact value_le_cut hx hsS htS
        · rw [← heq, hvs]
        · intro S' h1 h2
          rw [← hvs]; exact value_le_cut hfl h1 h2
  · intro y
    rw [hpot0]; simp [dl]

theorem loop_sat' {d0 : Dinic} {s t : Nat} (h0 : St N d0)
    (hini : ∀ j, j < 2 * N.length → cp d0 j = cap0 N j) (hfit : Fits ty N)
    (hmx : 0 < ty.mx) (hn : d0.n < 2 ^ 31) (hs : s < d0.n) (ht : t < d0.n) :
    SatOr (∃ x, IsFlow N s t x ∧ ty.mx < netOut N x s) (d0.getMaxFlow ty s t) (fun o =>
      o.2 ≤ ty.mx ∧ St N o.1 ∧ o.1.n = d0.n ∧ o.1.g = d0.g ∧ IsFlow N s t (flowOf N o.1) ∧
      netOut N (flowOf N o.1) s = o.2 ∧ IsMaxFlow N s t o.2 ∧ (s ≠ t → IsMinCut N s t o.2)) := by
  refine (loop_levels h0 hini hfit hmx hn hs ht).mono ?_
  rintro o ⟨h1, h2, h3, h4, h5, h6, h7, h8, -⟩
  exact ⟨h1, h2, h3, h4, h5, h6, h7, h8⟩

end Verif.DinicP
