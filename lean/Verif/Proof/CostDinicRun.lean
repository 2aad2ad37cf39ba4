import Verif.Proof.CostDinic
/-! Work done by one search and by one blocking search of `Dinic`. -/
namespace Verif.DinicP
open Res Model Spec FlowP Finset Relation

variable {N : List NEdge} {ty : IntTy}

/-- Number of arcs in the adjacency lists. -/
def arcs (g : List (List Nat)) : Nat := (g.map List.length).sum

theorem arcs_eq (g : List (List Nat)) : arcs g = ∑ i ∈ range g.length, (g.getD i []).length := by
  unfold arcs
  induction g with
  | nil => simp
  | cons x g ih => rw [List.length_cons, Finset.sum_range_succ', List.map_cons, List.sum_cons, ih]; simp; omega

theorem deg_sum_le {g : List (List Nat)} {D : List Nat} (hD : D.Nodup) :
    (D.map fun x => (g.getD x []).length).sum ≤ arcs g := by
  have h1 : (D.map fun x => (g.getD x []).length).sum = ∑ x ∈ D.toFinset, (g.getD x []).length :=
    (List.sum_toFinset _ hD).symm
  rw [h1, arcs_eq]
  have h2 : ∑ x ∈ D.toFinset, (g.getD x []).length =
      ∑ x ∈ D.toFinset.filter (· < g.length), (g.getD x []).length := by
    rw [Finset.sum_filter_of_ne]
    intro x _ hx
    apply Nat.lt_of_not_le
    intro hl
    rw [List.getD_eq_getElem?_getD, List.getElem?_eq_none hl] at hx
    exact hx rfl
  rw [h2]
  exact Finset.sum_le_sum_of_subset fun x hx => mem_range.2 (Finset.mem_filter.1 hx).2

/-- Counting while searching: the vertices taken from the queue are different, and have a level. -/
def BfsCnt (g : List (List Nat)) (h : List Int) (q : List Nat) (D : List Nat) (c : Nat) : Prop :=
  (D ++ q).Nodup ∧ (∀ x ∈ D ++ q, h.getD x (-1) ≠ -1) ∧ (∀ x, h.getD x (-1) = -1 ∨ 0 ≤ h.getD x (-1)) ∧
    c ≤ (D.map fun x => (g.getD x []).length).sum

theorem bfsCost_le (d : Dinic) (s t : Nat) : Post (d.bfsCost s t) fun o => o.2 ≤ arcs d.g := by
  unfold Dinic.bfsCost
  refine post_bind (post_upd.mono ?_)
  rintro h0 ⟨hs, rfl⟩
  refine post_bind (Post.mono (P := fun o => o.2 ≤ arcs d.g) (post_loop
    (I := fun o => ∃ D, BfsCnt d.g o.1 o.2.1 D o.2.2) ⟨[], ?_⟩ ?_) ?_)
  · refine ⟨by simp, ?_, ?_, by simp⟩
    · intro x hx
      simp only [List.nil_append, List.mem_singleton] at hx
      subst hx
      simp only
      rw [getD_set hs, if_pos rfl]; decide
    · intro x
      simp only
      rw [getD_set hs, getD_replicate]
      split
      · right; decide
      · left; rfl
  · rintro ⟨h, q, c⟩ ⟨D, hnd, hv, hr, hc⟩
    simp only at hnd hv hr hc
    cases q with
    | nil =>
      refine post_ok ?_
      simp only
      exact hc.trans (deg_sum_le (by simpa using hnd))
    | cons u q =>
      simp only
      refine post_bind (post_idx.mono ?_)
      intro gu hgu
      have hdeg : (d.g.getD u []).length = gu.length := by
        rw [List.getD_eq_getElem?_getD, hgu]; rfl
      have hDu : (D ++ [u]).Nodup := by
        rw [show D ++ u :: q = (D ++ [u]) ++ q by simp] at hnd
        exact (List.nodup_append.1 hnd).1
      have hsum : ((D ++ [u]).map fun x => (d.g.getD x []).length).sum =
          (D.map fun x => (d.g.getD x []).length).sum + gu.length := by
        rw [List.map_append, List.sum_append]; simp only [List.map_cons, List.map_nil, List.sum_cons, List.sum_nil]
        rw [hdeg]; omega
      have hle : (D.map fun x => (d.g.getD x []).length).sum + gu.length ≤ arcs d.g := by
        rw [← hsum]; exact deg_sum_le hDu
      refine post_bind ((post_forBrk (Q := fun o => o.2 ≤ arcs d.g)
        (I := fun l o => l.length ≤ gu.length ∧ BfsCnt d.g o.1 (u :: o.2.1) D (o.2.2 - (gu.length - l.length)) ∧
          gu.length - l.length ≤ o.2.2) ⟨le_refl _, ⟨hnd, hv, hr, by simpa using hc⟩, by simp⟩ ?_).mono ?_)
      · rintro j l ⟨h, q, c⟩ ⟨hl, ⟨hnd, hv, hr, hc⟩, hcl⟩
        simp only [List.length_cons] at hl hnd hv hr hc hcl
        simp only
        refine post_bind (post_idx.mono ?_)
        intro e _
        refine post_bind (Post.mono (P := fun b => b = true → e.to < h.length ∧ h.getD e.to (-1) = -1) ?_ ?_)
        · split
          · refine post_bind (post_idx.mono ?_)
            intro hv hhv
            refine post_ok ?_
            intro hd
            rw [List.getD_eq_getElem?_getD, hhv]
            exact ⟨(List.getElem?_eq_some_iff.1 hhv).1, of_decide_eq_true hd⟩
          · exact post_ok fun e => by cases e
        · intro b hb
          cases b with
          | false =>
            simp only [Bool.false_eq_true, if_false]
            refine post_ok ⟨by omega, ⟨hnd, hv, hr, ?_⟩, ?_⟩
            · simp only; omega
            · simp only; omega
          | true =>
            obtain ⟨htl, hth⟩ := hb rfl
            simp only [if_true]
            refine post_bind (post_idx.mono ?_)
            intro hu hhu
            have hu0 : 0 ≤ hu := by
              have h1 := hv u (by simp)
              have h2 := hr u
              rw [List.getD_eq_getElem?_getD, hhu] at h1 h2
              simp only [Option.getD_some] at h1 h2
              omega
            refine post_bind (Post.mono (P := fun o => o = hu + 1) ?_ ?_)
            · intro o ho
              unfold ckI at ho
              split at ho
              · cases ho; rfl
              · cases ho
            · rintro _ rfl
              refine post_bind (post_upd.mono ?_)
              rintro _ ⟨-, rfl⟩
              split
              · refine post_ok ?_
                simp only
                omega
              · refine post_ok ⟨by omega, ⟨?_, ?_, ?_, ?_⟩, ?_⟩
                · simp only
                  rw [show D ++ u :: (q ++ [e.to]) = (D ++ u :: q) ++ [e.to] by simp]
                  refine List.nodup_append.2 ⟨hnd, by simp, ?_⟩
                  intro x hx y hy
                  simp only [List.mem_singleton] at hy
                  subst hy
                  rintro rfl
                  exact hv _ hx hth
                · intro x hx
                  simp only at hx ⊢
                  rw [getD_set htl]
                  split
                  · omega
                  · refine hv x ?_
                    rw [show D ++ u :: (q ++ [e.to]) = (D ++ u :: q) ++ [e.to] by simp] at hx
                    rcases List.mem_append.1 hx with hx | hx
                    · exact hx
                    · simp only [List.mem_singleton] at hx; contradiction
                · intro x
                  simp only
                  rw [getD_set htl]
                  split
                  · right; omega
                  · exact hr x
                · simp only; omega
                · simp only; omega
      · rintro (⟨h, q, c⟩ | ⟨h, c⟩) hI
        · obtain ⟨-, ⟨hnd, hv, hr, hc⟩, hcl⟩ := hI
          simp only [List.length_nil, Nat.sub_zero] at hnd hv hr hc hcl
          refine post_ok ⟨D ++ [u], by simpa using hnd, by simpa using hv, hr, ?_⟩
          simp only
          rw [hsum]; omega
        · exact post_ok hI
  · rintro ⟨⟨h, b⟩, c⟩ hc
    exact post_ok hc

/-! ### The blocking search -/

theorem sum_set_nat {l : List Nat} {i a : Nat} (h : i < l.length) : (l.set i a).sum + l.getD i 0 = l.sum + a := by
  induction l generalizing i with
  | nil => simp at h
  | cons x l ih =>
    cases i with
    | zero => simp; omega
    | succ i =>
      have := ih (i := i) (by simpa using h)
      simp only [List.set_cons_succ, List.sum_cons, List.getD_cons_succ]
      omega

theorem sum_le_arcs {l : List Nat} {g : List (List Nat)} (hl : l.length = g.length)
    (h : ∀ x, l.getD x 0 ≤ (g.getD x []).length) : l.sum ≤ arcs g := by
  induction l generalizing g with
  | nil => simp
  | cons x l ih =>
    cases g with
    | nil => simp at hl
    | cons y g =>
      have h0 := h 0
      have := ih (g := g) (by simpa using hl) fun x => by simpa using h (x + 1)
      simp only [arcs, List.map_cons, List.sum_cons, List.getD_cons_zero] at *
      omega

/-- What the counts of a blocking search mean: every `i += 1` moves one pointer. -/
structure DfsCnt (d d' : Dinic) (l : Int) (na : Nat) : Prop where
  h : d'.h = d.h
  g : d'.g = d.g
  cl : d'.cur.length = d.cur.length
  keep : ∀ x, lv d x < l → d'.cur.getD x 0 = d.cur.getD x 0
  le : ∀ x, d'.cur.getD x 0 ≤ (d.g.getD x []).length
  sum : d'.cur.sum = d.cur.sum + na

theorem dfsCost_cnt (fuel : Nat) (d : Dinic) (u t : Nat) (f : Int)
    (hc : ∀ x, d.cur.getD x 0 ≤ (d.g.getD x []).length) :
    Post (Dinic.dfsCost ty fuel d u t f) fun o =>
      DfsCnt d o.1.1 (lv d u) o.2.1 ∧ 1 ≤ fuel ∧ o.2.2 ≤ (fuel - 1) * (o.2.1 + 1) := by
  induction fuel generalizing d u f with
  | zero => intro a e; cases e
  | succ fuel ih =>
    unfold Dinic.dfsCost
    split
    · exact post_ok ⟨⟨rfl, rfl, rfl, fun _ _ => rfl, hc, by simp⟩, by omega, by simp⟩
    · refine post_bind (post_idx.mono ?_)
      intro i0 hi0
      have hucl : u < d.cur.length := (List.getElem?_eq_some_iff.1 hi0).1
      have hcu : d.cur.getD u 0 = i0 := by rw [List.getD_eq_getElem?_getD, hi0]; rfl
      refine post_bind (post_idx.mono ?_)
      intro gu0 _
      refine post_bind (Post.mono (P := fun o => DfsCnt d o.1.1 (lv d u) o.2.1 ∧ o.2.2 ≤ fuel * (o.2.1 + 1)) (post_loop
        (I := fun o => DfsCnt d o.1 (lv d u) o.2.2.2.1 ∧ o.1.cur.getD u 0 = o.2.2.1 ∧ o.2.2.2.2 ≤ (fuel - 1) * o.2.2.2.1)
        ⟨⟨rfl, rfl, rfl, fun _ _ => rfl, hc, by simp⟩, hcu, by simp⟩ ?_) ?_)
      · rintro ⟨d1, r, i, na, nb⟩ ⟨hD, hi, hB⟩
        simp only at hD hi hB ⊢
        refine post_bind (post_idx.mono ?_)
        intro gu hgu
        have hgu' : (d.g.getD u []).length = gu.length := by
          rw [← hD.g, List.getD_eq_getElem?_getD, hgu]; rfl
        split
        · rename_i hil
          refine post_bind (post_idx.mono ?_)
          intro j _
          refine post_bind (post_idx.mono ?_)
          intro e _
          refine post_bind (Post.mono (P := fun b => b = true → lv d e.to = lv d u + 1) ?_ ?_)
          · split
            · refine post_bind (post_idx.mono ?_)
              intro hv hhv
              refine post_bind (post_idx.mono ?_)
              intro hu hhu
              refine post_bind (Post.mono (P := fun o => o = hu + 1) ?_ ?_)
              · intro o ho
                unfold ckI at ho
                split at ho
                · cases ho; rfl
                · cases ho
              · rintro _ rfl
                refine post_ok ?_
                intro hd
                unfold lv
                rw [← hD.h, List.getD_eq_getElem?_getD, List.getD_eq_getElem?_getD, hhv, hhu]
                exact of_decide_eq_true hd
            · exact post_ok fun e => by cases e
          · intro go hgo
            have key : ∀ (d2 : Dinic) (na2 nb2 : Nat), DfsCnt d d2 (lv d u) na2 → d2.cur.getD u 0 = i →
                nb2 ≤ (fuel - 1) * (na2 + 1) → ∀ r2 : Int, Post (do
                  let cur ← upd d2.cur u (i + 1)
                  ok (Ctl.next ({ d2 with cur := cur }, r2, i + 1, na2 + 1, nb2)) :
                    Res (Ctl (Dinic × Int × Nat × Nat × Nat) ((Dinic × Int) × Nat × Nat))) fun c => match c with
                  | .next o => DfsCnt d o.1 (lv d u) o.2.2.2.1 ∧ o.1.cur.getD u 0 = o.2.2.1 ∧
                      o.2.2.2.2 ≤ (fuel - 1) * o.2.2.2.1
                  | .done o => DfsCnt d o.1.1 (lv d u) o.2.1 ∧ o.2.2 ≤ fuel * (o.2.1 + 1) := by
              intro d2 na2 nb2 hD2 hi2 hB2 r2
              refine post_bind (post_upd.mono ?_)
              rintro _ ⟨hlt, rfl⟩
              refine post_ok ⟨⟨hD2.h, hD2.g, by simpa using hD2.cl, ?_, ?_, ?_⟩, ?_, hB2⟩
              · intro x hx
                simp only
                rw [getD_set hlt, if_neg (by rintro rfl; omega)]
                exact hD2.keep x hx
              · intro x
                simp only
                rw [getD_set hlt]
                split
                · rename_i e; subst e; omega
                · exact hD2.le x
              · have := sum_set_nat (a := i + 1) hlt
                have := hD2.sum
                simp only
                omega
              · simp only
                rw [getD_set hlt, if_pos rfl]
            cases go with
            | false =>
              simp only [Bool.false_eq_true, if_false, ok_bind]
              refine (key d1 na nb hD hi (hB.trans (Nat.mul_le_mul (le_refl _) (by omega))) r).mono ?_
              rintro (_ | _) h <;> exact h
            | true =>
              have hlv := hgo rfl
              simp only [if_true]
              refine post_bind (Post.mono (P := fun o => DfsCnt d o.1.1 (lv d u) o.2.1 ∧ o.1.1.cur.getD u 0 = i ∧
                1 ≤ fuel ∧ o.2.2 ≤ (fuel - 1) * (o.2.1 + 1)) ?_ ?_)
              · refine post_bind ((ih d1 e.to (min r e.cap) (by rw [hD.g]; exact hD.le)).mono ?_)
                rintro ⟨⟨d2, a⟩, ka, kb⟩ ⟨hD2, hf, hB2⟩
                simp only at hD2 hB2 ⊢
                have hlv1 : lv d1 = lv d := by unfold lv; rw [hD.h]
                have hD3 : DfsCnt d d2 (lv d u) (na + ka) := by
                  refine ⟨hD2.h.trans hD.h, hD2.g.trans hD.g, hD2.cl.trans hD.cl, ?_, ?_, ?_⟩
                  · intro x hx
                    rw [hD2.keep x (by rw [hlv1]; omega), hD.keep x hx]
                  · intro x
                    have := hD2.le x
                    rw [hD.g] at this
                    exact this
                  · rw [hD2.sum, hD.sum]; omega
                have hi3 : d2.cur.getD u 0 = i := by
                  rw [hD2.keep u (by rw [hlv1]; omega)]; exact hi
                have hB3 : nb + kb ≤ (fuel - 1) * (na + ka + 1) := by
                  calc nb + kb ≤ (fuel - 1) * na + (fuel - 1) * (ka + 1) := Nat.add_le_add hB hB2
                    _ = _ := by rw [← Nat.mul_add, Nat.add_assoc]
                refine post_bind (post_idx.mono fun _ _ => post_bind ?_)
                refine Post.mono post_eq fun _ _ => post_bind (Post.mono post_eq fun _ _ => post_bind ?_)
                refine Post.mono post_eq fun _ _ => post_bind (Post.mono post_eq fun _ _ => post_bind ?_)
                refine Post.mono post_eq fun _ _ => post_bind (Post.mono post_eq fun _ _ => post_ok ?_)
                exact ⟨⟨hD3.h, hD3.g, hD3.cl, hD3.keep, hD3.le, hD3.sum⟩, hi3, hf, hB3⟩
              · rintro ⟨⟨d2, r2, brk⟩, na2, nb2⟩ ⟨hD2, hi2, hf, hB2⟩
                simp only at hD2 hi2 hB2 ⊢
                split
                · refine post_ok ⟨hD2, ?_⟩
                  simp only
                  obtain ⟨k, rfl⟩ : ∃ k, fuel = k + 1 := ⟨fuel - 1, by omega⟩
                  rw [Nat.add_mul]
                  simp only [Nat.add_sub_cancel] at hB2
                  omega
                · refine (key d2 na2 nb2 hD2 hi2 hB2 r2).mono ?_
                  rintro (_ | _) h <;> exact h
        · refine post_ok ⟨hD, ?_⟩
          simp only
          exact hB.trans (Nat.mul_le_mul (by omega) (by omega))
      · rintro ⟨⟨d1, r⟩, na, nb⟩ ⟨hD, hB⟩
        refine post_bind (Post.mono post_eq fun a _ => post_ok ⟨hD, by omega, ?_⟩)
        exact hB

/-- Rounds of one blocking search started with all pointers at 0. -/
theorem dfsCost_le {fuel : Nat} {d : Dinic} {s t : Nat} {f : Int} (hl : d.cur.length = d.g.length)
    (hz : ∀ x, d.cur.getD x 0 = 0) (hs : d.cur.sum = 0) :
    Post (Dinic.dfsCost ty fuel d s t f) fun o =>
      o.2.1 + o.2.2 ≤ arcs d.g + (fuel - 1) * (arcs d.g + 1) := by
  refine (dfsCost_cnt fuel d s t f (by intro x; rw [hz]; omega)).mono ?_
  rintro ⟨⟨d', a⟩, na, nb⟩ ⟨hD, _, hB⟩
  simp only at hD hB ⊢
  have h1 := sum_le_arcs (hD.cl.trans hl) hD.le
  have h2 := hD.sum
  have h3 : (fuel - 1) * (na + 1) ≤ (fuel - 1) * (arcs d.g + 1) := Nat.mul_le_mul (le_refl _) (by omega)
  omega

/-! ### Distance to the sink -/

/-- `y` is reached from `x` in exactly `k` steps of `R`. -/
def Steps (R : Nat → Nat → Prop) : Nat → Nat → Nat → Prop
  | 0, x, y => x = y
  | k + 1, x, y => ∃ z, Steps R k x z ∧ R z y

/-- A step along an arc with capacity left. -/
def RS (N : List NEdge) (d : Dinic) (x y : Nat) : Prop := ∃ j, j < 2 * N.length ∧ tl N j = x ∧ hd N j = y ∧ 0 < cp d j

theorem steps_of_levels {d : Dinic} {h : List Int} {s x : Nat} (H : ReflTransGen (LS N d h) s x) :
    ∃ k : Nat, (k : Int) = h.getD x (-1) - h.getD s (-1) ∧ Steps (RS N d) k s x := by
  induction H with
  | refl => exact ⟨0, by simp, rfl⟩
  | tail _ hs ih =>
    obtain ⟨k, e, hk⟩ := ih
    obtain ⟨j, h1, h2, h3, h4, _, h6⟩ := hs
    exact ⟨k + 1, by push_cast; omega, _, hk, j, h1, h2, h3, h4⟩

/-- Along arcs that climb at most one, `k` steps climb at most `k`; if exactly `k`, every step climbs one. -/
theorem steps_climb {d : Dinic} {p : Nat → Int} (hp : ∀ j, j < 2 * N.length → 0 < cp d j → p (hd N j) ≤ p (tl N j) + 1)
    {s x k : Nat} (h : Steps (RS N d) k s x) : p x ≤ p s + k ∧ (p x = p s + k →
      ReflTransGen (fun y z => RS N d y z ∧ p s ≤ p y ∧ p y < p x ∧ p z = p y + 1 ∧ (z = x ∨ p z < p x)) s x) := by
  induction k generalizing x with
  | zero => cases h; exact ⟨by simp, fun _ => .refl⟩
  | succ k ih =>
    obtain ⟨z, hz, j, h1, h2, h3, h4⟩ := h
    obtain ⟨i1, i2⟩ := ih hz
    have := hp j h1 h4
    rw [h2, h3] at this
    push_cast
    refine ⟨by omega, fun e => ?_⟩
    refine .tail (ReflTransGen.mono ?_ _ _ (i2 (by omega))) ⟨⟨j, h1, h2, h3, h4⟩, by omega, by omega, by omega, .inl rfl⟩
    rintro a b ⟨r1, r2, r3, r4, r5⟩
    refine ⟨r1, r2, by omega, r4, .inr ?_⟩
    rcases r5 with rfl | r5 <;> omega

/-- The level, or the level of the sink if there is none. -/
def lvl (h : List Int) (t x : Nat) : Int := if h.getD x (-1) = -1 then h.getD t (-1) else h.getD x (-1)

theorem phase_climb {d d2 : Dinic} {s t : Nat} {h : List Int} (hb : BfsPost N d s t h true)
    (hinc : ∀ j, j < 2 * N.length → cp d j < cp d2 j →
      0 ≤ h.getD (hd N j) (-1) ∧ h.getD (tl N j) (-1) = h.getD (hd N j) (-1) + 1) :
    ∀ j, j < 2 * N.length → 0 < cp d2 j → lvl h t (hd N j) ≤ lvl h t (tl N j) + 1 := by
  intro j hj hc
  obtain ⟨_, hht, hmax, hstep⟩ := hb.found rfl
  have hle : ∀ x, lvl h t x ≤ h.getD t (-1) := by
    intro x; unfold lvl; split
    · exact le_refl _
    · exact hmax x
  by_cases hc1 : 0 < cp d j
  · by_cases h1 : h.getD (tl N j) (-1) = -1
    · have := hle (hd N j)
      unfold lvl at this ⊢
      rw [if_pos h1]; omega
    · by_cases h2 : h.getD (tl N j) (-1) + 1 < h.getD t (-1)
      · obtain ⟨h3, h4⟩ := hstep j hj hc1 h1 h2
        unfold lvl
        rw [if_neg h1, if_neg h3]; exact h4
      · have := hle (hd N j)
        unfold lvl at this ⊢
        rw [if_neg h1]; omega
  · obtain ⟨h1, h2⟩ := hinc j hj (by omega)
    unfold lvl
    rw [if_neg (by omega), if_neg (by omega)]
    omega

theorem post_of_fst {α β : Type} {x : Res (α × β)} {y : Res α} {P : α → Prop} (e : (x >>= fun r => ok r.1) = y)
    (h : Sat y P) : Post x fun o => P o.1 := by
  intro a ha
  subst ha
  subst e
  obtain ⟨b, e1, hb⟩ := h
  simp only [ok_bind] at e1
  cases e1
  exact hb

/-- Work of a whole call that returns. -/
theorem getMaxFlowCost_le {d0 : Dinic} {s t : Nat} (h0 : St N d0) (hfit : Fits ty N) (hmx : 0 < ty.mx)
    (hn : d0.n < 2 ^ 31) : Post (d0.getMaxFlowCost ty s t) fun o =>
      o.2.phases + 1 ≤ d0.n ∧ o.2.bfsArcs ≤ (o.2.phases + 1) * arcs d0.g ∧
      o.2.dfsRounds ≤ o.2.phases * (arcs d0.g + d0.n * (arcs d0.g + 1)) := by
  unfold Dinic.getMaxFlowCost
  refine post_bind (post_assert.mono fun _ hs => post_bind (post_assert.mono fun _ ht => ?_))
  refine post_loop (I := fun o => St N o.1 ∧ o.1.n = d0.n ∧ o.1.g = d0.g ∧ 0 ≤ o.2.1 ∧
    o.2.2.phases + 1 ≤ d0.n ∧ o.2.2.bfsArcs ≤ o.2.2.phases * arcs d0.g ∧
    o.2.2.dfsRounds ≤ o.2.2.phases * (arcs d0.g + d0.n * (arcs d0.g + 1)) ∧
    (o.2.1 = ty.mx ∨ (s ≠ t → ∀ k, Steps (RS N o.1) k s t → o.2.2.phases + 1 ≤ k)))
    ⟨h0, rfl, rfl, le_refl _, by simp only; omega, by simp, by simp, .inr ?_⟩ ?_
  · intro hst k hk
    cases k with
    | zero => exact absurd hk hst
    | succ k => simp only; omega
  · rintro ⟨d, ans, w⟩ ⟨hst, hdn, hdg, hans, hph, hba, hdr, hfar⟩
    simp only at hst hdn hdg hans hph hba hdr hfar ⊢
    refine post_bind (((post_of_fst (bfsCost_fst d s t) (bfs_sat (t := t) hst (by omega) (by omega))).and
      (bfsCost_le d s t)).mono ?_)
    rintro ⟨⟨d1, b⟩, k⟩ ⟨⟨h, hd1, hb⟩, hk⟩
    simp only at hd1 hb hk ⊢
    rw [hdg] at hk
    subst hd1
    cases b with
    | false =>
      simp only [Bool.false_eq_true, if_false]
      refine post_ok ⟨hph, ?_, hdr⟩
      simp only
      rw [Nat.add_mul]; omega
    | true =>
      simp only [if_true]
      obtain ⟨hstt, hht, hmaxh, -⟩ := hb.found rfl
      have hst2 : St N { d with h := h, cur := List.replicate d.cur.length 0 } :=
        ⟨hst.el, hst.gl, by simpa using hst.cl, hb.hi.len, hst.toh, hst.tln, hst.g, hst.nn, hst.pair⟩
      have hcur : CurOk N t { d with h := h, cur := List.replicate d.cur.length 0 } := by
        intro x i j hi
        have : i < (List.replicate d.cur.length 0).getD x 0 := hi
        rw [getD_replicate] at this
        omega
      have hlvs : lv { d with h := h, cur := List.replicate d.cur.length 0 } s = 0 := hb.hi.hs
      refine post_bind (((post_of_fst (dfsCost_fst _ _ _ _ _) (dfs_sat (n := d.n) t hfit (by omega) (d.n + 1) s ty.mx _
        hst2 hcur rfl (by omega) (fun x => hb.hi.lt x) (by rw [hlvs]) hmx (le_refl _)
        (by rw [hlvs]; push_cast; omega))).and (dfsCost_le (ty := ty) (fuel := d.n + 1) (s := s) (t := t) (f := ty.mx)
          (d := { d with h := h, cur := List.replicate d.cur.length 0 }) ?_ ?_ ?_)).mono ?_)
      · show (List.replicate d.cur.length 0).length = d.g.length
        rw [List.length_replicate, hst.cl, hst.gl]
      · intro x
        exact getD_replicate
      · show (List.replicate d.cur.length 0).sum = 0
        simp
      · rintro ⟨⟨d2, a⟩, ka, kb⟩ ⟨⟨hP, ha0, ham, hdead⟩, hrounds⟩
        simp only at hP ha0 ham hdead hrounds ⊢
        have hpath : ReflTransGen (LStep N { d with h := h, cur := List.replicate d.cur.length 0 }) s t := by
          refine ReflTransGen.mono ?_ _ _ (hb.hi.reach t hht)
          rintro x y ⟨j, h1, h2, h3, h4, _, h6⟩
          exact ⟨j, h1, h2, h3, h4, h6⟩
        have hapos : 0 < a := by
          apply lt_of_le_of_ne ha0
          intro e
          have hz := hP.zero e.symm
          apply hdead (by omega)
          refine ReflTransGen.mono ?_ _ _ hpath
          rintro x y ⟨j, h1, h2, h3, h4, h5⟩
          refine ⟨j, h1, h2, h3, by rw [hz j h1]; exact h4, ?_⟩
          rw [hP.mono.lv]; exact h5
        refine post_bind (Post.mono (P := fun o => o = ans + a ∧ ans + a ≤ ty.mx) ?_ ?_)
        · intro o ho
          unfold IntTy.ck at ho
          split at ho
          · rename_i hin
            cases ho; exact ⟨rfl, hin.2⟩
          · cases ho
        · rintro _ ⟨rfl, hov⟩
          have hfar' : ∀ k, Steps (RS N d) k s t → w.phases + 1 ≤ k := by
            rcases hfar with e | hfar
            · omega
            · exact hfar hstt
          obtain ⟨D, hD, hDs⟩ := steps_of_levels (hb.hi.reach t hht)
          rw [hb.hi.hs] at hD
          have h1 := hfar' D hDs
          have h2 := hb.hi.lt t
          refine post_ok ⟨hP.st, hP.n.trans hdn, hP.g.trans hdg, by simp only; omega, by simp only; omega, ?_, ?_, ?_⟩
          · simp only
            rw [Nat.add_mul]; omega
          · simp only at hrounds ⊢
            rw [Nat.add_mul]
            rw [hdg, hdn] at hrounds
            simp only [Nat.add_sub_cancel] at hrounds
            omega
          · simp only
            by_cases haf : a < ty.mx
            · right
              intro _ k hk
              have hcl := phase_climb (d2 := d2) hb fun j hj hlt => hP.inc j hj hlt
              obtain ⟨c1, c2⟩ := steps_climb hcl hk
              have e1 : lvl h t t = D := by
                unfold lvl; rw [if_neg hht]; omega
              have e2 : lvl h t s = 0 := by
                unfold lvl; rw [if_neg (by rw [hb.hi.hs]; decide)]; exact hb.hi.hs
              rw [e1, e2] at c1 c2
              have hne : k ≠ D := by
                rintro rfl
                apply hdead haf
                refine ReflTransGen.mono ?_ _ _ (c2 (by omega))
                rintro x y ⟨⟨j, g1, g2, g3, g4⟩, g5, g6, g7, g8⟩
                refine ⟨j, g1, g2, g3, g4, ?_⟩
                rw [hP.mono.lv]
                show h.getD y (-1) = h.getD x (-1) + 1
                have hx : h.getD x (-1) ≠ -1 := by
                  intro e
                  unfold lvl at g6
                  rw [if_pos e] at g6; omega
                unfold lvl at g7
                rw [if_neg hx] at g7
                by_cases hy : h.getD y (-1) = -1
                · rcases g8 with rfl | g8
                  · exact absurd hy hht
                  · unfold lvl at g8; rw [if_pos hy] at g8; omega
                · rw [if_neg hy] at g7; exact g7
              omega
            · left; omega

end Verif.DinicP
