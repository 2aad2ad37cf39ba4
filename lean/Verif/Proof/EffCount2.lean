import Verif.Proof.EffCount
import Verif.Proof.CostHLD
import Verif.Proof.Cost
import Verif.Proof.CostArith
import Mathlib.Algebra.BigOperators.Intervals
/-! How often the functions of the segment tree, the Fenwick tree and the decomposition call the user's operations. -/
namespace Verif.EffP
open Res Model Spec CostP

variable {S F T U α β σ : Type}

/-! ### Segment tree -/

/-- The numbers that never change. -/
structure SameSeg (t t' : Segtree S) : Prop where
  n : t'.n = t.n
  size : t'.size = t.size
  log : t'.log = t.log

section
variable {M : MonoidOps S} {t : Segtree S} {w : Calls}

theorem seg_update_post {k : Nat} : Post (t.updateE (countMonoid M) k w) fun o =>
    SameSeg t o.1 ∧ o.2 = ⟨w.op + 1, w.map, w.comp, w.pred⟩ := by
  unfold Segtree.updateE
  refine post_skip fun x => post_skip fun y => post_add fun z => post_skip fun d => post_ok ⟨⟨rfl, rfl, rfl⟩, rfl⟩

theorem seg_from_post {v : List S} : Post (Segtree.fromE (countMonoid M) v w) fun o =>
    Balanced o.1.n o.1.log o.1.size ∧ o.1.n = v.length ∧ o.2 = ⟨w.op + (o.1.size - 1), w.map, w.comp, w.pred⟩ := by
  unfold Segtree.fromE
  refine post_bind (ceil_post.mono fun L h => post_bind (Post.mono h fun d hb => ?_))
  have hp : 1 ≤ 1 <<< L := by rw [Nat.one_shiftLeft]; exact Nat.two_pow_pos L
  refine (post_forRangeRev (I := fun i o => o.1.n = v.length ∧ o.1.log = L ∧ o.1.size = 1 <<< L ∧
    o.2 = ⟨w.op + (1 <<< L - i), w.map, w.comp, w.pred⟩) hp ⟨rfl, rfl, rfl, by simp⟩ ?_).mono ?_
  · rintro i ⟨t1, w1⟩ hi hi' ⟨h1, h2, h3, rfl⟩
    refine seg_update_post.mono ?_
    rintro ⟨t2, w2⟩ ⟨k, rfl⟩
    refine ⟨k.n.trans h1, k.log.trans h2, k.size.trans h3, ?_⟩
    simp only [Calls.mk.injEq, and_true]
    omega
  · rintro ⟨t1, w1⟩ ⟨h1, h2, h3, rfl⟩
    simp only at h1 h2 h3 ⊢
    rw [h1, h2, h3]
    exact ⟨hb, rfl, rfl⟩

theorem seg_set_post {p : Nat} {x : S} : Post (t.setE (countMonoid M) p x w) fun o =>
    SameSeg t o.1 ∧ o.2 = ⟨w.op + t.log, w.map, w.comp, w.pred⟩ := by
  unfold Segtree.setE
  refine post_skip fun _ => post_skip fun d => ?_
  refine (post_forRange (I := fun i o => SameSeg t o.1 ∧ o.2 = ⟨w.op + (i - 1), w.map, w.comp, w.pred⟩)
    (by omega) ⟨⟨rfl, rfl, rfl⟩, by simp⟩ ?_).mono ?_
  · rintro i ⟨t1, w1⟩ hi hi' ⟨h1, rfl⟩
    refine seg_update_post.mono ?_
    rintro ⟨t2, w2⟩ ⟨h2, rfl⟩
    refine ⟨⟨h2.n.trans h1.n, h2.size.trans h1.size, h2.log.trans h1.log⟩, ?_⟩
    simp only [Calls.mk.injEq, and_true]
    omega
  · rintro ⟨t1, w1⟩ ⟨h1, rfl⟩
    exact ⟨h1, by simp⟩

theorem seg_prod_post {l r : Nat} (hs : t.size = 2 ^ t.log) (hn : t.n ≤ t.size) :
    Post (t.prodE (countMonoid M) l r w) fun o =>
      w.op + 1 ≤ o.2.op ∧ o.2.op ≤ w.op + max 2 (2 * t.log - 1) ∧ (l = r → o.2.op = w.op + 1) ∧
      o.2.pred = w.pred := by
  unfold Segtree.prodE
  refine post_bind (post_assert.mono fun _ ⟨hl, hr⟩ => ?_)
  refine post_bind ((post_while (I := fun s => ∃ c, Nodes t.log s.1 s.2.1 c ∧ (l = r → s.1 = s.2.1 ∧ c = 0) ∧
      s.2.2.2.2 = ⟨w.op + c, w.map, w.comp, w.pred⟩)
    (Q := fun s => ∃ c, c ≤ max 1 (2 * (t.log - 1)) ∧ (l = r → c = 0) ∧
      s.2.2.2.2 = ⟨w.op + c, w.map, w.comp, w.pred⟩)
    ⟨0, by rw [hs]; exact .start hl (by omega), fun h => ⟨by rw [h], rfl⟩, by simp⟩ ?_).mono ?_)
  · rintro ⟨l, r, a, b, w2⟩ ⟨c, hN, hz, rfl⟩
    refine post_ok ?_
    simp only at hN hz ⊢
    by_cases hlt : l < r
    · simp only [hlt, decide_true, if_true]
      refine post_bind (optOpL.mono ?_)
      rintro ⟨l1, s1, w1⟩ ⟨e1, e2⟩
      simp only at e1 e2
      subst e1; subst e2
      refine post_bind (optOpR.mono ?_)
      rintro ⟨r1, s1, w1⟩ ⟨e1, e2⟩
      simp only at e1 e2
      subst e1; subst e2
      exact post_ok ⟨_, hN.step hlt, fun h => by have := (hz h).1; omega, by simp only [Nat.add_assoc]⟩
    · simp only [hlt, decide_false]
      exact ⟨c, hN.all, fun h => (hz h).2, rfl⟩
  · rintro ⟨l, r, a, b, w2⟩ ⟨c, hc, hz, rfl⟩
    simp only
    unfold countMonoid countAdd
    refine post_skip fun z => post_ok ⟨?_, ?_, fun h => ?_, rfl⟩
    · simp only; omega
    · simp only; omega
    · have := hz h; simp only; omega

theorem seg_maxRight_post {l : Nat} {g : S → Bool} (hs : t.size = 2 ^ t.log) (hn : t.n ≤ t.size) (hL : t.log ≤ 32) :
    Post (t.maxRightE (countMonoid M) l (countPred g) w) fun o =>
      o.2.op ≤ w.op + max 2 (3 * t.log - 2) ∧ o.2.pred ≤ w.pred + max (t.log + 2) (2 * t.log) := by
  unfold Segtree.maxRightE
  refine post_bind (post_assert.mono fun _ hl => ?_)
  rw [pred_bind]
  refine post_skip fun _ => ?_
  refine post_ite (fun e => post_ok ⟨by simp, by simp⟩) fun e => ?_
  simp only
  have ha : At t.log 0 (l + t.size) := by rw [hs]; exact .leaf (by omega)
  refine post_loop (I := fun s => ∃ a, ClimbR t.log s.1 a ∧ s.2.2 = ⟨w.op + 2 * a, w.map, w.comp,
    w.pred + 1 + a⟩) ⟨0, ⟨0, ha, .inl (by omega), by simp⟩, rfl⟩ ?_
  rintro ⟨l, sm, w2⟩ ⟨a, hc, rfl⟩
  simp only at hc ⊢
  refine post_bind ((stripR_post hc).mono ?_)
  rintro l ⟨ho, j, hj, haj, hal⟩
  refine post_skip fun x => post_add fun y => ?_
  rw [pred_bind]
  have hjL := hj.le
  refine post_ite (fun _ => ?_) fun _ => ?_
  · refine post_bind ((post_while (I := fun s => ∃ i, i ≤ j ∧ At t.log i s.1 ∧
        s.2.2.op = w.op + 2 * a + 1 + (j - i) ∧ s.2.2.pred = w.pred + 2 + a + (j - i))
      (Q := fun s =>
        s.2.2.op = w.op + 2 * a + 1 + j ∧ s.2.2.pred = w.pred + 2 + a + j) ?_ ?_).mono ?_)
    · refine ⟨j, Nat.le_refl _, hj, ?_⟩
      simp only
      omega
    · rintro ⟨l, sm, w3⟩ ⟨i, g2, g3, g4, g5⟩
      refine post_ok ?_
      simp only at g2 g3 g4 g5 ⊢
      have hlt := g3.lt_iff
      rw [← hs] at hlt
      by_cases hc : l < t.size
      · simp only [hc, decide_true, if_true]
        obtain ⟨i, rfl⟩ : ∃ k, i = k + 1 := ⟨i - 1, by have := hlt.1 hc; omega⟩
        refine post_skip fun x => post_add fun y => ?_
        rw [pred_bind]
        have hL := g3.left
        refine post_ite (fun _ => post_ok ?_) fun _ => post_ok ?_
        · refine ⟨i, by omega, by simp only; rw [Nat.mul_comm]; exact hL.2, ?_⟩
          simp only
          omega
        · refine ⟨i, by omega, by simp only; rw [Nat.mul_comm]; exact hL.1, ?_⟩
          simp only
          omega
      · simp only [hc, decide_false]
        obtain rfl : i = 0 := by
          rcases Nat.eq_zero_or_pos i with h | h
          · exact h
          · exact absurd (hlt.2 h) hc
        exact ⟨by omega, by omega⟩
    · rintro ⟨l, sm, w3⟩ ⟨g2, g3⟩
      simp only at g2 g3 ⊢
      refine post_skip fun r => post_ok ⟨?_, ?_⟩
      all_goals simp only; omega
  · refine post_skip fun x => post_add fun sm => ?_
    simp only
    refine post_ite (fun hw => post_ok ⟨a + 1, ClimbR.next hL ho hj haj hw, ?_⟩) fun _ => post_ok ⟨?_, ?_⟩
    · simp only [Calls.mk.injEq]; exact ⟨by omega, trivial, trivial, by omega⟩
    · simp only; omega
    · simp only; omega

theorem seg_minLeft_post {r : Nat} {g : S → Bool} (hs : t.size = 2 ^ t.log) (hn : t.n ≤ t.size) (hL : t.log ≤ 32) :
    Post (t.minLeftE (countMonoid M) r (countPred g) w) fun o =>
      o.2.op ≤ w.op + max 2 (3 * t.log - 2) ∧ o.2.pred ≤ w.pred + max (t.log + 2) (2 * t.log) := by
  unfold Segtree.minLeftE
  refine post_bind (post_assert.mono fun _ hl => ?_)
  rw [pred_bind]
  refine post_skip fun _ => ?_
  refine post_ite (fun e => post_ok ⟨by simp, by simp⟩) fun e => ?_
  simp only
  have ha : At t.log 0 (r + t.size - 1) := by
    rw [hs, show r + 2 ^ t.log - 1 = (r - 1) + 2 ^ t.log by omega]; exact .leaf (by omega)
  refine post_loop (I := fun s => ∃ a, ClimbL t.log (s.1 - 1) a ∧ s.2.2 = ⟨w.op + 2 * a, w.map, w.comp,
    w.pred + 1 + a⟩) ⟨0, ⟨0, ha, .inl (by omega), by simp⟩, rfl⟩ ?_
  rintro ⟨l, sm, w2⟩ ⟨a, hc, rfl⟩
  simp only at hc ⊢
  refine post_bind ?_
  refine post_subU.mono ?_
  rintro _ rfl
  refine post_bind ((stripL_post (fun _ => Iff.rfl) hc).mono ?_)
  rintro l ⟨ho, j, hj, haj, hal⟩
  refine post_skip fun x => post_add fun y => ?_
  rw [pred_bind]
  have hjL := hj.le
  refine post_ite (fun _ => ?_) fun _ => ?_
  · refine post_bind ((post_while (I := fun s => ∃ i, i ≤ j ∧ At t.log i s.1 ∧
        s.2.2.op = w.op + 2 * a + 1 + (j - i) ∧ s.2.2.pred = w.pred + 2 + a + (j - i))
      (Q := fun s =>
        s.2.2.op = w.op + 2 * a + 1 + j ∧ s.2.2.pred = w.pred + 2 + a + j) ?_ ?_).mono ?_)
    · refine ⟨j, Nat.le_refl _, hj, ?_⟩
      simp only
      omega
    · rintro ⟨l, sm, w3⟩ ⟨i, g2, g3, g4, g5⟩
      refine post_ok ?_
      simp only at g2 g3 g4 g5 ⊢
      have hlt := g3.lt_iff
      rw [← hs] at hlt
      by_cases hc : l < t.size
      · simp only [hc, decide_true, if_true]
        obtain ⟨i, rfl⟩ : ∃ k, i = k + 1 := ⟨i - 1, by have := hlt.1 hc; omega⟩
        refine post_skip fun x => post_add fun y => ?_
        rw [pred_bind]
        have hL := g3.left
        refine post_ite (fun _ => ?_) fun _ => post_ok ?_
        · rw [show subU (2 * l + 1) 1 = ok (2 * l) from subU_of_le (by omega)]
          refine post_ok ⟨i, by omega, hL.1, ?_⟩
          simp only
          omega
        · refine ⟨i, by omega, hL.2, ?_⟩
          simp only
          omega
      · simp only [hc, decide_false]
        obtain rfl : i = 0 := by
          rcases Nat.eq_zero_or_pos i with h | h
          · exact h
          · exact absurd (hlt.2 h) hc
        exact ⟨by omega, by omega⟩
    · rintro ⟨l, sm, w3⟩ ⟨g2, g3⟩
      simp only at g2 g3 ⊢
      refine post_skip fun r => post_ok ⟨?_, ?_⟩
      all_goals simp only; omega
  · refine post_skip fun x => post_add fun sm => ?_
    simp only
    refine post_ite (fun hw => post_ok ⟨a + 1, ClimbL.next ho hj hL haj hw, ?_⟩) fun _ => post_ok ⟨?_, ?_⟩
    · simp only [Calls.mk.injEq]; exact ⟨by omega, trivial, trivial, by omega⟩
    · simp only; omega
    · simp only; omega

end

/-! ### Fenwick tree -/

section
variable {add : T → T → Res T} {zero : T} {w : Calls}

theorem post_addU {a b : Nat} : Post (addU 64 a b) fun c => a + b < 2 ^ 64 ∧ c = a + b := by
  unfold addU
  split
  · exact post_ok ⟨‹_›, rfl⟩
  · intro _ h; cases h

/-- How many of the nodes `1..k` of a Fenwick tree of `n` elements have a parent. -/
def parents (n k : Nat) : Nat := ∑ j ∈ Finset.range k, if j + 1 + low (j + 1) ≤ n then 1 else 0

theorem low_bit1 (k : Nat) : low (2 * k + 1) = 1 := by
  have := low_odd_mul k 0; simpa using this

theorem low_two_mul (k : Nat) (h : 0 < k) : low (2 * k) = 2 * low k := by
  obtain ⟨q, j, rfl⟩ := exists_odd k h
  rw [show 2 * ((2 * q + 1) * 2 ^ j) = (2 * q + 1) * 2 ^ (j + 1) by ring, low_odd_mul, low_odd_mul, pow_succ]; ring

theorem sum_range_two_mul (f : Nat → Nat) (m : Nat) :
    ∑ j ∈ Finset.range (2 * m), f j = ∑ k ∈ Finset.range m, (f (2 * k) + f (2 * k + 1)) := by
  induction m with
  | zero => rfl
  | succ m ih =>
    rw [show 2 * (m + 1) = 2 * m + 1 + 1 by ring, Finset.sum_range_succ, Finset.sum_range_succ, ih,
      Finset.sum_range_succ]
    omega

/-- All nodes have a parent but the roots, one for each bit of `n`. -/
theorem parents_eq (n : Nat) : parents n n + ones n = n := by
  induction n using Nat.strong_induction_on with
  | _ n ih =>
    have key : ∀ m, 2 * m ≤ n → n < 2 * m + 2 →
        ∑ j ∈ Finset.range (2 * m), (if j + 1 + low (j + 1) ≤ n then 1 else 0) = m + parents m m := by
      intro m h1 h2
      rw [sum_range_two_mul, Finset.sum_add_distrib]
      congr 1
      · rw [Finset.sum_congr rfl (g := fun _ => 1)]
        · simp
        · intro k hk
          have := Finset.mem_range.1 hk
          rw [low_bit1, if_pos (by omega)]
      · refine Finset.sum_congr rfl fun k _ => ?_
        rw [show 2 * k + 1 + 1 = 2 * (k + 1) by ring, low_two_mul _ (by omega)]
        have : 2 * (k + 1) + 2 * low (k + 1) ≤ n ↔ k + 1 + low (k + 1) ≤ m := by omega
        simp only [this]
    rcases Nat.even_or_odd' n with ⟨m, rfl | rfl⟩
    · rcases Nat.eq_zero_or_pos m with rfl | hm
      · simp [parents, ones_zero]
      · have h := key m (by omega) (by omega)
        have := ih m (by omega)
        rw [ones_two_mul]
        unfold parents at *
        omega
    · have h := key m (by omega) (by omega)
      have := ih m (by omega)
      rw [ones_two_mul_add]
      unfold parents at *
      rw [Finset.sum_range_succ, if_neg (by rw [low_bit1]; omega)]
      omega

theorem fenwick_from_post {a : List T} :
    Post (Fenwick.fromE (countAdd add) zero a w) fun o =>
      o.1.n = a.length ∧ o.2.op + ones a.length = w.op + 2 * a.length := by
  unfold Fenwick.fromE
  simp only
  refine post_bind ((post_forRange (I := fun i o => o.2.op = w.op + (i - 1) + parents a.length (i - 1)) (by omega)
    (by simp [parents]) ?_).mono ?_)
  · rintro i ⟨ary, w1⟩ h1 h2 h3
    simp only at h3 ⊢
    have hp : parents a.length i = parents a.length (i - 1) + if i + low i ≤ a.length then 1 else 0 := by
      obtain ⟨k, rfl⟩ : ∃ k, i = k + 1 := ⟨i - 1, by omega⟩
      exact Finset.sum_range_succ _ _
    refine post_skip fun x => post_skip fun y => post_add fun s => ?_
    simp only
    refine post_skip fun ary => post_bind (post_addU.mono ?_)
    rintro _ ⟨hlt, rfl⟩
    rw [and_wneg i (by omega) (by omega)]
    refine post_ite (fun h => ?_) fun h => post_ok ?_
    · refine post_skip fun x => post_skip fun y => post_add fun s => post_skip fun ary => post_ok ?_
      rw [if_pos h] at hp
      simp only [Nat.add_sub_cancel]
      omega
    · rw [if_neg h] at hp
      simp only [Nat.add_sub_cancel]
      omega
  · rintro ⟨ary, w1⟩ h3
    simp only [Nat.add_sub_cancel] at h3 ⊢
    have := parents_eq a.length
    exact post_ok ⟨rfl, by simp only; omega⟩

theorem fenwick_partitionPoint_post {t : Fenwick T} {g : T → Bool} :
    Post (t.partitionPointE (countAdd add) zero (countPred g) w) fun o =>
      o.2.op ≤ w.op + 2 * (Nat.log2 t.n + 1) ∧ o.2.pred ≤ w.pred + (Nat.log2 t.n + 1) := by
  unfold Fenwick.partitionPointE
  refine post_bind (Post.mono (P := fun hi => hi ≤ Nat.log2 t.n) ?_ ?_)
  · intro hi e
    unfold subU at e
    split at e
    · cases e
      rename_i h
      unfold leadingZeros bitLen usizeBits at h ⊢
      by_cases h0 : t.n = 0
      · simp [h0] at h
      · simp only [h0, if_false] at h ⊢
        omega
    · cases e
  intro hi hle
  refine post_bind ((post_forRangeRev (I := fun i o => o.2.2.op ≤ w.op + 2 * (hi + 1 - i) ∧
    o.2.2.pred ≤ w.pred + (hi + 1 - i)) (by omega) ⟨by simp, by simp⟩ ?_).mono ?_)
  · rintro i ⟨pos, sum, w1⟩ h1 h2 ⟨h3, h4⟩
    simp only at h3 h4 ⊢
    refine post_skip fun next => ?_
    refine post_bind (Post.mono (P := fun o => o.2.op ≤ w1.op + 1 ∧ o.2.pred ≤ w1.pred + 1) ?_ ?_)
    · refine post_ite (fun _ => ?_) fun _ => post_ok ⟨by simp, by simp⟩
      exact post_skip fun x => post_add fun s => post_ok ⟨by simp, by simp⟩
    · rintro ⟨b, w2⟩ ⟨h5, h6⟩
      simp only at h5 h6 ⊢
      refine post_ite (fun _ => ?_) fun _ => post_ok ?_
      · refine post_skip fun x => post_add fun s => post_ok ?_
        simp only
        omega
      · simp only
        omega
  · rintro ⟨pos, sum, w1⟩ ⟨h3, h4⟩
    simp only at h3 h4 ⊢
    exact post_ok ⟨by simp only; omega, by simp only; omega⟩

end

/-- A loop whose rounds make one call each. -/
theorem whileLoop_count {α γ : Type} {pack : γ → Calls → α} {c : α → Res Bool} {f : α → Res α} {c' : γ → Res Bool}
    {f' : γ → Res γ} (hc : ∀ s w, c (pack s w) = c' s)
    (hf : ∀ s w, f (pack s w) = f' s >>= fun s' => ok (pack s' ⟨w.op + 1, w.map, w.comp, w.pred⟩)) :
    ∀ fuel s w, whileLoop fuel (pack s w) c f =
      whileCount fuel s c' f' >>= fun r => ok (pack r.1 ⟨w.op + r.2, w.map, w.comp, w.pred⟩) := by
  intro fuel
  induction fuel with
  | zero => intro s w; rfl
  | succ fuel ih =>
    intro s w
    simp only [whileLoop, whileCount, hc, bind_bind_res]
    congr 1; funext b
    cases b
    · rfl
    · simp only [if_true, hf, bind_bind_res, ok_bind, ih]
      congr 1; funext s'
      congr 1; funext r
      simp only [ok.injEq]
      congr 2
      omega

theorem fenwick_pref_count {add : T → T → Res T} {zero : T} {t : Fenwick T} {i : Nat} {w : Calls} :
    t.prefE (countAdd add) zero i w =
      t.prefCost add zero i >>= fun r => ok (r.1, ⟨w.op + r.2, w.map, w.comp, w.pred⟩) := by
  unfold Fenwick.prefE Fenwick.prefCost
  rw [whileLoop_count (pack := fun (s : Nat × T) w => (s.1, s.2, w)) (s := (i, zero)) (w := w)
    (c' := fun (i, _) => ok (decide (i > 0)))
    (f' := fun (i, sum) => do
      let x ← idx t.ary (i - 1)
      let sum ← add sum x
      ok (i &&& (i - 1), sum))
    (fun s w => rfl) (fun s w => by simp only [countAdd, bind_bind_res, ok_bind])]
  simp only [bind_bind_res, ok_bind]

theorem fenwick_addAt_count {add : T → T → Res T} {t : Fenwick T} {i : Nat} {v : T} {w : Calls} :
    t.addAtE (countAdd add) i v w =
      t.addAtCost add i v >>= fun r => ok (r.1, ⟨w.op + r.2, w.map, w.comp, w.pred⟩) := by
  unfold Fenwick.addAtE Fenwick.addAtCost
  simp only [bind_bind_res]
  congr 1; funext j
  rw [whileLoop_count (pack := fun (s : Nat × List T) w => (s.1, s.2, w)) (s := (j, t.ary)) (w := w)
    (c' := fun (i, _) => ok (decide (i ≤ t.n)))
    (f' := fun (i, ary) => do
      let x ← idx ary (i - 1)
      let s ← add x v
      let ary ← upd ary (i - 1) s
      let i ← addU 64 i (i &&& wnegU 64 i)
      ok (i, ary))
    (fun s w => rfl) (fun s w => by simp only [countAdd, bind_bind_res, ok_bind])]
  simp only [bind_bind_res, ok_bind]

/-! ### Sparse table -/

section
variable {op : T → T → Res T} {w : Calls}

theorem sparse_get_post {t : SparseTable T} {l r : Nat} : Post (t.getE (countAdd op) l r w) fun o =>
    o.2 = ⟨w.op + 1, w.map, w.comp, w.pred⟩ := by
  unfold SparseTable.getE
  refine post_skip fun _ => post_skip fun _ => post_skip fun _ => post_skip fun _ => post_skip fun _ =>
    post_skip fun _ => ?_
  unfold countAdd
  exact post_skip fun _ => post_ok rfl

theorem sparse_from_post {v : List T} {init : T} (h : v.length < 2 ^ 64) :
    Post (SparseTable.fromE v init (countAdd op) w) fun o =>
      o.2.op + 2 ^ (Nat.log2 v.length + 1) = w.op + Nat.log2 v.length * (v.length + 1) + 2 := by
  unfold SparseTable.fromE
  simp only
  refine post_bind (Post.mono (P := fun k => k = Nat.log2 v.length) ?_ ?_)
  · intro k e
    by_cases h0 : v.length = 0
    · rw [h0, lg_zero] at e; cases e
    · rw [lg_eq h0 h] at e; cases e; rfl
  rintro _ rfl
  refine post_skip fun d => ?_
  refine post_bind ((post_forRange (I := fun c o => o.2.op + 2 ^ c = w.op + (c - 1) * (v.length + 1) + 2) (by omega)
    (by simp) ?_).mono ?_)
  · rintro c ⟨data, w1⟩ h1 h2 h3
    simp only at h3 ⊢
    refine post_bind ?_
    unfold subU
    split
    swap
    · intro _ h; cases h
    rename_i hle
    refine post_ok ?_
    rw [Nat.one_shiftLeft] at hle
    refine (post_forRange (I := fun i o => o.2.op = w1.op + i) (by omega) (by simp) ?_).mono ?_
    · rintro i ⟨data, w2⟩ _ _ h4
      simp only at h4 ⊢
      refine post_skip fun _ => post_skip fun _ => post_skip fun _ => post_add fun _ => post_skip fun _ =>
        post_skip fun _ => post_skip fun _ => post_ok ?_
      simp only
      omega
    · rintro ⟨data, w2⟩ h4
      simp only at h4 ⊢
      rw [Nat.one_shiftLeft] at h4
      obtain ⟨c, rfl⟩ : ∃ k, c = k + 1 := ⟨c - 1, by omega⟩
      simp only [Nat.add_sub_cancel, Nat.add_mul, Nat.one_mul] at h3 ⊢
      rw [Nat.pow_succ 2 (c + 1)]
      omega
  · rintro ⟨data, w1⟩ h3
    exact post_ok (by simpa using h3)

end

/-! ### Heavy-light decomposition -/

section
variable {M : MapMonoidOps S F} {h : HLD S F} {w : Calls}

/-- What a round of a path operation reads. -/
def RoundReads (t : HArr) (u v q v' : Nat) : Prop :=
  ∃ hu hv du dv hu', t.head[u]? = some hu ∧ t.dep[hu]? = some du ∧ t.head[v]? = some hv ∧ t.dep[hv]? = some dv ∧
    hu ≠ hv ∧ t.head[(if du < dv then (v, u) else (u, v)).1]? = some hu' ∧ t.parent[hu']? = some q ∧
    v' = (if du < dv then (v, u) else (u, v)).2

theorem hld_applyPath_post {u v : Nat} {f : F} {R : Nat → Nat → Nat → Prop} (hR : R 0 u v)
    (hstep : ∀ m u v q v', R m u v → RoundReads h.arr u v q v' → R (m + 1) q v')
    (hs : h.data.size = 2 ^ h.data.log) (hn : h.data.n ≤ h.data.size) :
    Post (h.applyPathE (countMaps M) u v f w) fun o => SameShape h.data o.1.data ∧ o.1.arr = h.arr ∧
      ∃ m x y, R m x y ∧ o.2.op ≤ w.op + (m + 1) * (2 * h.data.log) ∧
        o.2.map ≤ w.map + (m + 1) * (4 * h.data.log + max 1 (2 * (h.data.log - 1))) ∧
        o.2.comp ≤ w.comp + (m + 1) * (4 * (h.data.log - 1) + max 1 (2 * (h.data.log - 1))) ∧ o.2.pred = w.pred := by
  unfold HLD.applyPathE
  refine post_bind ((post_while (I := fun s => SameShape h.data s.1 ∧ ∃ m, R m s.2.1 s.2.2.1 ∧
      s.2.2.2.op ≤ w.op + m * (2 * h.data.log) ∧
      s.2.2.2.map ≤ w.map + m * (4 * h.data.log + max 1 (2 * (h.data.log - 1))) ∧
      s.2.2.2.comp ≤ w.comp + m * (4 * (h.data.log - 1) + max 1 (2 * (h.data.log - 1))) ∧ s.2.2.2.pred = w.pred)
    (Q := fun s => SameShape h.data s.1 ∧ ∃ m, R m s.2.1 s.2.2.1 ∧
      s.2.2.2.op ≤ w.op + m * (2 * h.data.log) ∧
      s.2.2.2.map ≤ w.map + m * (4 * h.data.log + max 1 (2 * (h.data.log - 1))) ∧
      s.2.2.2.comp ≤ w.comp + m * (4 * (h.data.log - 1) + max 1 (2 * (h.data.log - 1))) ∧ s.2.2.2.pred = w.pred)
    ⟨.rfl', 0, hR, by simp, by simp, by simp, rfl⟩ ?_).mono ?_)
  · rintro ⟨d, u, v, w1⟩ ⟨h1, m, h2, h3, h4, h5, h6⟩
    simp only at h1 h2 h3 h4 h5 h6 ⊢
    refine post_bind (post_idx.mono fun hu e1 => post_bind (post_idx.mono fun hv e3 => post_ok ?_))
    by_cases hne : hu ≠ hv
    · rw [if_pos (by simpa using hne)]
      refine post_bind (post_idx.mono fun hu' e1' => ?_)
      rw [e1] at e1'; cases e1'
      refine post_bind (post_idx.mono fun du e2 => ?_)
      refine post_bind (post_idx.mono fun hv' e3' => ?_)
      rw [e3] at e3'; cases e3'
      refine post_bind (post_idx.mono fun dv e4 => ?_)
      refine post_bind (post_idx.mono fun hu' e5 => ?_)
      refine post_skip fun l => post_skip fun r => ?_
      refine post_bind ((lz_applyRange_post (by rw [h1.size, h1.log, hs]) (by rw [h1.n, h1.size]; exact hn)).mono ?_)
      rintro ⟨d1, w2⟩ ⟨k1, k2, k3, k4, k5, -⟩
      simp only at k1 k2 k3 k4 k5 ⊢
      refine post_bind (post_idx.mono fun q e6 => post_ok ?_)
      rw [h1.log] at k2 k3 k4
      refine ⟨h1.trans k1, m + 1, hstep _ _ _ _ _ h2 ⟨_, _, _, _, _, e1, e2, e3, e4, hne, e5, e6, rfl⟩, ?_⟩
      simp only [Nat.add_mul, Nat.one_mul]
      omega
    · rw [if_neg (by simpa using hne)]
      exact ⟨h1, m, h2, h3, h4, h5, h6⟩
  · rintro ⟨d, u, v, w1⟩ ⟨h1, m, h2, h3, h4, h5, h6⟩
    simp only at h1 h2 h3 h4 h5 h6 ⊢
    refine post_skip fun pu => post_skip fun pv => post_skip fun l => post_skip fun r => ?_
    refine post_bind ((lz_applyRange_post (by rw [h1.size, h1.log, hs]) (by rw [h1.n, h1.size]; exact hn)).mono ?_)
    rintro ⟨d1, w2⟩ ⟨k1, k2, k3, k4, k5, -⟩
    simp only at k1 k2 k3 k4 k5 ⊢
    rw [h1.log] at k2 k3 k4
    refine post_ok ⟨h1.trans k1, rfl, m, u, v, h2, ?_⟩
    simp only [Nat.add_mul, Nat.one_mul]
    omega

theorem hld_pathProd_post {u v : Nat} {R : Nat → Nat → Nat → Prop} (hR : R 0 u v)
    (hstep : ∀ m u v q v', R m u v → RoundReads h.arr u v q v' → R (m + 1) q v')
    (hs : h.data.size = 2 ^ h.data.log) (hn : h.data.n ≤ h.data.size) :
    Post (h.pathProdE (countMaps M) u v w) fun o => SameShape h.data o.1.1.data ∧ o.1.1.arr = h.arr ∧
      ∃ m x y, R m x y ∧ o.2.op ≤ w.op + (m + 1) * (max 2 (2 * h.data.log - 1) + 1) ∧
        o.2.map ≤ w.map + (m + 1) * (4 * h.data.log) ∧
        o.2.comp ≤ w.comp + (m + 1) * (4 * (h.data.log - 1)) ∧ o.2.pred = w.pred := by
  unfold HLD.pathProdE
  refine post_bind ((post_while (I := fun s => SameShape h.data s.1 ∧ ∃ m, R m s.2.2.1 s.2.2.2.1 ∧
      s.2.2.2.2.op ≤ w.op + m * (max 2 (2 * h.data.log - 1) + 1) ∧
      s.2.2.2.2.map ≤ w.map + m * (4 * h.data.log) ∧
      s.2.2.2.2.comp ≤ w.comp + m * (4 * (h.data.log - 1)) ∧ s.2.2.2.2.pred = w.pred)
    (Q := fun s => SameShape h.data s.1 ∧ ∃ m, R m s.2.2.1 s.2.2.2.1 ∧
      s.2.2.2.2.op ≤ w.op + m * (max 2 (2 * h.data.log - 1) + 1) ∧
      s.2.2.2.2.map ≤ w.map + m * (4 * h.data.log) ∧
      s.2.2.2.2.comp ≤ w.comp + m * (4 * (h.data.log - 1)) ∧ s.2.2.2.2.pred = w.pred)
    ⟨.rfl', 0, hR, by simp, by simp, by simp, rfl⟩ ?_).mono ?_)
  · rintro ⟨d, z, u, v, w1⟩ ⟨h1, m, h2, h3, h4, h5, h6⟩
    simp only at h1 h2 h3 h4 h5 h6 ⊢
    refine post_bind (post_idx.mono fun hu e1 => post_bind (post_idx.mono fun hv e3 => post_ok ?_))
    by_cases hne : hu ≠ hv
    · rw [if_pos (by simpa using hne)]
      refine post_bind (post_idx.mono fun hu' e1' => ?_)
      rw [e1] at e1'; cases e1'
      refine post_bind (post_idx.mono fun du e2 => ?_)
      refine post_bind (post_idx.mono fun hv' e3' => ?_)
      rw [e3] at e3'; cases e3'
      refine post_bind (post_idx.mono fun dv e4 => ?_)
      refine post_bind (post_idx.mono fun hu' e5 => ?_)
      refine post_skip fun l => post_skip fun r => ?_
      refine post_bind ((lz_prod_post (by rw [h1.size, h1.log, hs]) (by rw [h1.n, h1.size]; exact hn)).mono ?_)
      rintro ⟨⟨d1, x⟩, w2⟩ ⟨k1, k2, k3, k4, k5, -⟩
      simp only at k1 k2 k3 k4 k5 ⊢
      refine post_add fun z => ?_
      refine post_bind (post_idx.mono fun q e6 => post_ok ?_)
      rw [h1.log] at k2 k3 k4
      refine ⟨h1.trans k1, m + 1, hstep _ _ _ _ _ h2 ⟨_, _, _, _, _, e1, e2, e3, e4, hne, e5, e6, rfl⟩, ?_⟩
      simp only [Nat.add_mul, Nat.one_mul]
      omega
    · rw [if_neg (by simpa using hne)]
      exact ⟨h1, m, h2, h3, h4, h5, h6⟩
  · rintro ⟨d, z, u, v, w1⟩ ⟨h1, m, h2, h3, h4, h5, h6⟩
    simp only at h1 h2 h3 h4 h5 h6 ⊢
    refine post_skip fun pu => post_skip fun pv => post_skip fun l => post_skip fun r => ?_
    refine post_bind ((lz_prod_post (by rw [h1.size, h1.log, hs]) (by rw [h1.n, h1.size]; exact hn)).mono ?_)
    rintro ⟨⟨d1, x⟩, w2⟩ ⟨k1, k2, k3, k4, k5, -⟩
    simp only at k1 k2 k3 k4 k5 ⊢
    rw [h1.log] at k2 k3 k4
    refine post_add fun z => post_ok ⟨h1.trans k1, rfl, m, u, v, h2, ?_⟩
    simp only [Nat.add_mul, Nat.one_mul]
    omega

theorem hld_applySubtree_post {u : Nat} {f : F} (hs : h.data.size = 2 ^ h.data.log) (hn : h.data.n ≤ h.data.size) :
    Post (h.applySubtreeE (countMaps M) u f w) fun o => SameShape h.data o.1.data ∧ o.1.arr = h.arr ∧
      o.2.op ≤ w.op + 2 * h.data.log ∧ o.2.map ≤ w.map + 4 * h.data.log + max 1 (2 * (h.data.log - 1)) ∧
      o.2.comp ≤ w.comp + 4 * (h.data.log - 1) + max 1 (2 * (h.data.log - 1)) ∧ o.2.pred = w.pred := by
  unfold HLD.applySubtreeE
  refine post_skip fun l => post_skip fun r => post_bind ((lz_applyRange_post hs hn).mono ?_)
  rintro ⟨d1, w2⟩ ⟨k1, k2, k3, k4, k5, -⟩
  exact post_ok ⟨k1, rfl, k2, k3, k4, k5⟩

theorem hld_subtreeProd_post {u : Nat} (hs : h.data.size = 2 ^ h.data.log) (hn : h.data.n ≤ h.data.size) :
    Post (h.subtreeProdE (countMaps M) u w) fun o => SameShape h.data o.1.1.data ∧ o.1.1.arr = h.arr ∧
      o.2.op ≤ w.op + max 2 (2 * h.data.log - 1) ∧ o.2.map ≤ w.map + 4 * h.data.log ∧
      o.2.comp ≤ w.comp + 4 * (h.data.log - 1) ∧ o.2.pred = w.pred := by
  unfold HLD.subtreeProdE
  refine post_skip fun l => post_skip fun r => post_bind ((lz_prod_post hs hn).mono ?_)
  rintro ⟨⟨d1, x⟩, w2⟩ ⟨k1, k2, k3, k4, k5, -⟩
  exact post_ok ⟨k1, rfl, k2, k3, k4, k5⟩

theorem hld_get_post {u : Nat} (hs : h.data.size = 2 ^ h.data.log) (hn : h.data.n ≤ h.data.size) :
    Post (h.getE (countMaps M) u w) fun o => SameShape h.data o.1.1.data ∧ o.1.1.arr = h.arr ∧
      o.2 = ⟨w.op, w.map + 2 * h.data.log, w.comp + 2 * (h.data.log - 1), w.pred⟩ := by
  unfold HLD.getE
  refine post_skip fun l => post_bind ((lz_get_post hs hn).mono ?_)
  rintro ⟨⟨d1, x⟩, w2⟩ ⟨k1, k2⟩
  exact post_ok ⟨k1, rfl, k2⟩

theorem hld_set_post {u : Nat} {x : S} (hs : h.data.size = 2 ^ h.data.log) (hn : h.data.n ≤ h.data.size) :
    Post (h.setE (countMaps M) u x w) fun o => SameShape h.data o.1.data ∧ o.1.arr = h.arr ∧
      o.2 = ⟨w.op + h.data.log, w.map + 2 * h.data.log, w.comp + 2 * (h.data.log - 1), w.pred⟩ := by
  unfold HLD.setE
  refine post_skip fun l => post_bind ((lz_set_post hs hn).mono ?_)
  rintro ⟨d1, w2⟩ ⟨k1, k2⟩
  exact post_ok ⟨k1, rfl, k2⟩

theorem hld_new_post {g : List (List Nat)} {root : Nat} : Post (HLD.newE (countMaps M) g root w) fun o =>
    Balanced o.1.data.n o.1.data.log o.1.data.size ∧ o.1.data.n = g.length ∧
      o.2 = ⟨w.op + (o.1.data.size - 1), w.map, w.comp, w.pred⟩ := by
  unfold HLD.newE
  simp only
  refine post_skip fun _ => post_bind (lz_from_post.mono ?_)
  rintro ⟨d, w1⟩ ⟨k1, k2, k3⟩
  refine post_skip fun _ => post_skip fun _ => post_skip fun _ => post_ok ⟨k1, ?_, k3⟩
  simpa using k2

theorem hld_withInitValue_post {g : List (List Nat)} {root : Nat} {v : List S} :
    Post (HLD.withInitValueE (countMaps M) g root v w) fun o =>
    Balanced o.1.data.n o.1.data.log o.1.data.size ∧ o.1.data.n = g.length ∧
      o.2 = ⟨w.op + 2 * (o.1.data.size - 1), w.map, w.comp, w.pred⟩ := by
  unfold HLD.withInitValueE
  refine post_bind (post_assert.mono fun _ hv => post_bind (hld_new_post.mono ?_))
  rintro ⟨h, w1⟩ ⟨k1, k2, k3⟩
  simp only at k1 k2 k3 ⊢
  subst k3
  refine post_bind (Post.mono (P := fun a => a.length = v.length) ?_ ?_)
  · refine post_forRange (I := fun _ (a : List S) => a.length = v.length) (by omega) rfl ?_
    intro i a _ _ ha
    refine post_skip fun x => post_skip fun p => ?_
    intro b e
    unfold upd at e
    split at e
    · cases e; simpa using ha
    · cases e
  intro a ha
  refine post_bind (lz_from_post.mono ?_)
  rintro ⟨d, w2⟩ ⟨j1, j2, j3⟩
  simp only at j1 j2 j3 ⊢
  subst j3
  refine post_ok ⟨j1, by simp only; omega, ?_⟩
  have hl : h.data.log = d.log := by
    have e : h.data.n = d.n := by omega
    refine Nat.le_antisymm (k1.least _ ?_) (j1.least _ ?_)
    · rw [e, ← j1.pow]; exact j1.le
    · rw [← e, ← k1.pow]; exact k1.le
  have hsz : h.data.size = d.size := by rw [k1.pow, j1.pow, hl]
  simp only [Calls.mk.injEq, and_true]
  omega

end
end Verif.EffP
