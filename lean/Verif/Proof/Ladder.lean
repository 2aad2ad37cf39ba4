import Verif.Proof.CostDinicRun
import Mathlib.Algebra.Order.BigOperators.Group.Finset
/-! Dinic on the ladder: a path through all vertices and a short cut of capacity 1 to the sink from each. Every phase
pushes one unit. -/
namespace Verif.LadP
open Res Model Spec FlowP DinicP Finset Relation

/-- The edges of the ladder with `n` vertices. -/
def ladN (n : Nat) : List NEdge :=
  (List.range (n - 1)).map (fun i => ⟨i, n - 1, 1, 0⟩) ++ (List.range (n - 2)).map (fun i => ⟨i, i + 1, n, 0⟩)

theorem ladN_length (n : Nat) : (ladN n).length = (n - 1) + (n - 2) := by simp [ladN]

theorem ed_short {n k : Nat} (h : k < n - 1) : ed (ladN n) k = ⟨k, n - 1, 1, 0⟩ := by
  unfold ed ladN
  rw [List.getD_eq_getElem?_getD, List.getElem?_append_left (by simpa using h)]
  simp [h]

theorem ed_path {n i : Nat} (h : i < n - 2) : ed (ladN n) (n - 1 + i) = ⟨i, i + 1, n, 0⟩ := by
  unfold ed ladN
  rw [List.getD_eq_getElem?_getD, List.getElem?_append_right (by simp)]
  simp [h]

theorem sum_lad {n : Nat} (f : Nat → Int) : ∑ k ∈ range (ladN n).length, f k =
    ∑ k ∈ range (n - 1), f k + ∑ i ∈ range (n - 2), f (n - 1 + i) := by
  rw [ladN_length, Finset.sum_range_add]

theorem tl_even (N : List NEdge) (k : Nat) : tl N (2 * k) = (ed N k).u := by
  unfold tl; rw [if_pos (by omega), show 2 * k / 2 = k by omega]
theorem hd_even (N : List NEdge) (k : Nat) : hd N (2 * k) = (ed N k).v := by
  unfold hd; rw [if_pos (by omega), show 2 * k / 2 = k by omega]
theorem tl_odd (N : List NEdge) (k : Nat) : tl N (2 * k + 1) = (ed N k).v := by
  unfold tl; rw [if_neg (by omega), show (2 * k + 1) / 2 = k by omega]
theorem hd_odd (N : List NEdge) (k : Nat) : hd N (2 * k + 1) = (ed N k).u := by
  unfold hd; rw [if_neg (by omega), show (2 * k + 1) / 2 = k by omega]

/-- The arcs of the ladder. -/
theorem arc_cases {n j : Nat} (hj : j < 2 * (ladN n).length) :
    (∃ k < n - 1, (tl (ladN n) j = k ∧ hd (ladN n) j = n - 1) ∨ (tl (ladN n) j = n - 1 ∧ hd (ladN n) j = k)) ∨
    ∃ i < n - 2, (tl (ladN n) j = i ∧ hd (ladN n) j = i + 1) ∨ (tl (ladN n) j = i + 1 ∧ hd (ladN n) j = i) := by
  rw [ladN_length] at hj
  obtain ⟨k, hk | hk⟩ : ∃ k, j = 2 * k ∨ j = 2 * k + 1 := ⟨j / 2, by omega⟩
  all_goals subst hk
  all_goals
    by_cases h : k < n - 1
    · left
      refine ⟨k, h, ?_⟩
      first
        | (left; rw [tl_even, hd_even, ed_short h]; exact ⟨rfl, rfl⟩)
        | (right; rw [tl_odd, hd_odd, ed_short h]; exact ⟨rfl, rfl⟩)
    · right
      obtain ⟨i, rfl⟩ : ∃ i, k = n - 1 + i := ⟨k - (n - 1), by omega⟩
      have hi : i < n - 2 := by omega
      refine ⟨i, hi, ?_⟩
      first
        | (left; rw [tl_even, hd_even, ed_path hi]; exact ⟨rfl, rfl⟩)
        | (right; rw [tl_odd, hd_odd, ed_path hi]; exact ⟨rfl, rfl⟩)

theorem pot_sink {n : Nat} (d : Dinic) : pot (ladN n) d (n - 1) = - ∑ k ∈ range (n - 1), cp d (2 * k) := by
  unfold pot
  rw [sum_lad, Finset.sum_eq_zero (s := range (n - 2)), Int.add_zero, ← Finset.sum_neg_distrib]
  · refine Finset.sum_congr rfl fun k hk => ?_
    have hk := mem_range.1 hk
    rw [ed_short hk]
    simp only
    rw [if_neg (by omega), if_pos trivial]; omega
  · intro i hi
    have hi := mem_range.1 hi
    rw [ed_path hi]
    simp only
    rw [if_neg (by omega), if_neg (by omega)]; omega

theorem pot0_sink {n : Nat} : pot0 (ladN n) (n - 1) = -((n - 1 : Nat) : Int) := by
  unfold pot0
  rw [sum_lad, Finset.sum_eq_zero (s := range (n - 2)), Int.add_zero]
  · rw [Finset.sum_congr rfl (g := fun _ => (-1 : Int))]
    · simp
    · intro k hk
      have hk := mem_range.1 hk
      rw [ed_short hk]
      simp only
      rw [if_neg (by omega), if_pos trivial]; omega
  · intro i hi
    have hi := mem_range.1 hi
    rw [ed_path hi]
    simp only
    rw [if_neg (by omega), if_neg (by omega)]; omega

/-- What has been pushed so far. -/
def Pushed (n : Nat) (d : Dinic) (ans : Int) : Prop :=
  ∀ y, pot (ladN n) d y = pot0 (ladN n) y - (dl 0 y ans - dl (n - 1) y ans)

theorem pushed_sum {n : Nat} (hn : 2 ≤ n) {d : Dinic} {ans : Int} (hp : Pushed n d ans) :
    ∑ k ∈ range (n - 1), cp d (2 * k) = (n - 1 : Nat) - ans := by
  have := hp (n - 1)
  rw [pot_sink, pot0_sink] at this
  simp only [dl, if_pos, if_neg (show ¬ 0 = n - 1 by omega)] at this
  omega

theorem short_le {n : Nat} {d : Dinic} (h : St (ladN n) d) {k : Nat} (hk : k < n - 1) : 0 ≤ cp d (2 * k) ∧ cp d (2 * k) ≤ 1 := by
  have hl := ladN_length n
  have h1 := h.pair' (k := k) (by omega)
  have h2 := h.nn (2 * k) (by omega)
  have h3 := h.nn (2 * k + 1) (by omega)
  rw [ed_short hk] at h1
  simp only at h1
  omega

/-- The path keeps capacity. -/
theorem path_pos {n : Nat} (hn : 2 ≤ n) {d : Dinic} {ans : Int} (h : St (ladN n) d) (hp : Pushed n d ans) {i : Nat}
    (hi : i < n - 2) : 0 < cp d (2 * (n - 1 + i)) := by
  obtain ⟨hf, hv⟩ := isFlow_of h hp
  have hl := ladN_length n
  have hsum := pushed_sum hn hp
  have hnn : 0 ≤ ∑ k ∈ range (n - 1), cp d (2 * k) :=
    Finset.sum_nonneg fun k hk => (short_le h (mem_range.1 hk)).1
  have hc := value_cut hf (S := range (i + 1)) (by simp) (by simp; omega)
  rw [hv 0, sum_lad] at hc
  simp only [dl, if_pos, if_neg (show ¬ n - 1 = 0 by omega)] at hc
  have h1 : 0 ≤ ∑ k ∈ range (n - 1), ((if (ed (ladN n) k).u ∈ range (i + 1) then flowOf (ladN n) d k else 0) -
      (if (ed (ladN n) k).v ∈ range (i + 1) then flowOf (ladN n) d k else 0)) := by
    refine Finset.sum_nonneg fun k hk => ?_
    have hk := mem_range.1 hk
    have := flowOf_bounds h (k := k) (by omega)
    rw [ed_short hk] at this ⊢
    simp only [mem_range] at this ⊢
    rw [if_neg (show ¬ n - 1 < i + 1 by omega)]
    split <;> omega
  have h2 : ∑ x ∈ range (n - 2), ((if (ed (ladN n) (n - 1 + x)).u ∈ range (i + 1) then flowOf (ladN n) d (n - 1 + x) else 0) -
      (if (ed (ladN n) (n - 1 + x)).v ∈ range (i + 1) then flowOf (ladN n) d (n - 1 + x) else 0)) =
      flowOf (ladN n) d (n - 1 + i) := by
    rw [Finset.sum_eq_single i]
    · rw [ed_path hi]
      simp only [mem_range]
      rw [if_pos (by omega), if_neg (by omega)]; omega
    · intro x hx hxi
      rw [ed_path (mem_range.1 hx)]
      simp only [mem_range]
      split <;> split <;> omega
    · intro hx
      exact absurd (mem_range.2 hi) hx
  rw [h2] at hc
  have h3 : flowOf (ladN n) d (n - 1 + i) = n - cp d (2 * (n - 1 + i)) := by
    unfold flowOf; rw [ed_path hi]
  omega

theorem lvl_path {n : Nat} (hn : 2 ≤ n) {d : Dinic} {ans : Int} (hst : St (ladN n) d) (hp : Pushed n d ans) {h : List Int}
    (hb : BfsPost (ladN n) d 0 (n - 1) h true) {i : Nat} (hi : i < n - 1) (hlt : (i : Int) < h.getD (n - 1) (-1)) :
    h.getD i (-1) ≠ -1 ∧ h.getD i (-1) ≤ i := by
  obtain ⟨_, _, _, hstep⟩ := hb.found rfl
  induction i with
  | zero => rw [hb.hi.hs]; exact ⟨by decide, by simp⟩
  | succ i ih =>
    obtain ⟨h1, h2⟩ := ih (by omega) (by push_cast at hlt; omega)
    have hl := ladN_length n
    have hs := hstep (2 * (n - 1 + i)) (by omega) (path_pos hn hst hp (by omega))
    rw [tl_even, hd_even, ed_path (by omega)] at hs
    simp only at hs
    push_cast at hlt ⊢
    obtain ⟨h3, h4⟩ := hs h1 (by omega)
    exact ⟨h3, by omega⟩

/-- A vertex below the level of the sink has its own number as level. -/
theorem lvl_eq {n : Nat} (hn : 2 ≤ n) {d : Dinic} {ans : Int} (hst : St (ladN n) d) (hp : Pushed n d ans) {h : List Int}
    (hb : BfsPost (ladN n) d 0 (n - 1) h true) {k : Nat} (hk : k < n - 1) (h0 : 0 ≤ h.getD k (-1))
    (hlt : h.getD k (-1) < h.getD (n - 1) (-1)) : h.getD k (-1) = k := by
  apply le_antisymm
  · by_cases hc : (k : Int) < h.getD (n - 1) (-1)
    · exact (lvl_path hn hst hp hb hk hc).2
    · omega
  · have key : ∀ y, ReflTransGen (LS (ladN n) d h) 0 y → h.getD y (-1) < h.getD (n - 1) (-1) → (y : Int) ≤ h.getD y (-1) := by
      intro y hy
      induction hy with
      | refl => intro _; rw [hb.hi.hs]; simp
      | tail _ hs ih =>
        rename_i x y _
        obtain ⟨j, h1, h2, h3, _, h5, h6⟩ := hs
        intro hy
        have hx := ih (by omega)
        rcases arc_cases h1 with ⟨k, hk, ⟨e1, e2⟩ | ⟨e1, e2⟩⟩ | ⟨i, hi, ⟨e1, e2⟩ | ⟨e1, e2⟩⟩
        · rw [← h3, e2] at hy; omega
        · rw [← h2, e1] at h6; omega
        · have : y = x + 1 := by omega
          subst this; push_cast; omega
        · have : y + 1 = x := by omega
          omega
    exact key k (hb.hi.reach k (by omega)) hlt

/-- A phase pushes at most one unit. -/
theorem phase_one {n : Nat} (hn : 2 ≤ n) {d d' : Dinic} {ans a : Int} (hst : St (ladN n) d) (hp : Pushed n d ans) {h : List Int}
    (hb : BfsPost (ladN n) d 0 (n - 1) h true)
    (hP : Prog (ladN n) (n - 1) 0 { d with h := h, cur := List.replicate d.cur.length 0 } d' a) : a ≤ 1 := by
  have hl := ladN_length n
  have h1 := hP.pot (n - 1)
  have e : pot (ladN n) { d with h := h, cur := List.replicate d.cur.length 0 } (n - 1) = pot (ladN n) d (n - 1) := rfl
  rw [e, pot_sink, pot_sink] at h1
  simp only [dl, if_pos, if_neg (show ¬ 0 = n - 1 by omega)] at h1
  have hun : ∀ k, k < n - 1 → cp d' (2 * k) < cp d (2 * k) → (k : Int) + 1 = h.getD (n - 1) (-1) := by
    intro k hk hlt
    have q1 := hst.pair' (k := k) (by omega)
    have q2 := hP.st.pair' (k := k) (by omega)
    have hi := hP.inc (2 * k + 1) (by omega) (show cp d (2 * k + 1) < _ by omega)
    rw [tl_odd, hd_odd, ed_short hk] at hi
    obtain ⟨i1, i2⟩ := hi
    change 0 ≤ h.getD k (-1) at i1
    change h.getD (n - 1) (-1) = h.getD k (-1) + 1 at i2
    have := lvl_eq hn hst hp hb hk i1 (by omega)
    omega
  have hd : a = ∑ k ∈ range (n - 1), (cp d (2 * k) - cp d' (2 * k)) := by
    rw [Finset.sum_sub_distrib]; omega
  rw [hd]
  obtain ⟨K, hK⟩ : ∃ K : Nat, ∀ k, k < n - 1 → cp d' (2 * k) < cp d (2 * k) → k = K :=
    ⟨(h.getD (n - 1) (-1) - 1).toNat, fun k hk hc => by have := hun k hk hc; omega⟩
  have hle : ∑ k ∈ range (n - 1), (cp d (2 * k) - cp d' (2 * k)) ≤ ∑ k ∈ range (n - 1), (if k = K then 1 else 0 : Int) := by
    refine Finset.sum_le_sum fun k hk => ?_
    have hk := mem_range.1 hk
    have s1 := short_le hst hk
    have s2 := short_le hP.st hk
    split
    · omega
    · rename_i hne
      by_contra hc
      exact hne (hK k hk (by omega))
  refine le_trans hle ?_
  rw [Finset.sum_ite_eq']
  split <;> omega

/-- When the sink is not reached, all short cuts are full. -/
theorem done_full {n : Nat} (hn : 2 ≤ n) {d : Dinic} {ans : Int} (hst : St (ladN n) d) (hp : Pushed n d ans) {h : List Int}
    (hb : BfsPost (ladN n) d 0 (n - 1) h false) : ans = (n - 1 : Nat) := by
  obtain ⟨hc1, hc2⟩ := hb.cut rfl
  have hl := ladN_length n
  have hvis : ∀ i, i < n - 1 → h.getD i (-1) ≠ -1 := by
    intro i
    induction i with
    | zero => intro _; rw [hb.hi.hs]; decide
    | succ i ih =>
      intro hi
      have := hc2 (2 * (n - 1 + i)) (by omega)
      rw [tl_even, hd_even, ed_path (by omega)] at this
      exact this (ih (by omega)) (path_pos hn hst hp (by omega))
  have hz : ∑ k ∈ range (n - 1), cp d (2 * k) = 0 := by
    refine Finset.sum_eq_zero fun k hk => ?_
    have hk := mem_range.1 hk
    have s1 := short_le hst hk
    have := hc2 (2 * k) (by omega)
    rw [tl_even, hd_even, ed_short hk] at this
    by_contra hc
    exact this (hvis k hk) (by omega) (hc1 (by omega))
  have := pushed_sum hn hp
  omega

/-- A call on the ladder that returns has made at least `n - 1` phases. -/
theorem ladder_phases {ty : IntTy} {n : Nat} (hn : 2 ≤ n) (hn2 : n < 2 ^ 31) (hmx : 0 < ty.mx) (hfit : Fits ty (ladN n))
    {d0 : Dinic} (h0 : St (ladN n) d0) (hdn : d0.n = n) (hp0 : Pushed n d0 0) :
    Post (d0.getMaxFlowCost ty 0 (n - 1)) fun o => o.1.2 = ((n - 1 : Nat) : Int) ∧ n - 1 ≤ o.2.phases := by
  unfold Dinic.getMaxFlowCost
  refine post_bind (post_assert.mono fun _ hs => post_bind (post_assert.mono fun _ ht => ?_))
  refine post_loop (I := fun (o : Dinic × Int × Dinic.FlowWork) => St (ladN n) o.1 ∧ o.1.n = n ∧ Pushed n o.1 o.2.1 ∧
    o.2.1 ≤ (o.2.2.phases : Int))
    ⟨h0, hdn, hp0, by simp⟩ ?_
  rintro ⟨d, ans, w⟩ ⟨hst, hdn, hp, hle⟩
  simp only at hst hdn hp hle ⊢
  refine post_bind ((post_of_fst (bfsCost_fst d 0 (n - 1)) (bfs_sat (t := n - 1) hst (by omega) (by omega))).mono ?_)
  rintro ⟨⟨d1, b⟩, k⟩ ⟨h, hd1, hb⟩
  simp only at hd1 hb ⊢
  subst hd1
  cases b with
  | false =>
    simp only [Bool.false_eq_true, if_false]
    have := done_full hn hst hp hb
    exact post_ok ⟨this, by simp only; omega⟩
  | true =>
    simp only [if_true]
    have hst2 : St (ladN n) { d with h := h, cur := List.replicate d.cur.length 0 } :=
      ⟨hst.el, hst.gl, by simpa using hst.cl, hb.hi.len, hst.toh, hst.tln, hst.g, hst.nn, hst.pair⟩
    have hcur : CurOk (ladN n) (n - 1) { d with h := h, cur := List.replicate d.cur.length 0 } := by
      intro x i j hi
      have : i < (List.replicate d.cur.length 0).getD x 0 := hi
      rw [getD_replicate] at this
      omega
    have hlvs : lv { d with h := h, cur := List.replicate d.cur.length 0 } 0 = 0 := hb.hi.hs
    refine post_bind ((post_of_fst (dfsCost_fst _ _ _ _ _) (dfs_sat (n := d.n) (n - 1) hfit (by omega) (d.n + 1) 0 ty.mx _
      hst2 hcur rfl (by omega) (fun x => hb.hi.lt x) (by rw [hlvs]) hmx (le_refl _)
      (by rw [hlvs]; push_cast; omega))).mono ?_)
    rintro ⟨⟨d2, a⟩, ka, kb⟩ ⟨hP, _, _, _⟩
    simp only at hP ⊢
    have ha := phase_one hn hst hp hb hP
    refine post_bind (Post.mono (P := fun o => o = ans + a) ?_ ?_)
    · intro o ho
      unfold IntTy.ck at ho
      split at ho
      · cases ho; rfl
      · cases ho
    · rintro _ rfl
      refine post_ok ⟨hP.st, hP.n.trans hdn, ?_, by simp only; push_cast; omega⟩
      intro y
      have e1 := hP.pot y
      have e2 : pot (ladN n) { d with h := h, cur := List.replicate d.cur.length 0 } y = pot (ladN n) d y := rfl
      rw [e1, e2, hp]
      simp only [dl]
      split <;> split <;> omega

end Verif.LadP
