import Verif.Prelude.Sim
import Verif.Proof.LazySearch
import Verif.Proof.Segtree
/-! The searches of the lazy segment tree next to those of the segment tree that holds the same elements. -/
namespace Verif.LazyP
open Res Model Spec
open SegP (leaf)

variable {S F : Type} [Monoid S] {M : MapOps S F}

/-- The operation alone. -/
abbrev flat (M : MapOps S F) : MonoidOps S := ⟨M.ops.e, M.ops.op⟩

theorem maxRight_same (hM : LawfulMap M) {t : LazySegtree S F} {s : Segtree S} {a : List S} (hr : Rep M t a)
    (hs : SegP.Rep s a) (l : ℕ) (g : S → Bool) :
    Sim False False (fun o r => o.2 = r) (t.maxRight M l g) (s.maxRight (flat M) l g) := by
  unfold LazySegtree.maxRight Segtree.maxRight
  obtain ⟨L, hL, hle, hw⟩ := id hr
  obtain ⟨d1, d2, d3⟩ := hw.dims
  have s1 := hs.n
  have s2 : s.size = 2 ^ L := by rw [hs.size, hs.logn, hL.2]
  have hpL := Nat.two_pow_pos L
  rw [d1, s1]
  refine sim_assert fun hl => ?_
  show Sim _ _ _ (assert (g M.ops.e = true) >>= _) (assert (g M.ops.e = true) >>= _)
  refine sim_assert fun hg => ?_
  by_cases hne : l = a.length
  · rw [if_pos hne, if_pos hne]; exact sim_ok rfl
  rw [if_neg hne, if_neg hne]
  simp only [d2, s2]
  obtain ⟨t1, e1, ht1⟩ := pushPath_sat hM hw (p := l + 2 ^ L) (by omega) (by omega)
  rw [e1, ok_bind]
  obtain ⟨c1, c2, c3⟩ := ht1.dims
  rw [c2]
  refine sim_loop (Q := fun st st' => st = st' ∧ ∃ j, Lvl (2 ^ L) j st.1 ∧
      ∀ s x, Str (st.1 * 2 ^ j) s x → x = (l + 2 ^ L) >>> s) ⟨rfl, 0, ?_, ?_⟩ ?_
  · constructor <;> simp; omega
  · intro s x h
    simp only [Nat.pow_zero, Nat.mul_one] at h
    exact h.shift.1.symm
  rintro ⟨l0, sm⟩ _ ⟨rfl, j0, h1, h6⟩
  simp only at h1 h6
  refine sim_bind (Q := fun l' l'' => l' = l'' ∧ l' % 2 = 1 ∧ ∃ j, Lvl (2 ^ L) j l' ∧ l' * 2 ^ j = l0 * 2 ^ j0)
    (sim_whileC (Q := fun l' l'' => l' = l'' ∧ ∃ j, Lvl (2 ^ L) j l' ∧ l' * 2 ^ j = l0 * 2 ^ j0) ⟨rfl, j0, h1, rfl⟩ ?_) ?_
  · rintro l' _ ⟨rfl, j, hlv, e⟩
    refine sim_ok ⟨rfl, ?_⟩
    by_cases h : l' % 2 = 0
    · simp only [h, decide_true, if_true, Nat.shiftRight_one]
      have hpos := hlv.pos
      have e2 : l' / 2 * 2 ^ (j + 1) = l' * 2 ^ j := by rw [← lc_start]; congr 1; omega
      refine sim_ok ⟨rfl, j + 1, ?_, by rw [e2, e]⟩
      unfold Lvl; rw [e2]; exact hlv
    · simp only [h, decide_false, Bool.false_eq_true, if_false]
      exact ⟨trivial, by omega, j, hlv, e⟩
  rintro l' _ ⟨rfl, hodd, j, hlv, e⟩
  rw [← e] at h6
  clear e h1
  have hend := hlv.end_le
  have hp := Nat.two_pow_pos j
  have hstep : (l' + 1) * 2 ^ j = l' * 2 ^ j + 2 ^ j := by rw [Nat.add_mul, Nat.one_mul]
  have hanc : ∀ s x, Anc j l' s x → Str (l' * 2 ^ j) s x := by
    rintro s x ⟨hs, hx1, hx2⟩
    have := anc_odd_left hs hodd hx1
    exact ⟨by omega, by omega⟩
  have hnode : t1.d[l']? = some (rprod (leaf (2 ^ L) a) (l' * 2 ^ j) ((l' + 1) * 2 ^ j)) := by
    refine ht1.node hM hlv (fun h => h) ?_
    intro s x hs _ hx1 hx2
    exact ⟨by omega, h6 s x (hanc s x ⟨hs, hx1, hx2⟩)⟩
  have snode : ∀ j k, Lvl (2 ^ L) j k → s.d[k]? = some (rprod (leaf (2 ^ L) a) (k * 2 ^ j) ((k + 1) * 2 ^ j)) := by
    intro j k h
    have := hs.node j k (by rw [s2]; exact h)
    rw [s2] at this
    exact this
  simp only [idx_of_some hnode, idx_of_some (snode _ _ hlv), ok_bind, MapOps.ops_op]
  refine sim_ite ?_ ?_
  · refine sim_bind (Q := fun (st : ℕ × S × LazySegtree S F) (st' : ℕ × S) => st.1 = st'.1 ∧ st.2.2.size = 2 ^ L)
      (sim_whileC (Q := fun (st : ℕ × S × LazySegtree S F) (st' : ℕ × S) => st.1 = st'.1 ∧ st.2.1 = st'.2 ∧
        ∃ j, Lvl (2 ^ L) j st.1 ∧ W M st.2.2 a.length L (leaf (2 ^ L) a) none2 (fun s x => Anc j st.1 s x))
        ⟨rfl, rfl, j, hlv, ht1.mono (fun _ _ _ h => h) ?_⟩ ?_) ?_
    · intro s x _ hx
      exact ⟨by have := hx.1; omega, h6 s x (hanc s x hx)⟩
    · rintro ⟨x, sm, t2⟩ ⟨_, _⟩ ⟨rfl, rfl, j, g1, g6⟩
      simp only at g1 g6
      have hs2 := g6.dims.2.1
      refine sim_ok ⟨by rw [hs2], ?_⟩
      simp only [hs2]
      by_cases hx : x < 2 ^ L
      · simp only [hx, decide_true, if_true]
        obtain ⟨j, rfl⟩ : ∃ j', j = j' + 1 := ⟨j - 1, by have := g1.j_pos hx; omega⟩
        have gL := g1.left
        have gR := g1.right
        obtain ⟨t3, e3, ht3⟩ := push_sat hM g6 (Nat.succ_pos j) g1 (fun s x h => Nat.le_of_lt h.1)
        rw [e3, ok_bind]
        have hchild : ∀ y, y = 2 * x ∨ y = 2 * x + 1 →
            W M t3 a.length L (leaf (2 ^ L) a) none2 (fun s x => Anc j y s x) := by
          intro y hy
          apply ht3.mono (fun _ _ _ h => h)
          intro s z _ hz
          exact (anc_child hy hz).symm
        simp only [Nat.mul_comm x 2, idx_of_some ((hchild (2 * x) (Or.inl rfl)).node hM gL (fun h => h)
          (fun s z hs _ hz1 hz2 => ⟨hs, hz1, hz2⟩)), idx_of_some (snode _ _ gL), ok_bind]
        exact sim_ite (sim_ok ⟨rfl, rfl, j, gR, hchild _ (Or.inr rfl)⟩) (sim_ok ⟨rfl, rfl, j, gL, hchild _ (Or.inl rfl)⟩)
      · simp only [hx, decide_false, Bool.false_eq_true, if_false]
        exact ⟨trivial, trivial⟩
    · rintro ⟨x, sm', t2⟩ ⟨_, _⟩ ⟨rfl, g7⟩
      simp only at g7
      simp only [g7]
      refine sim_bind sim_refl ?_
      rintro r _ rfl
      exact sim_ok rfl
  · have hk := hlv.k_le
    have hsz : 2 ^ L ≤ 2 ^ 32 := Nat.pow_le_pow_right (by omega) hL.1
    by_cases hnp : (l' + 1) &&& wnegU 64 (l' + 1) = l' + 1
    · rw [if_pos hnp, if_neg (by simpa using hnp), c1]
      exact sim_ok rfl
    · rw [if_neg hnp, if_pos hnp]
      rw [and_wneg _ (by omega) (by omega)] at hnp
      have hne : (l' + 1) * 2 ^ j ≠ 2 * 2 ^ L := by
        intro e
        rw [← Nat.pow_succ'] at e
        exact hnp ((low_eq_self_iff (by omega)).2 (pow2_of_mul e))
      have hlv' : Lvl (2 ^ L) j (l' + 1) := ⟨by have := hlv.1; omega, by omega⟩
      refine sim_ok ⟨rfl, j, hlv', ?_⟩
      intro s x hst
      have hs : j < s := by
        apply Nat.lt_of_not_le; intro h; exact not_str_mul h hst
      apply h6 s x
      apply hanc
      have hx : ((l' + 1) * 2 ^ j - 1) >>> s = x := hst.pred
      have := anc (i := (l' + 1) * 2 ^ j - 1) (k := l') hs (by omega) (by omega)
      rw [hx] at this
      exact ⟨hs, this⟩

theorem minLeft_same (hM : LawfulMap M) {t : LazySegtree S F} {s : Segtree S} {a : List S} (hr : Rep M t a)
    (hs : SegP.Rep s a) (r : ℕ) (g : S → Bool) :
    Sim False False (fun o l => o.2 = l) (t.minLeft M r g) (s.minLeft (flat M) r g) := by
  unfold LazySegtree.minLeft Segtree.minLeft
  obtain ⟨L, hL, hle, hw⟩ := id hr
  obtain ⟨d1, d2, d3⟩ := hw.dims
  have s1 := hs.n
  have s2 : s.size = 2 ^ L := by rw [hs.size, hs.logn, hL.2]
  have hpL := Nat.two_pow_pos L
  rw [d1, s1]
  refine sim_assert fun hrn => ?_
  show Sim _ _ _ (assert (g M.ops.e = true) >>= _) (assert (g M.ops.e = true) >>= _)
  refine sim_assert fun hg => ?_
  by_cases hne : r = 0
  · rw [if_pos hne, if_pos hne]; exact sim_ok rfl
  rw [if_neg hne, if_neg hne]
  simp only [d2, s2]
  obtain ⟨t1, e1, ht1⟩ := pushPath_sat hM hw (p := r + 2 ^ L - 1) (by omega) (by omega)
  rw [e1, ok_bind]
  obtain ⟨c1, c2, c3⟩ := ht1.dims
  rw [c2]
  have snode : ∀ j k, Lvl (2 ^ L) j k → s.d[k]? = some (rprod (leaf (2 ^ L) a) (k * 2 ^ j) ((k + 1) * 2 ^ j)) := by
    intro j k h
    have := hs.node j k (by rw [s2]; exact h)
    rw [s2] at this
    exact this
  refine sim_loop (Q := fun st st' => st = st' ∧ ∃ j, j ≤ L ∧ 2 ^ L < st.1 * 2 ^ j ∧ st.1 * 2 ^ j ≤ r + 2 ^ L ∧
      ∀ s x, s ≤ L → Str (st.1 * 2 ^ j) s x → x = (r + 2 ^ L - 1) >>> s) ⟨rfl, 0, ?_, ?_, ?_, ?_⟩ ?_
  · omega
  · simp; omega
  · simp
  · intro s x _ h
    simp only [Nat.pow_zero, Nat.mul_one] at h
    exact h.pred.symm
  rintro ⟨r0, sm⟩ _ ⟨rfl, j0, hj0, h1, h2, h6⟩
  simp only at h1 h2 h6
  have hr0 : 0 < r0 := by
    rcases Nat.eq_zero_or_pos r0 with rfl | h
    · omega
    · exact h
  have hlv0 : Lvl (2 ^ L) j0 (r0 - 1) := by
    have hpj := Nat.two_pow_pos j0
    apply Lvl.of_end
    · have e : 2 ^ L = 2 ^ (L - j0) * 2 ^ j0 := by
        rw [← Nat.pow_add]; congr 1; omega
      have : 2 ^ (L - j0) * 2 ^ j0 < r0 * 2 ^ j0 := by rw [← e]; exact h1
      have := Nat.lt_of_mul_lt_mul_right this
      rw [e]
      exact Nat.mul_le_mul_right _ (by omega)
    · rw [show r0 - 1 + 1 = r0 by omega]; omega
  simp only
  rw [show subU r0 1 = ok (r0 - 1) from by unfold subU; rw [if_pos (by omega)], ok_bind, ok_bind]
  refine sim_bind (Q := fun x x' => x = x' ∧ (x = 1 ∨ x % 2 = 0) ∧ ∃ j, Lvl (2 ^ L) j x ∧ (x + 1) * 2 ^ j = r0 * 2 ^ j0)
    (sim_whileC (Q := fun x x' => x = x' ∧ ∃ j, Lvl (2 ^ L) j x ∧ (x + 1) * 2 ^ j = r0 * 2 ^ j0)
      ⟨rfl, j0, hlv0, by rw [show r0 - 1 + 1 = r0 by omega]⟩ ?_) ?_
  · rintro x _ ⟨rfl, j, hlv, e⟩
    refine sim_ok ⟨?_, ?_⟩
    · by_cases h : x % 2 = 1
      · simp [h]
      · simp [h, show x % 2 = 0 by omega]
    by_cases h : x > 1 ∧ x % 2 ≠ 0
    · simp only [h, and_self, decide_true, if_true, Nat.shiftRight_one, ne_eq, not_false_eq_true]
      have hp : Lvl (2 ^ L) (j + 1) (x / 2) := hlv.parent h.1
      have e2 : (x / 2 + 1) * 2 ^ (j + 1) = (x + 1) * 2 ^ j := by
        rw [← rc_end]; congr 1; omega
      exact sim_ok ⟨rfl, j + 1, hp, by rw [e2, e]⟩
    · simp only [h, decide_false, Bool.false_eq_true, if_false]
      have := hlv.pos
      exact ⟨trivial, by omega, j, hlv, e⟩
  rintro x _ ⟨rfl, hev, j, hlv, e⟩
  rw [← e] at h1 h2 h6
  clear e hlv0 hj0
  have hend := hlv.end_le
  have hp := Nat.two_pow_pos j
  have hge := hlv.1
  have hstep : (x + 1) * 2 ^ j = x * 2 ^ j + 2 ^ j := by rw [Nat.add_mul, Nat.one_mul]
  have hanc : ∀ s z, s ≤ L → Anc j x s z → Str ((x + 1) * 2 ^ j) s z := by
    rintro s z hsL ⟨hs, hx1, hx2⟩
    rcases hev with rfl | hev
    · have hj : j = L := by
        have := hlv.1
        have h' := hlv.j_le
        have : 2 ^ L ≤ 2 ^ j := by omega
        have := (Nat.pow_le_pow_iff_right (a := 2) (by omega)).1 this
        omega
      omega
    · have := anc_odd_right hs (k := x + 1) (by omega) hx2
      exact ⟨by omega, by omega⟩
  have hnode : t1.d[x]? = some (rprod (leaf (2 ^ L) a) (x * 2 ^ j) ((x + 1) * 2 ^ j)) := by
    refine ht1.node hM hlv (fun h => h) ?_
    intro s z hs hz hx1 hx2
    exact ⟨by omega, h6 s z hz.j_le (hanc s z hz.j_le ⟨hs, hx1, hx2⟩)⟩
  simp only [idx_of_some hnode, idx_of_some (snode _ _ hlv), ok_bind, MapOps.ops_op]
  refine sim_ite ?_ ?_
  · refine sim_bind (Q := fun (st : ℕ × S × LazySegtree S F) (st' : ℕ × S) => st.1 = st'.1 ∧ st.2.2.size = 2 ^ L)
      (sim_whileC (Q := fun (st : ℕ × S × LazySegtree S F) (st' : ℕ × S) => st.1 = st'.1 ∧ st.2.1 = st'.2 ∧
        ∃ j, Lvl (2 ^ L) j st.1 ∧ W M st.2.2 a.length L (leaf (2 ^ L) a) none2 (fun s x => Anc j st.1 s x))
        ⟨rfl, rfl, j, hlv, ht1.mono (fun _ _ _ h => h) ?_⟩ ?_) ?_
    · intro s z hz hx
      exact ⟨by have := hx.1; omega, h6 s z hz.j_le (hanc s z hz.j_le hx)⟩
    · rintro ⟨x, sm, t2⟩ ⟨_, _⟩ ⟨rfl, rfl, j, g1, g6⟩
      simp only at g1 g6
      have hs2 := g6.dims.2.1
      refine sim_ok ⟨by rw [hs2], ?_⟩
      simp only [hs2]
      by_cases hx : x < 2 ^ L
      · simp only [hx, decide_true, if_true]
        obtain ⟨j, rfl⟩ : ∃ j', j = j' + 1 := ⟨j - 1, by have := g1.j_pos hx; omega⟩
        have gL := g1.left
        have gR := g1.right
        obtain ⟨t3, e3, ht3⟩ := push_sat hM g6 (Nat.succ_pos j) g1 (fun s x h => Nat.le_of_lt h.1)
        rw [e3, ok_bind]
        have hchild : ∀ y, y = 2 * x ∨ y = 2 * x + 1 →
            W M t3 a.length L (leaf (2 ^ L) a) none2 (fun s x => Anc j y s x) := by
          intro y hy
          apply ht3.mono (fun _ _ _ h => h)
          intro s z _ hz
          exact (anc_child hy hz).symm
        simp only [idx_of_some ((hchild (2 * x + 1) (Or.inr rfl)).node hM gR (fun h => h)
          (fun s z hs _ hz1 hz2 => ⟨hs, hz1, hz2⟩)), idx_of_some (snode _ _ gR), ok_bind,
          show subU (2 * x + 1) 1 = ok (2 * x) from by unfold subU; rw [if_pos (by omega)]; rfl]
        exact sim_ite (sim_ok ⟨rfl, rfl, j, gL, hchild _ (Or.inl rfl)⟩) (sim_ok ⟨rfl, rfl, j, gR, hchild _ (Or.inr rfl)⟩)
      · simp only [hx, decide_false, Bool.false_eq_true, if_false]
        exact ⟨trivial, trivial⟩
    · rintro ⟨x, sm', t2⟩ ⟨_, _⟩ ⟨rfl, g7⟩
      simp only at g7
      simp only [g7]
      refine sim_bind sim_refl ?_
      rintro r _ rfl
      exact sim_ok rfl
  · have hk := hlv.k_le
    have hpos := hlv.pos
    have hsz : 2 ^ L ≤ 2 ^ 32 := Nat.pow_le_pow_right (by omega) hL.1
    by_cases hnp : x &&& wnegU 64 x = x
    · rw [if_pos hnp, if_neg (by simpa using hnp)]
      exact sim_ok rfl
    · rw [if_neg hnp, if_pos hnp]
      rw [and_wneg _ (by omega) (by omega)] at hnp
      have hne : x * 2 ^ j ≠ 2 ^ L := by
        intro e
        exact hnp ((low_eq_self_iff (by omega)).2 (pow2_of_mul e))
      refine sim_ok ⟨rfl, j, hlv.j_le, by simp only; omega, by simp only; omega, ?_⟩
      intro s z hsL hst
      have hs : j < s := by
        apply Nat.lt_of_not_le; intro h; exact not_str_mul h hst
      apply h6 s z hsL
      apply hanc s z hsL
      have hx : (x * 2 ^ j) >>> s = z := hst.shift.1
      have := anc (i := x * 2 ^ j) (k := x) hs (by omega) (by omega)
      rw [hx] at this
      exact ⟨hs, this⟩

end Verif.LazyP
