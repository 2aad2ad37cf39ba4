import Verif.Proof.LazySearch
import Verif.Proof.LazyFitRange
/-! Searches of the lazy segment tree with operations that return only if the result fits. -/
namespace Verif.LazyF
open Res Model Spec LazyP
open SegP (leaf leaf_prod leaf_prod' leaf_prod'' rangeProd_ge and_one_ne pow_bitLen)

variable {S F : Type} [Monoid S] {M : MapOps S F} {Fits : S → Prop} {FitsF : F → Prop} {C : MapMonoidOps S F}

theorem maxRight_sat (hC : Chk M Fits FitsF C) (hM : LawfulMap M) (hG : LawfulComp M) {t : LazySegtree S F}
    {a : List S} {h : List (List F)} (hf : Fine M Fits FitsF a h) (hr : Rep M t a h)
    {l : ℕ} (hl : l ≤ a.length) {g : S → Bool} (hg : g 1 = true) :
    Sat (t.maxRight C l g) (fun o => Rep M o.1 a h ∧ l ≤ o.2 ∧ o.2 ≤ a.length ∧
      g (rangeProd a l o.2) = true ∧
      (o.2 = a.length ∨ g (rangeProd a l (o.2 + 1)) = false)) := by
  unfold LazySegtree.maxRight
  obtain ⟨L, hL, hle, hlen, hw⟩ := id hr
  have hfc := fc_of hf hle
  obtain ⟨d1, d2, d3⟩ := hw.dims
  rw [assert_true (by rw [d1]; exact hl), assert_true (by rw [hC.e, hM.e_eq]; exact hg)]
  simp only [ok_bind, sat_ite, sat_ok, d1]
  have hsz : 2 ^ L ≤ 2 ^ 32 := Nat.pow_le_pow_right (by omega) hL.1
  have hpL := Nat.two_pow_pos L
  have hself : rangeProd a l l = 1 := by
    unfold rangeProd; rw [List.drop_of_length_le (by rw [List.length_take]; omega)]; rfl
  constructor
  · rintro rfl
    exact ⟨hr, Nat.le_refl _, Nat.le_refl _, by rw [hself]; exact hg, Or.inl trivial⟩
  intro hne
  simp only [sat_bind, d2]
  refine (pushPath_sat hC hM hG hw hfc (fh_of hf) (p := l + 2 ^ L) (by omega) (by omega)).mono ?_
  intro t1 ht1
  have hdone : ∀ {t' : LazySegtree S F} {P}, W M t' a.length L (leaf (2 ^ L) a) (leafL (2 ^ L) h) none2 P →
      Rep M t' a h := fun h => ⟨L, hL, hle, hlen, h.mono (fun _ _ _ h => h) (fun _ _ _ h => h.elim)⟩
  obtain ⟨c1, c2, c3⟩ := ht1.dims
  rw [c2]
  refine loop_satG (I := fun (st : ℕ × S) k => ∃ j, Lvl (2 ^ L) j st.1 ∧ l + 2 ^ L ≤ st.1 * 2 ^ j ∧
      st.2 = rprod (leaf (2 ^ L) a) (l + 2 ^ L) (st.1 * 2 ^ j) ∧ g st.2 = true ∧
      k = 2 * 2 ^ L - st.1 * 2 ^ j ∧
      ∀ s x, Str (st.1 * 2 ^ j) s x → x = (l + 2 ^ L) >>> s) _ ?_ _ _
      (2 * 2 ^ L - (l + 2 ^ L)) ?_ ?_
  · rintro ⟨l0, sm⟩ k ⟨j0, h1, h2, h3, h4, h5, h6⟩
    simp only at h1 h2 h3 h4 h5 h6
    simp only [sat_bind]
    refine (whileLoop_sat (I := fun l' : ℕ => ∃ j, Lvl (2 ^ L) j l' ∧ l' * 2 ^ j = l0 * 2 ^ j0)
      (μ := fun l' => l') (Q := fun l' => l' % 2 = 1 ∧ ∃ j, Lvl (2 ^ L) j l' ∧
        l' * 2 ^ j = l0 * 2 ^ j0)
      ?_ _ _ ⟨j0, h1, rfl⟩ (Nat.lt_succ_self _)).mono ?_
    · rintro l' ⟨j, hlv, e⟩
      simp only [sat_ok]
      by_cases h : l' % 2 = 0
      · simp only [h, decide_true, if_true, Nat.shiftRight_one]
        have hpos := hlv.pos
        have e2 : l' / 2 * 2 ^ (j + 1) = l' * 2 ^ j := by rw [← lc_start]; congr 1; omega
        refine ⟨⟨j + 1, ?_, by rw [e2, e]⟩, by omega⟩
        unfold Lvl; rw [e2]; exact hlv
      · simp only [h, decide_false, Bool.false_eq_true, if_false]
        exact ⟨by omega, j, hlv, e⟩
    rintro l' ⟨hodd, j, hlv, e⟩
    rw [← e] at h2 h3 h5 h6
    clear e h1
    have hend := hlv.end_le
    have hp := Nat.two_pow_pos j
    have hstep : (l' + 1) * 2 ^ j = l' * 2 ^ j + 2 ^ j := by rw [Nat.add_mul, Nat.one_mul]
    have hanc : ∀ s x, Anc j l' s x → Str (l' * 2 ^ j) s x := by
      rintro s x ⟨hs, hx1, hx2⟩
      have := anc_odd_left hs hodd hx1
      exact ⟨by omega, by omega⟩
    have hnode : t1.d[l']? = some (rprod (leaf (2 ^ L) a) (l' * 2 ^ j) ((l' + 1) * 2 ^ j)) := by
      refine ht1.node hM hlv (fun h => h) ?_
      intro s x hs _ hx1 hx2
      exact ⟨by omega, h6 s x (hanc s x ⟨hs, hx1, hx2⟩)⟩
    have hop : M.op sm (rprod (leaf (2 ^ L) a) (l' * 2 ^ j) ((l' + 1) * 2 ^ j)) =
        rprod (leaf (2 ^ L) a) (l + 2 ^ L) ((l' + 1) * 2 ^ j) := by
      rw [h3, hM.op_eq, rprod_split h2 (by omega)]
    have hopC : C.op sm (rprod (leaf (2 ^ L) a) (l' * 2 ^ j) ((l' + 1) * 2 ^ j)) =
        ok (rprod (leaf (2 ^ L) a) (l + 2 ^ L) ((l' + 1) * 2 ^ j)) := by
      rw [hC.op _ _ (by rw [hop]; exact hfc _ _ (by omega) (by omega) (by omega)), hop]
    simp only [idx_of_some hnode, sat_ok, hopC]
    rw [sat_ite]
    constructor
    · intro hfalse
      simp only [sat_bind]
      refine (whileLoop_sat (I := fun st : ℕ × S × LazySegtree S F => ∃ j, Lvl (2 ^ L) j st.1 ∧
          l + 2 ^ L ≤ st.1 * 2 ^ j ∧
          st.2.1 = rprod (leaf (2 ^ L) a) (l + 2 ^ L) (st.1 * 2 ^ j) ∧ g st.2.1 = true ∧
          g (rprod (leaf (2 ^ L) a) (l + 2 ^ L) ((st.1 + 1) * 2 ^ j)) = false ∧
          W M st.2.2 a.length L (leaf (2 ^ L) a) (leafL (2 ^ L) h) none2 (fun s x => Anc j st.1 s x))
        (μ := fun st => 2 ^ L - st.1)
        (Q := fun st => 2 ^ L ≤ st.1 ∧ st.1 < 2 * 2 ^ L ∧ l + 2 ^ L ≤ st.1 ∧
          g (rprod (leaf (2 ^ L) a) (l + 2 ^ L) st.1) = true ∧
          g (rprod (leaf (2 ^ L) a) (l + 2 ^ L) (st.1 + 1)) = false ∧
          Rep M st.2.2 a h ∧ st.2.2.size = 2 ^ L) ?_ _ _ ?_ ?_).mono ?_
      · rintro ⟨x, sm, t2⟩ ⟨j, g1, g2, g3, g4, g5, g6⟩
        simp only at g1 g2 g3 g4 g5 g6
        have hs2 := g6.dims.2.1
        simp only [sat_ok, hs2]
        by_cases hx : x < 2 ^ L
        · simp only [hx, decide_true, if_true, sat_bind, sat_idx]
          obtain ⟨j, rfl⟩ : ∃ j', j = j' + 1 := ⟨j - 1, by have := g1.j_pos hx; omega⟩
          have gL := g1.left
          have gR := g1.right
          have hpj := Nat.two_pow_pos j
          have := g1.pos
          refine (push_sat hC hM hG g6 hfc (fh_of hf) (Nat.succ_pos j) g1 (fun s x h => Nat.le_of_lt h.1) fun _ _ _ h => h).mono ?_
          intro t3 ht3
          have hchild : ∀ y, y = 2 * x ∨ y = 2 * x + 1 →
              W M t3 a.length L (leaf (2 ^ L) a) (leafL (2 ^ L) h) none2 (fun s x => Anc j y s x) := by
            intro y hy
            apply ht3.mono (fun _ _ _ h => h)
            intro s z _ hz
            exact (anc_child hy hz).symm
          rw [Nat.mul_comm x 2]
          refine ⟨_, (hchild (2 * x) (Or.inl rfl)).node hM gL (fun h => h)
            (fun s z hs _ hz1 hz2 => ⟨hs, hz1, hz2⟩), ?_⟩
          have e : M.op sm (rprod (leaf (2 ^ L) a) (2 * x * 2 ^ j) ((2 * x + 1) * 2 ^ j)) =
              rprod (leaf (2 ^ L) a) (l + 2 ^ L) ((2 * x + 1) * 2 ^ j) := by
            rw [g3, lc_start, hM.op_eq, rprod_split g2 (by rw [lc_end]; omega)]
          have b1 : (2 * x + 1) * 2 ^ j = x * 2 ^ (j + 1) + 2 ^ j := lc_end ..
          have b2 := gL.end_le
          rw [hC.op _ _ (by rw [e]; exact hfc _ _ (by omega) (by omega) (by omega)), e, sat_ok, sat_ite]
          constructor
          · intro hft
            simp only [sat_ok]
            exact ⟨⟨j, gR, by rw [lc_end]; omega, rfl, hft, by rw [rc_end]; exact g5,
              hchild _ (Or.inr rfl)⟩, by omega⟩
          · intro hft
            simp only [sat_ok]
            refine ⟨⟨j, gL, by rw [lc_start]; exact g2, by rw [lc_start]; exact g3, g4,
              by simpa using hft, hchild _ (Or.inl rfl)⟩, by omega⟩
        · simp only [hx, decide_false, Bool.false_eq_true, if_false]
          have := g1.j_zero (by omega)
          subst this
          simp only [Nat.pow_zero, Nat.mul_one] at g2 g3 g5
          exact ⟨by omega, g1.k_le, g2, by rw [← g3]; exact g4, g5, hdone g6, trivial⟩
      · refine ⟨j, hlv, h2, h3, h4, by simpa using hfalse, ht1.mono (fun _ _ _ h => h) ?_⟩
        intro s x _ hx
        exact ⟨by have := hx.1; omega, h6 s x (hanc s x hx)⟩
      · show 2 ^ L - l' < 2 ^ L + 1
        omega
      · rintro ⟨x, sm', t2⟩ ⟨g1, g2, g3, g4, g5, g6, g7⟩
        simp only at g1 g2 g3 g4 g5 g6 g7
        simp only [sat_subU, sat_ok, g7]
        rw [leaf_prod' _ _ g1] at g4
        rw [leaf_prod' _ _ (by omega), show x + 1 - 2 ^ L = x - 2 ^ L + 1 by omega] at g5
        have hlt : x - 2 ^ L < a.length := by
          apply Nat.lt_of_not_le
          intro hge
          rw [rangeProd_ge (by omega)] at g4
          rw [rangeProd_ge (by omega), g4] at g5
          cases g5
        exact ⟨g1, g6, by omega, by omega, g4, Or.inr g5⟩
    · intro htrue
      have htrue : g (rprod (leaf (2 ^ L) a) (l + 2 ^ L) ((l' + 1) * 2 ^ j)) = true := by
        simpa using htrue
      have hk := hlv.k_le
      simp only [sat_bind, sat_ok, idx_of_some hnode, hopC]
      rw [and_wneg _ (by omega) (by omega), sat_ite]
      constructor
      · intro hnp
        simp only [sat_ok]
        obtain ⟨m, hm⟩ := (low_eq_self_iff (by omega)).1 hnp
        have e : (l' + 1) * 2 ^ j = 2 * 2 ^ L := by
          have h1 := hlv.1
          rw [hm] at hstep hend ⊢
          exact end_pow2 (by omega) hend
        rw [e, leaf_prod' _ _ (by omega), rangeProd_ge (by omega)] at htrue
        rw [c1]
        exact ⟨hdone ht1, hl, Nat.le_refl _, htrue, Or.inl rfl⟩
      · intro hnp
        simp only [sat_ok]
        have hne : (l' + 1) * 2 ^ j ≠ 2 * 2 ^ L := by
          intro e
          rw [← Nat.pow_succ'] at e
          exact hnp ((low_eq_self_iff (by omega)).2 (pow2_of_mul e))
        refine ⟨2 * 2 ^ L - (l' + 1) * 2 ^ j, by omega, j, ⟨by have := hlv.1; omega, by omega⟩,
          by omega, rfl, htrue, rfl, ?_⟩
        intro s x hst
        have hs : j < s := by
          apply Nat.lt_of_not_le; intro h; exact not_str_mul h hst
        apply h6 s x
        apply hanc
        have hx : ((l' + 1) * 2 ^ j - 1) >>> s = x := hst.pred
        have := anc (i := (l' + 1) * 2 ^ j - 1) (k := l') hs (by omega) (by omega)
        rw [hx] at this
        exact ⟨hs, this⟩
  · refine ⟨0, ?_, ?_, ?_, ?_, ?_, ?_⟩
    · constructor <;> simp; omega
    · simp
    · simp [hC.e, hM.e_eq]
    · simpa [hC.e, hM.e_eq] using hg
    · simp
    · intro s x h
      simp only [Nat.pow_zero, Nat.mul_one] at h
      exact h.shift.1.symm
  · omega

theorem minLeft_sat (hC : Chk M Fits FitsF C) (hM : LawfulMap M) (hG : LawfulComp M) {t : LazySegtree S F}
    {a : List S} {h : List (List F)} (hf : Fine M Fits FitsF a h) (hr : Rep M t a h)
    {r : ℕ} (hrn : r ≤ a.length) {g : S → Bool} (hg : g 1 = true) :
    Sat (t.minLeft C r g) (fun o => Rep M o.1 a h ∧ o.2 ≤ r ∧ g (rangeProd a o.2 r) = true ∧
      (o.2 = 0 ∨ g (rangeProd a (o.2 - 1) r) = false)) := by
  unfold LazySegtree.minLeft
  obtain ⟨L, hL, hle, hlen, hw⟩ := id hr
  have hfc := fc_of hf hle
  obtain ⟨d1, d2, d3⟩ := hw.dims
  rw [assert_true (by rw [d1]; exact hrn), assert_true (by rw [hC.e, hM.e_eq]; exact hg)]
  simp only [ok_bind, sat_ite, sat_ok]
  have hsz : 2 ^ L ≤ 2 ^ 32 := Nat.pow_le_pow_right (by omega) hL.1
  have hpL := Nat.two_pow_pos L
  have hself : rangeProd a r r = 1 := by
    unfold rangeProd; rw [List.drop_of_length_le (by rw [List.length_take]; omega)]; rfl
  constructor
  · rintro rfl
    exact ⟨hr, Nat.le_refl _, by rw [hself]; exact hg, Or.inl trivial⟩
  intro hne
  simp only [sat_bind, d2]
  refine (pushPath_sat hC hM hG hw hfc (fh_of hf) (p := r + 2 ^ L - 1) (by omega) (by omega)).mono ?_
  intro t1 ht1
  have hdone : ∀ {t' : LazySegtree S F} {P}, W M t' a.length L (leaf (2 ^ L) a) (leafL (2 ^ L) h) none2 P →
      Rep M t' a h := fun h => ⟨L, hL, hle, hlen, h.mono (fun _ _ _ h => h) (fun _ _ _ h => h.elim)⟩
  obtain ⟨c1, c2, c3⟩ := ht1.dims
  rw [c2]
  refine loop_satG (I := fun (st : ℕ × S) k => ∃ j, j ≤ L ∧ 2 ^ L < st.1 * 2 ^ j ∧
      st.1 * 2 ^ j ≤ r + 2 ^ L ∧
      st.2 = rprod (leaf (2 ^ L) a) (st.1 * 2 ^ j) (r + 2 ^ L) ∧ g st.2 = true ∧
      k = st.1 * 2 ^ j ∧
      ∀ s x, s ≤ L → Str (st.1 * 2 ^ j) s x → x = (r + 2 ^ L - 1) >>> s) _ ?_ _ _ (r + 2 ^ L) ?_ ?_
  · rintro ⟨r0, sm⟩ k ⟨j0, hj0, h1, h2, h3, h4, h5, h6⟩
    simp only at h1 h2 h3 h4 h5 h6
    have hr0 : 0 < r0 := by
      rcases Nat.eq_zero_or_pos r0 with rfl | h
      · omega
      · exact h
    simp only [sat_bind, sat_subU]
    refine ⟨by omega, ?_⟩
    have hlv0 : Lvl (2 ^ L) j0 (r0 - 1) := by
      have hpj := Nat.two_pow_pos j0
      apply Lvl.of_end
      · have e : 2 ^ L = 2 ^ (L - j0) * 2 ^ j0 := by
          rw [← Nat.pow_add]; congr 1; omega
        have : 2 ^ (L - j0) * 2 ^ j0 < r0 * 2 ^ j0 := by rw [← e]; exact h1
        have := Nat.lt_of_mul_lt_mul_right this
        rw [e]
        exact Nat.mul_le_mul_right _ (by omega)
      · rw [show r0 - 1 + 1 = r0 by omega]; omega
    refine (whileLoop_sat (I := fun x : ℕ => ∃ j, Lvl (2 ^ L) j x ∧ (x + 1) * 2 ^ j = r0 * 2 ^ j0)
      (μ := fun x => x) (Q := fun x => (x = 1 ∨ x % 2 = 0) ∧
        ∃ j, Lvl (2 ^ L) j x ∧ (x + 1) * 2 ^ j = r0 * 2 ^ j0)
      ?_ _ _ ⟨j0, hlv0, by rw [show r0 - 1 + 1 = r0 by omega]⟩ (Nat.lt_succ_self _)).mono ?_
    · rintro x ⟨j, hlv, e⟩
      simp only [sat_ok]
      by_cases h : x > 1 ∧ x % 2 ≠ 0
      · simp only [h, and_self, decide_true, if_true, Nat.shiftRight_one, ne_eq, not_false_eq_true]
        have hp : Lvl (2 ^ L) (j + 1) (x / 2) := hlv.parent h.1
        have e2 : (x / 2 + 1) * 2 ^ (j + 1) = (x + 1) * 2 ^ j := by
          rw [← rc_end]; congr 1; omega
        exact ⟨⟨j + 1, hp, by rw [e2, e]⟩, by omega⟩
      · simp only [h, decide_false, Bool.false_eq_true, if_false]
        have := hlv.pos
        exact ⟨by omega, j, hlv, e⟩
    rintro x ⟨hev, j, hlv, e⟩
    rw [← e] at h1 h2 h3 h5 h6
    clear e hlv0 hj0
    have hend := hlv.end_le
    have hp := Nat.two_pow_pos j
    have hge := hlv.1
    have hstep : (x + 1) * 2 ^ j = x * 2 ^ j + 2 ^ j := by rw [Nat.add_mul, Nat.one_mul]
    have hanc : ∀ s z, s ≤ L → Anc j x s z → Str ((x + 1) * 2 ^ j) s z := by
      rintro s z hsL ⟨hs, hx1, hx2⟩
      rcases hev with rfl | hev
      · have hj : j = L := by
          have := hlv.1
          have h' := hlv.j_le
          have : 2 ^ L ≤ 2 ^ j := by omega
          have := (Nat.pow_le_pow_iff_right (a := 2) (by omega)).1 this
          omega
        omega
      · have := anc_odd_right hs (k := x + 1) (by omega) hx2
        exact ⟨by omega, by omega⟩
    have hnode : t1.d[x]? = some (rprod (leaf (2 ^ L) a) (x * 2 ^ j) ((x + 1) * 2 ^ j)) := by
      refine ht1.node hM hlv (fun h => h) ?_
      intro s z hs hz hx1 hx2
      exact ⟨by omega, h6 s z hz.j_le (hanc s z hz.j_le ⟨hs, hx1, hx2⟩)⟩
    have hop : M.op (rprod (leaf (2 ^ L) a) (x * 2 ^ j) ((x + 1) * 2 ^ j)) sm =
        rprod (leaf (2 ^ L) a) (x * 2 ^ j) (r + 2 ^ L) := by
      rw [h3, hM.op_eq, rprod_split (by omega) h2]
    have hopC : C.op (rprod (leaf (2 ^ L) a) (x * 2 ^ j) ((x + 1) * 2 ^ j)) sm =
        ok (rprod (leaf (2 ^ L) a) (x * 2 ^ j) (r + 2 ^ L)) := by
      rw [hC.op _ _ (by rw [hop]; exact hfc _ _ (by omega) (by omega) (by omega)), hop]
    simp only [idx_of_some hnode, sat_ok, hopC]
    rw [sat_ite]
    constructor
    · intro hfalse
      simp only [sat_bind]
      refine (whileLoop_sat (I := fun st : ℕ × S × LazySegtree S F => ∃ j, Lvl (2 ^ L) j st.1 ∧
          (st.1 + 1) * 2 ^ j ≤ r + 2 ^ L ∧
          st.2.1 = rprod (leaf (2 ^ L) a) ((st.1 + 1) * 2 ^ j) (r + 2 ^ L) ∧ g st.2.1 = true ∧
          g (rprod (leaf (2 ^ L) a) (st.1 * 2 ^ j) (r + 2 ^ L)) = false ∧
          W M st.2.2 a.length L (leaf (2 ^ L) a) (leafL (2 ^ L) h) none2 (fun s x => Anc j st.1 s x))
        (μ := fun st => 2 ^ L - st.1)
        (Q := fun st => 2 ^ L ≤ st.1 ∧ st.1 + 1 ≤ r + 2 ^ L ∧
          g (rprod (leaf (2 ^ L) a) (st.1 + 1) (r + 2 ^ L)) = true ∧
          g (rprod (leaf (2 ^ L) a) st.1 (r + 2 ^ L)) = false ∧
          Rep M st.2.2 a h ∧ st.2.2.size = 2 ^ L) ?_ _ _ ?_ ?_).mono ?_
      · rintro ⟨x, sm, t2⟩ ⟨j, g1, g2, g3, g4, g5, g6⟩
        simp only at g1 g2 g3 g4 g5 g6
        have hs2 := g6.dims.2.1
        simp only [sat_ok, hs2]
        by_cases hx : x < 2 ^ L
        · simp only [hx, decide_true, if_true, sat_bind, sat_idx]
          obtain ⟨j, rfl⟩ : ∃ j', j = j' + 1 := ⟨j - 1, by have := g1.j_pos hx; omega⟩
          have gL := g1.left
          have gR := g1.right
          have hpj := Nat.two_pow_pos j
          have := g1.pos
          have hx2 : (2 * x + 1) * 2 ^ j ≤ (x + 1) * 2 ^ (j + 1) := by
            rw [← rc_end]; exact Nat.mul_le_mul_right _ (by omega)
          refine (push_sat hC hM hG g6 hfc (fh_of hf) (Nat.succ_pos j) g1 (fun s x h => Nat.le_of_lt h.1) fun _ _ _ h => h).mono ?_
          intro t3 ht3
          have hchild : ∀ y, y = 2 * x ∨ y = 2 * x + 1 →
              W M t3 a.length L (leaf (2 ^ L) a) (leafL (2 ^ L) h) none2 (fun s x => Anc j y s x) := by
            intro y hy
            apply ht3.mono (fun _ _ _ h => h)
            intro s z _ hz
            exact (anc_child hy hz).symm
          refine ⟨_, (hchild (2 * x + 1) (Or.inr rfl)).node hM gR (fun h => h)
            (fun s z hs _ hz1 hz2 => ⟨hs, hz1, hz2⟩), ?_⟩
          have e : M.op (rprod (leaf (2 ^ L) a) ((2 * x + 1) * 2 ^ j) ((2 * x + 1 + 1) * 2 ^ j)) sm =
              rprod (leaf (2 ^ L) a) ((2 * x + 1) * 2 ^ j) (r + 2 ^ L) := by
            rw [g3, rc_end, hM.op_eq, rprod_split hx2 g2]
          have b1 := gR.1
          rw [hC.op _ _ (by rw [e]; exact hfc _ _ (by omega) (by omega) (by omega)), e, sat_ok, sat_ite]
          constructor
          · intro hft
            simp only [sat_bind, sat_subU, sat_ok]
            refine ⟨by omega, ⟨j, ?_, ?_, ?_, hft, ?_, ?_⟩, by omega⟩
            · rw [Nat.add_sub_cancel]; exact gL
            · rw [Nat.add_sub_cancel]; omega
            · rw [Nat.add_sub_cancel]
            · rw [Nat.add_sub_cancel, lc_start]; exact g5
            · rw [Nat.add_sub_cancel]; exact hchild _ (Or.inl rfl)
          · intro hft
            simp only [sat_ok]
            refine ⟨⟨j, gR, by rw [rc_end]; exact g2, by rw [rc_end]; exact g3, g4,
              by simpa using hft, hchild _ (Or.inr rfl)⟩, by omega⟩
        · simp only [hx, decide_false, Bool.false_eq_true, if_false]
          have := g1.j_zero (by omega)
          subst this
          simp only [Nat.pow_zero, Nat.mul_one] at g2 g3 g5
          exact ⟨by omega, g2, by rw [← g3]; exact g4, g5, hdone g6, trivial⟩
      · refine ⟨j, hlv, h2, h3, h4, by simpa using hfalse, ht1.mono (fun _ _ _ h => h) ?_⟩
        intro s z hz hx
        exact ⟨by have := hx.1; omega, h6 s z hz.j_le (hanc s z hz.j_le hx)⟩
      · show 2 ^ L - x < 2 ^ L + 1
        omega
      · rintro ⟨x, sm', t2⟩ ⟨g1, g2, g4, g5, g6, g7⟩
        simp only at g1 g2 g4 g5 g6 g7
        simp only [sat_subU, sat_ok, g7]
        rw [leaf_prod'' _ _ (by omega)] at g4
        rw [leaf_prod'' _ _ (by omega)] at g5
        refine ⟨by omega, g6, by omega, g4, Or.inr ?_⟩
        rw [show x + 1 - 2 ^ L - 1 = x - 2 ^ L by omega]; exact g5
    · intro htrue
      have htrue : g (rprod (leaf (2 ^ L) a) (x * 2 ^ j) (r + 2 ^ L)) = true := by
        simpa using htrue
      have hk := hlv.k_le
      have hpos := hlv.pos
      simp only [sat_bind, sat_ok, idx_of_some hnode, hopC]
      rw [and_wneg _ (by omega) (by omega), sat_ite]
      constructor
      · intro hnp
        simp only [sat_ok]
        obtain ⟨m, hm⟩ := (low_eq_self_iff (by omega)).1 hnp
        have e : x * 2 ^ j = 2 ^ L := by
          have h1 := hlv.1
          have h2 := hlv.2
          rw [hm] at h1 h2 ⊢
          rw [← Nat.pow_add] at *
          rw [← Nat.pow_succ'] at h2
          have := (Nat.pow_le_pow_iff_right (a := 2) (by omega)).1 h1
          have := (Nat.pow_lt_pow_iff_right (a := 2) (by omega)).1 h2
          congr 1; omega
        rw [e, leaf_prod'' _ _ (by omega), Nat.sub_self] at htrue
        exact ⟨hdone ht1, by omega, htrue, Or.inl trivial⟩
      · intro hnp
        simp only [sat_ok]
        have hne : x * 2 ^ j ≠ 2 ^ L := by
          intro e
          exact hnp ((low_eq_self_iff (by omega)).2 (pow2_of_mul e))
        refine ⟨x * 2 ^ j, by omega, j, hlv.j_le, by omega, by omega, rfl, htrue, rfl, ?_⟩
        intro s z hsL hst
        have hs : j < s := by
          apply Nat.lt_of_not_le; intro h; exact not_str_mul h hst
        apply h6 s z hsL
        apply hanc s z hsL
        have hx : (x * 2 ^ j) >>> s = z := hst.shift.1
        have := anc (i := x * 2 ^ j) (k := x) hs (by omega) (by omega)
        rw [hx] at this
        exact ⟨hs, this⟩
  · refine ⟨0, ?_, ?_, ?_, ?_, ?_, ?_, ?_⟩
    · omega
    · simp; omega
    · simp
    · simp [hC.e, hM.e_eq]
    · simpa [hC.e, hM.e_eq] using hg
    · simp
    · intro s x _ h
      simp only [Nat.pow_zero, Nat.mul_one] at h
      exact h.pred.symm
  · omega

end Verif.LazyF
