import Verif.Proof.SearchSeg
import Verif.Proof.LazySearch
/-! `max_right` and `min_left` of the lazy segment tree with a closure that has a state. -/
namespace Verif.LazyP
open Res Model Spec
open SegP (leaf leaf_prod leaf_prod' leaf_prod'' rangeProd_ge and_one_ne pow_bitLen)

variable {S F σ : Type} [Monoid S] {M : MapOps S F} {Inv : ℕ → σ → Prop}

theorem maxRightS_sat (hM : LawfulMap M) {t : LazySegtree S F} {a : List S} (hr : Rep M t a)
    {l : ℕ} (hl : l ≤ a.length) {g : σ → S → Res (Bool × σ)} {P : ℕ → Bool → Prop}
    (hp : Answers Inv g (fun k => rangeProd a l k) l a.length P) {s0 s1 : σ}
    (e1 : g s0 1 = ok (true, s1)) (hp1 : P l true) (hI1 : Inv (c0 + 1) s1) :
    Sat (t.maxRightS M l g s0) (fun o => (Rep M o.1.1 a ∧ l ≤ o.1.2 ∧ P (min o.1.2 a.length) true ∧
      (o.1.2 = a.length ∨ (o.1.2 < t.size ∧ P (min (o.1.2 + 1) a.length) false))) ∧
      ∃ c, c ≤ c0 + max (2 * t.log) (t.log + 2) ∧ Inv c o.2) := by
  unfold LazySegtree.maxRightS
  obtain ⟨L, hL, hle, hw⟩ := id hr
  obtain ⟨d1, d2, d3⟩ := hw.dims
  rw [assert_true (by rw [d1]; exact hl)]
  simp only [ok_bind, MapOps.ops_e, hM.e_eq, e1]
  rw [assert_true trivial]
  simp only [ok_bind, sat_ite, sat_ok, d1, d3]
  have hsz : 2 ^ L ≤ 2 ^ 32 := Nat.pow_le_pow_right (by omega) hL.1
  have hpL := Nat.two_pow_pos L
  constructor
  · rintro rfl
    exact ⟨⟨hr, Nat.le_refl _, by rw [Nat.min_self]; exact hp1, Or.inl trivial⟩, _, by omega, hI1⟩
  intro hne
  simp only [sat_bind, d2]
  refine (pushPath_sat hM hw (p := l + 2 ^ L) (by omega) (by omega)).mono ?_
  intro t1 ht1
  have hdone : ∀ {t' : LazySegtree S F} {P}, W M t' a.length L (leaf (2 ^ L) a) none2 P →
      Rep M t' a := fun h => ⟨L, hL, hle, h.mono (fun _ _ _ h => h) (fun _ _ _ h => h.elim)⟩
  obtain ⟨c1, c2, c3⟩ := ht1.dims
  rw [c2]
  have hcall : ∀ {c : ℕ} {s : σ}, Inv c s → ∀ K, l + 2 ^ L ≤ K →
      ∃ b s', g s (rprod (leaf (2 ^ L) a) (l + 2 ^ L) K) = .ok (b, s') ∧ P (min (K - 2 ^ L) a.length) b ∧ Inv (c + 1) s' :=
    fun h K hK => SegP.answers_right hl hp h hK
  refine loop_satG (I := fun (st : ℕ × S × σ) k => ∃ j c, Lvl (2 ^ L) j st.1 ∧ l + 2 ^ L ≤ st.1 * 2 ^ j ∧
      st.2.1 = rprod (leaf (2 ^ L) a) (l + 2 ^ L) (st.1 * 2 ^ j) ∧
      P (min (st.1 * 2 ^ j - 2 ^ L) a.length) true ∧
      k = 2 * 2 ^ L - st.1 * 2 ^ j ∧
      (∀ s x, Str (st.1 * 2 ^ j) s x → x = (l + 2 ^ L) >>> s) ∧ Inv c st.2.2 ∧
      (c ≤ c0 + j + 1 ∨ (st.1 % 2 = 0 ∧ c ≤ c0 + j + 2)) ∧
      (st.1 * 2 ^ j = l + 2 ^ L → c ≤ c0 + 1)) _ ?_ _ _
      (2 * 2 ^ L - (l + 2 ^ L)) ?_ ?_
  · rintro ⟨l0, sm, s⟩ k ⟨j0, c, h1, h2, h3, h4, h5, h6, h8, h7, h9⟩
    simp only at h1 h2 h3 h4 h5 h6 h7 h8 h9
    simp only [sat_bind]
    refine (whileLoop_sat (I := fun l' : ℕ => ∃ j, Lvl (2 ^ L) j l' ∧ l' * 2 ^ j = l0 * 2 ^ j0 ∧
        (c ≤ c0 + j + 1 ∨ (l' % 2 = 0 ∧ c ≤ c0 + j + 2)))
      (μ := fun l' => l') (Q := fun l' => l' % 2 = 1 ∧ ∃ j, Lvl (2 ^ L) j l' ∧
        l' * 2 ^ j = l0 * 2 ^ j0 ∧ c ≤ c0 + j + 1)
      ?_ _ _ ⟨j0, h1, rfl, h7⟩ (Nat.lt_succ_self _)).mono ?_
    · rintro l' ⟨j, hlv, e, hc⟩
      simp only [sat_ok]
      by_cases h : l' % 2 = 0
      · simp only [h, decide_true, if_true, Nat.shiftRight_one]
        have hpos := hlv.pos
        have e2 : l' / 2 * 2 ^ (j + 1) = l' * 2 ^ j := by rw [← lc_start]; congr 1; omega
        refine ⟨⟨j + 1, ?_, by rw [e2, e], by omega⟩, by omega⟩
        unfold Lvl; rw [e2]; exact hlv
      · simp only [h, decide_false, Bool.false_eq_true, if_false]
        exact ⟨by omega, j, hlv, e, by omega⟩
    rintro l' ⟨hodd, j, hlv, e, hc⟩
    rw [← e] at h2 h3 h4 h5 h6 h9
    clear e h1 h7
    have hroot : j = L → c ≤ c0 + 1 := by
      intro hjj
      apply h9
      rw [hjj] at hlv h2 ⊢
      have h1 := hlv.1
      have h2 := hlv.2
      have hl1 : l' = 1 := by
        have := Nat.two_pow_pos L
        have h3 : l' * 2 ^ L < 2 * 2 ^ L := h2
        have := Nat.lt_of_mul_lt_mul_right h3
        omega
      subst hl1
      omega
    have hend := hlv.end_le
    have hpj := Nat.two_pow_pos j
    have hjL := hlv.j_le
    have hstep : (l' + 1) * 2 ^ j = l' * 2 ^ j + 2 ^ j := by rw [Nat.add_mul, Nat.one_mul]
    have hanc : ∀ s x, Anc j l' s x → Str (l' * 2 ^ j) s x := by
      rintro s x ⟨hs, hx1, hx2⟩
      have := anc_odd_left hs hodd hx1
      exact ⟨by omega, by omega⟩
    have hnode : t1.d[l']? = some (rprod (leaf (2 ^ L) a) (l' * 2 ^ j) ((l' + 1) * 2 ^ j)) := by
      refine ht1.node hM hlv (fun h => h) ?_
      intro s x hs _ hx1 hx2
      exact ⟨by omega, h6 s x (hanc s x ⟨hs, hx1, hx2⟩)⟩
    have hop : M.op sm (rprod (leaf (2 ^ L) a) (l' * 2 ^ j) ((l' + 1) * 2 ^ j)) =
        rprod (leaf (2 ^ L) a) (l + 2 ^ L) ((l' + 1) * 2 ^ j) := by
      rw [h3, hM.op_eq, rprod_split h2 (by omega)]
    obtain ⟨b2, s2, e2, hP2, hI2⟩ := hcall h8 ((l' + 1) * 2 ^ j) (by omega)
    simp only [idx_of_some hnode, ok_bind, sat_ok, MapOps.ops_op, hop, e2]
    rw [sat_ite]
    constructor
    · intro hfalse
      have hfalse : b2 = false := by simpa using hfalse
      rw [hfalse] at hP2
      replace hfalse := hP2
      simp only [sat_bind]
      refine (whileLoop_sat (I := fun st : ℕ × S × LazySegtree S F × σ => ∃ j c, Lvl (2 ^ L) j st.1 ∧
          l + 2 ^ L ≤ st.1 * 2 ^ j ∧
          st.2.1 = rprod (leaf (2 ^ L) a) (l + 2 ^ L) (st.1 * 2 ^ j) ∧ P (min (st.1 * 2 ^ j - 2 ^ L) a.length) true ∧
          P (min ((st.1 + 1) * 2 ^ j - 2 ^ L) a.length) false ∧
          W M st.2.2.1 a.length L (leaf (2 ^ L) a) none2 (fun s x => Anc j st.1 s x) ∧
          Inv c st.2.2.2 ∧ c + j ≤ c0 + max (2 * L) (L + 2))
        (μ := fun st => 2 ^ L - st.1)
        (Q := fun st => 2 ^ L ≤ st.1 ∧ st.1 < 2 * 2 ^ L ∧ l + 2 ^ L ≤ st.1 ∧
          P (min (st.1 - 2 ^ L) a.length) true ∧
          P (min (st.1 + 1 - 2 ^ L) a.length) false ∧
          Rep M st.2.2.1 a ∧ st.2.2.1.size = 2 ^ L ∧ ∃ c, Inv c st.2.2.2 ∧ c ≤ c0 + max (2 * L) (L + 2)) ?_ _ _ ?_ ?_).mono ?_
      · rintro ⟨x, sm, t2, s⟩ ⟨j, c, g1, g2, g3, g4, g5, g6, g7, g8⟩
        simp only at g1 g2 g3 g4 g5 g6 g7 g8
        have hs2 := g6.dims.2.1
        simp only [sat_ok, hs2]
        by_cases hx : x < 2 ^ L
        · simp only [hx, decide_true, if_true, sat_bind, sat_idx, MapOps.ops_op, sat_ok]
          obtain ⟨j, rfl⟩ : ∃ j', j = j' + 1 := ⟨j - 1, by have := g1.j_pos hx; omega⟩
          have gL := g1.left
          have gR := g1.right
          have hpj := Nat.two_pow_pos j
          have := g1.pos
          refine (push_sat hM g6 (Nat.succ_pos j) g1 (fun s x h => Nat.le_of_lt h.1)).mono ?_
          intro t3 ht3
          have hchild : ∀ y, y = 2 * x ∨ y = 2 * x + 1 →
              W M t3 a.length L (leaf (2 ^ L) a) none2 (fun s x => Anc j y s x) := by
            intro y hy
            apply ht3.mono (fun _ _ _ h => h)
            intro s z _ hz
            exact (anc_child hy hz).symm
          rw [Nat.mul_comm x 2]
          refine ⟨_, (hchild (2 * x) (Or.inl rfl)).node hM gL (fun h => h)
            (fun s z hs _ hz1 hz2 => ⟨hs, hz1, hz2⟩), ?_⟩
          rw [g3, lc_start, hM.op_eq, rprod_split g2 (by rw [lc_end]; omega)]
          obtain ⟨b3, s3, e3, hP3, hI3⟩ := hcall g7 ((2 * x + 1) * 2 ^ j) (by rw [lc_end]; omega)
          rw [e3]
          simp only [sat_ok]
          rw [sat_ite]
          constructor
          · intro hft
            have hft : b3 = true := by simpa using hft
            rw [hft] at hP3
            replace hft := hP3
            simp only [sat_ok]
            exact ⟨⟨j, _, gR, by rw [lc_end]; omega, rfl, hft, by rw [rc_end]; exact g5,
              hchild _ (Or.inr rfl), hI3, by omega⟩, by omega⟩
          · intro hft
            have hft : b3 = false := by simpa using hft
            rw [hft] at hP3
            replace hft := hP3
            simp only [sat_ok]
            refine ⟨⟨j, _, gL, by rw [lc_start]; exact g2, by rw [lc_start], by rw [lc_start]; exact g4,
              hft, hchild _ (Or.inl rfl), hI3, by omega⟩, by omega⟩
        · simp only [hx, decide_false, Bool.false_eq_true, if_false]
          have := g1.j_zero (by omega)
          subst this
          simp only [Nat.pow_zero, Nat.mul_one] at g2 g3 g4 g5
          exact ⟨by omega, g1.k_le, g2, g4, g5, hdone g6, trivial, c, g7, by omega⟩
      · refine ⟨j, _, hlv, h2, h3, h4, hfalse, ht1.mono (fun _ _ _ h => h) ?_, hI2, by omega⟩
        intro s x _ hx
        exact ⟨by have := hx.1; omega, h6 s x (hanc s x hx)⟩
      · show 2 ^ L - l' < 2 ^ L + 1
        omega
      · rintro ⟨x, sm', t2, s'⟩ ⟨g1, g2, g3, g4, g5, g6, g7, c', g8, g9⟩
        simp only at g1 g2 g3 g4 g5 g6 g7 g8
        simp only [sat_subU, sat_ok, g7]
        rw [show x + 1 - 2 ^ L = x - 2 ^ L + 1 by omega] at g5
        exact ⟨g1, ⟨g6, by omega, g4, Or.inr ⟨by omega, g5⟩⟩, c', g9, g8⟩
    · intro htrue
      have hb2 : b2 = true := by simpa using htrue
      rw [hb2] at hP2
      replace htrue := hP2
      have hk := hlv.k_le
      rw [and_wneg _ (by omega) (by omega), sat_ite]
      constructor
      · intro hnp
        simp only [sat_ok]
        obtain ⟨m, hm⟩ := (low_eq_self_iff (by omega)).1 hnp
        have e : (l' + 1) * 2 ^ j = 2 * 2 ^ L := by
          have h1 := hlv.1
          rw [hm] at hstep hend ⊢
          exact end_pow2 (by omega) hend
        rw [e, Nat.min_eq_right (by omega)] at htrue
        rw [c1]
        exact ⟨⟨hdone ht1, hl, by rw [Nat.min_self]; exact htrue, Or.inl rfl⟩, c + 1, by omega, hI2⟩
      · intro hnp
        simp only [sat_ok]
        have hne : (l' + 1) * 2 ^ j ≠ 2 * 2 ^ L := by
          intro e
          rw [← Nat.pow_succ'] at e
          exact hnp ((low_eq_self_iff (by omega)).2 (pow2_of_mul e))
        refine ⟨2 * 2 ^ L - (l' + 1) * 2 ^ j, by omega, j, c + 1, ⟨by have := hlv.1; omega, by omega⟩,
          by omega, rfl, htrue, rfl, ?_, hI2, Or.inr ⟨by omega, by omega⟩, by omega⟩
        intro s x hst
        have hs : j < s := by
          apply Nat.lt_of_not_le; intro h; exact not_str_mul h hst
        apply h6 s x
        apply hanc
        have hx : ((l' + 1) * 2 ^ j - 1) >>> s = x := hst.pred
        have := anc (i := (l' + 1) * 2 ^ j - 1) (k := l') hs (by omega) (by omega)
        rw [hx] at this
        exact ⟨hs, this⟩
  · refine ⟨0, c0 + 1, ?_, ?_, ?_, ?_, ?_, ?_, hI1, Or.inl (by omega), fun _ => Nat.le_refl _⟩
    · constructor <;> simp; omega
    · simp
    · simp
    · simpa [Nat.min_eq_left hl] using hp1
    · simp
    · intro s x h
      simp only [Nat.pow_zero, Nat.mul_one] at h
      exact h.shift.1.symm
  · omega

theorem minLeftS_sat (hM : LawfulMap M) {t : LazySegtree S F} {a : List S} (hr : Rep M t a)
    {r : ℕ} (hrn : r ≤ a.length) {g : σ → S → Res (Bool × σ)} {P : ℕ → Bool → Prop}
    (hp : Answers Inv g (fun k => rangeProd a k r) 0 r P) {s0 s1 : σ}
    (e1 : g s0 1 = ok (true, s1)) (hp1 : P r true) (hI1 : Inv (c0 + 1) s1) :
    Sat (t.minLeftS M r g s0) (fun o => (Rep M o.1.1 a ∧ o.1.2 ≤ r ∧ P o.1.2 true ∧
      (o.1.2 = 0 ∨ P (o.1.2 - 1) false)) ∧ ∃ c, c ≤ c0 + max (2 * t.log) (t.log + 2) ∧ Inv c o.2) := by
  unfold LazySegtree.minLeftS
  obtain ⟨L, hL, hle, hw⟩ := id hr
  obtain ⟨d1, d2, d3⟩ := hw.dims
  rw [assert_true (by rw [d1]; exact hrn)]
  simp only [ok_bind, MapOps.ops_e, hM.e_eq, e1]
  rw [assert_true trivial]
  simp only [ok_bind, sat_ite, sat_ok, d3]
  have hsz : 2 ^ L ≤ 2 ^ 32 := Nat.pow_le_pow_right (by omega) hL.1
  have hpL := Nat.two_pow_pos L
  constructor
  · rintro rfl
    exact ⟨⟨hr, Nat.le_refl _, hp1, Or.inl trivial⟩, _, by omega, hI1⟩
  intro hne
  simp only [sat_bind, d2]
  refine (pushPath_sat hM hw (p := r + 2 ^ L - 1) (by omega) (by omega)).mono ?_
  intro t1 ht1
  have hdone : ∀ {t' : LazySegtree S F} {P}, W M t' a.length L (leaf (2 ^ L) a) none2 P →
      Rep M t' a := fun h => ⟨L, hL, hle, h.mono (fun _ _ _ h => h) (fun _ _ _ h => h.elim)⟩
  obtain ⟨c1, c2, c3⟩ := ht1.dims
  rw [c2]
  have hcall : ∀ {c : ℕ} {s : σ}, Inv c s → ∀ K, 2 ^ L ≤ K → K ≤ r + 2 ^ L →
      ∃ b s', g s (rprod (leaf (2 ^ L) a) K (r + 2 ^ L)) = .ok (b, s') ∧ P (K - 2 ^ L) b ∧ Inv (c + 1) s' :=
    fun h K hK hK2 => SegP.answers_left hp h hK hK2
  refine loop_satG (I := fun (st : ℕ × S × σ) k => ∃ j c, j ≤ L ∧ 2 ^ L < st.1 * 2 ^ j ∧
      st.1 * 2 ^ j ≤ r + 2 ^ L ∧
      st.2.1 = rprod (leaf (2 ^ L) a) (st.1 * 2 ^ j) (r + 2 ^ L) ∧ P (st.1 * 2 ^ j - 2 ^ L) true ∧
      k = st.1 * 2 ^ j ∧
      (∀ s x, s ≤ L → Str (st.1 * 2 ^ j) s x → x = (r + 2 ^ L - 1) >>> s) ∧ Inv c st.2.2 ∧
      (c ≤ c0 + j + 1 ∨ (st.1 % 2 = 0 ∧ 2 < st.1 ∧ c ≤ c0 + j + 2)) ∧
      (st.1 * 2 ^ j = r + 2 ^ L → c ≤ c0 + 1)) _ ?_ _ _ (r + 2 ^ L) ?_ ?_
  · rintro ⟨r0, sm, s⟩ k ⟨j0, c, hj0, h1, h2, h3, h4, h5, h6, h8, h7, h9⟩
    simp only at h1 h2 h3 h4 h5 h6 h7 h8 h9
    have hr0 : 0 < r0 := by
      rcases Nat.eq_zero_or_pos r0 with rfl | h
      · omega
      · exact h
    simp only [sat_bind, sat_subU]
    refine ⟨by omega, ?_⟩
    have hlv0 : Lvl (2 ^ L) j0 (r0 - 1) := by
      have hpj := Nat.two_pow_pos j0
      apply Lvl.of_end
      · have e : 2 ^ L = 2 ^ (L - j0) * 2 ^ j0 := by
          rw [← Nat.pow_add]; congr 1; omega
        have : 2 ^ (L - j0) * 2 ^ j0 < r0 * 2 ^ j0 := by rw [← e]; exact h1
        have := Nat.lt_of_mul_lt_mul_right this
        rw [e]
        exact Nat.mul_le_mul_right _ (by omega)
      · rw [show r0 - 1 + 1 = r0 by omega]; omega
    refine (whileLoop_sat (I := fun x : ℕ => ∃ j, Lvl (2 ^ L) j x ∧ (x + 1) * 2 ^ j = r0 * 2 ^ j0 ∧
        (c ≤ c0 + j + 1 ∨ (1 < x ∧ x % 2 = 1 ∧ c ≤ c0 + j + 2)))
      (μ := fun x => x) (Q := fun x => (x = 1 ∨ x % 2 = 0) ∧
        ∃ j, Lvl (2 ^ L) j x ∧ (x + 1) * 2 ^ j = r0 * 2 ^ j0 ∧ c ≤ c0 + j + 1)
      ?_ _ _ ⟨j0, hlv0, by rw [show r0 - 1 + 1 = r0 by omega], by omega⟩ (Nat.lt_succ_self _)).mono ?_
    · rintro x ⟨j, hlv, e, hc⟩
      simp only [sat_ok]
      by_cases h : x > 1 ∧ x % 2 ≠ 0
      · simp only [h, and_self, decide_true, if_true, Nat.shiftRight_one, ne_eq, not_false_eq_true]
        have hp : Lvl (2 ^ L) (j + 1) (x / 2) := hlv.parent h.1
        have e2 : (x / 2 + 1) * 2 ^ (j + 1) = (x + 1) * 2 ^ j := by
          rw [← rc_end]; congr 1; omega
        exact ⟨⟨j + 1, hp, by rw [e2, e], by omega⟩, by omega⟩
      · simp only [h, decide_false, Bool.false_eq_true, if_false]
        have := hlv.pos
        exact ⟨by omega, j, hlv, e, by omega⟩
    rintro x ⟨hev, j, hlv, e, hc⟩
    rw [← e] at h1 h2 h3 h4 h5 h6 h9
    clear e hlv0 hj0 h7
    have hroot : j = L → c ≤ c0 + 1 := by
      intro hjj
      apply h9
      rw [hjj] at hlv h2 ⊢
      have h1 := hlv.1
      have h2 := hlv.2
      have hl1 : x = 1 := by
        have := Nat.two_pow_pos L
        have h3 : x * 2 ^ L < 2 * 2 ^ L := h2
        have := Nat.lt_of_mul_lt_mul_right h3
        have := hlv.pos
        omega
      subst hl1
      omega
    have hend := hlv.end_le
    have hpj := Nat.two_pow_pos j
    have hjL := hlv.j_le
    have hge := hlv.1
    have hstep : (x + 1) * 2 ^ j = x * 2 ^ j + 2 ^ j := by rw [Nat.add_mul, Nat.one_mul]
    have hanc : ∀ s z, s ≤ L → Anc j x s z → Str ((x + 1) * 2 ^ j) s z := by
      rintro s z hsL ⟨hs, hx1, hx2⟩
      rcases hev with rfl | hev
      · have hj : j = L := by
          have := hlv.1
          have h' := hlv.j_le
          have : 2 ^ L ≤ 2 ^ j := by omega
          have := (Nat.pow_le_pow_iff_right (a := 2) (by omega)).1 this
          omega
        omega
      · have := anc_odd_right hs (k := x + 1) (by omega) hx2
        exact ⟨by omega, by omega⟩
    have hnode : t1.d[x]? = some (rprod (leaf (2 ^ L) a) (x * 2 ^ j) ((x + 1) * 2 ^ j)) := by
      refine ht1.node hM hlv (fun h => h) ?_
      intro s z hs hz hx1 hx2
      exact ⟨by omega, h6 s z hz.j_le (hanc s z hz.j_le ⟨hs, hx1, hx2⟩)⟩
    have hop : M.op (rprod (leaf (2 ^ L) a) (x * 2 ^ j) ((x + 1) * 2 ^ j)) sm =
        rprod (leaf (2 ^ L) a) (x * 2 ^ j) (r + 2 ^ L) := by
      rw [h3, hM.op_eq, rprod_split (by omega) h2]
    obtain ⟨b2, s2, e2, hP2, hI2⟩ := hcall h8 (x * 2 ^ j) hge (by omega)
    simp only [idx_of_some hnode, ok_bind, sat_ok, MapOps.ops_op, hop, e2]
    rw [sat_ite]
    constructor
    · intro hfalse
      have hfalse : b2 = false := by simpa using hfalse
      rw [hfalse] at hP2
      replace hfalse := hP2
      simp only [sat_bind]
      refine (whileLoop_sat (I := fun st : ℕ × S × LazySegtree S F × σ => ∃ j c, Lvl (2 ^ L) j st.1 ∧
          (st.1 + 1) * 2 ^ j ≤ r + 2 ^ L ∧
          st.2.1 = rprod (leaf (2 ^ L) a) ((st.1 + 1) * 2 ^ j) (r + 2 ^ L) ∧
          P ((st.1 + 1) * 2 ^ j - 2 ^ L) true ∧ P (st.1 * 2 ^ j - 2 ^ L) false ∧
          W M st.2.2.1 a.length L (leaf (2 ^ L) a) none2 (fun s x => Anc j st.1 s x) ∧
          Inv c st.2.2.2 ∧ c + j ≤ c0 + max (2 * L) (L + 2))
        (μ := fun st => 2 ^ L - st.1)
        (Q := fun st => 2 ^ L ≤ st.1 ∧ st.1 + 1 ≤ r + 2 ^ L ∧
          P (st.1 + 1 - 2 ^ L) true ∧ P (st.1 - 2 ^ L) false ∧
          Rep M st.2.2.1 a ∧ st.2.2.1.size = 2 ^ L ∧ ∃ c, Inv c st.2.2.2 ∧ c ≤ c0 + max (2 * L) (L + 2)) ?_ _ _ ?_ ?_).mono ?_
      · rintro ⟨x, sm, t2, s⟩ ⟨j, c, g1, g2, g3, g4, g5, g6, g7, g8⟩
        simp only at g1 g2 g3 g4 g5 g6 g7 g8
        have hs2 := g6.dims.2.1
        simp only [sat_ok, hs2]
        by_cases hx : x < 2 ^ L
        · simp only [hx, decide_true, if_true, sat_bind, sat_idx, MapOps.ops_op, sat_ok]
          obtain ⟨j, rfl⟩ : ∃ j', j = j' + 1 := ⟨j - 1, by have := g1.j_pos hx; omega⟩
          have gL := g1.left
          have gR := g1.right
          have hpj := Nat.two_pow_pos j
          have := g1.pos
          have hx2 : (2 * x + 1) * 2 ^ j ≤ (x + 1) * 2 ^ (j + 1) := by
            rw [← rc_end]; exact Nat.mul_le_mul_right _ (by omega)
          refine (push_sat hM g6 (Nat.succ_pos j) g1 (fun s x h => Nat.le_of_lt h.1)).mono ?_
          intro t3 ht3
          have hchild : ∀ y, y = 2 * x ∨ y = 2 * x + 1 →
              W M t3 a.length L (leaf (2 ^ L) a) none2 (fun s x => Anc j y s x) := by
            intro y hy
            apply ht3.mono (fun _ _ _ h => h)
            intro s z _ hz
            exact (anc_child hy hz).symm
          refine ⟨_, (hchild (2 * x + 1) (Or.inr rfl)).node hM gR (fun h => h)
            (fun s z hs _ hz1 hz2 => ⟨hs, hz1, hz2⟩), ?_⟩
          rw [g3, rc_end, hM.op_eq, rprod_split hx2 g2]
          obtain ⟨b3, s3, e3, hP3, hI3⟩ := hcall g7 ((2 * x + 1) * 2 ^ j) gR.1 (by omega)
          rw [e3]
          simp only [sat_ok]
          rw [sat_ite]
          constructor
          · intro hft
            have hft : b3 = true := by simpa using hft
            rw [hft] at hP3
            replace hft := hP3
            simp only [sat_bind, sat_subU, sat_ok]
            refine ⟨by omega, ⟨j, _, ?_, ?_, ?_, ?_, ?_, ?_, hI3, by omega⟩, by omega⟩
            · rw [Nat.add_sub_cancel]; exact gL
            · rw [Nat.add_sub_cancel]; omega
            · rw [Nat.add_sub_cancel]
            · rw [Nat.add_sub_cancel]; exact hft
            · rw [Nat.add_sub_cancel, lc_start]; exact g5
            · rw [Nat.add_sub_cancel]; exact hchild _ (Or.inl rfl)
          · intro hft
            have hft : b3 = false := by simpa using hft
            rw [hft] at hP3
            replace hft := hP3
            simp only [sat_ok]
            refine ⟨⟨j, _, gR, by rw [rc_end]; exact g2, by rw [rc_end], by rw [rc_end]; exact g4,
              hft, hchild _ (Or.inr rfl), hI3, by omega⟩, by omega⟩
        · simp only [hx, decide_false, Bool.false_eq_true, if_false]
          have := g1.j_zero (by omega)
          subst this
          simp only [Nat.pow_zero, Nat.mul_one] at g2 g3 g4 g5
          exact ⟨by omega, g2, g4, g5, hdone g6, trivial, c, g7, by omega⟩
      · refine ⟨j, _, hlv, h2, h3, h4, hfalse, ht1.mono (fun _ _ _ h => h) ?_, hI2, by omega⟩
        intro s z hz hx
        exact ⟨by have := hx.1; omega, h6 s z hz.j_le (hanc s z hz.j_le hx)⟩
      · show 2 ^ L - x < 2 ^ L + 1
        omega
      · rintro ⟨x, sm', t2, s'⟩ ⟨g1, g2, g4, g5, g6, g7, c', g8, g9⟩
        simp only at g1 g2 g4 g5 g6 g7 g8
        simp only [sat_subU, sat_ok, g7]
        refine ⟨by omega, ⟨g6, by omega, g4, Or.inr ?_⟩, c', g9, g8⟩
        rw [show x + 1 - 2 ^ L - 1 = x - 2 ^ L by omega]; exact g5
    · intro htrue
      have hb2 : b2 = true := by simpa using htrue
      rw [hb2] at hP2
      replace htrue := hP2
      have hk := hlv.k_le
      have hpos := hlv.pos
      rw [and_wneg _ (by omega) (by omega), sat_ite]
      constructor
      · intro hnp
        simp only [sat_ok]
        obtain ⟨m, hm⟩ := (low_eq_self_iff (by omega)).1 hnp
        have e : x * 2 ^ j = 2 ^ L := by
          have h1 := hlv.1
          have h2 := hlv.2
          rw [hm] at h1 h2 ⊢
          rw [← Nat.pow_add] at *
          rw [← Nat.pow_succ'] at h2
          have := (Nat.pow_le_pow_iff_right (a := 2) (by omega)).1 h1
          have := (Nat.pow_lt_pow_iff_right (a := 2) (by omega)).1 h2
          congr 1; omega
        rw [e, Nat.sub_self] at htrue
        exact ⟨⟨hdone ht1, by omega, htrue, Or.inl trivial⟩, c + 1, by omega, hI2⟩
      · intro hnp
        simp only [sat_ok]
        have hne : x * 2 ^ j ≠ 2 ^ L := by
          intro e
          exact hnp ((low_eq_self_iff (by omega)).2 (pow2_of_mul e))
        have hx1 : x ≠ 1 := by
          rintro rfl
          exact hnp ((low_eq_self_iff (by omega)).2 ⟨0, rfl⟩)
        have hx2 : x ≠ 2 := by
          rintro rfl
          exact hnp ((low_eq_self_iff (by omega)).2 ⟨1, rfl⟩)
        refine ⟨x * 2 ^ j, by omega, j, c + 1, hlv.j_le, by omega, by omega, rfl, htrue, rfl, ?_, hI2,
          Or.inr ⟨by omega, by omega, by omega⟩, by omega⟩
        intro s z hsL hst
        have hs : j < s := by
          apply Nat.lt_of_not_le; intro h; exact not_str_mul h hst
        apply h6 s z hsL
        apply hanc s z hsL
        have hx : (x * 2 ^ j) >>> s = z := hst.shift.1
        have := anc (i := x * 2 ^ j) (k := x) hs (by omega) (by omega)
        rw [hx] at this
        exact ⟨hs, this⟩
  · refine ⟨0, c0 + 1, ?_, ?_, ?_, ?_, ?_, ?_, ?_, hI1, Or.inl (by omega), fun _ => Nat.le_refl _⟩
    · omega
    · simp; omega
    · simp
    · simp
    · simpa using hp1
    · simp
    · intro s x _ h
      simp only [Nat.pow_zero, Nat.mul_one] at h
      exact h.pred.symm
  · omega
end Verif.LazyP
