import Verif.Model.SearchPred
import Verif.Spec.SearchPred
import Verif.Proof.Segtree
/-! `max_right` and `min_left` of the segment tree with a closure that has a state. -/
namespace Verif.SegP
open Res Model Spec

variable {S σ : Type} [Monoid S] {M : MonoidOps S} {Fits : S → Prop} {Inv : ℕ → σ → Prop}

/-- A call on the product up to leaf `K`. -/
theorem answers_right {f : σ → S → Res (Bool × σ)} {a : List S} {l N : ℕ} {P : ℕ → Bool → Prop} (hl : l ≤ a.length)
    (hp : Answers Inv f (fun k => rangeProd a l k) l a.length P) {c : ℕ} {s : σ} (hI : Inv c s) {K : ℕ}
    (hK : l + N ≤ K) :
    ∃ b s', f s (rprod (leaf N a) (l + N) K) = .ok (b, s') ∧ P (min (K - N) a.length) b ∧ Inv (c + 1) s' := by
  rw [leaf_prod' _ _ (by omega)]
  rcases Nat.le_total (K - N) a.length with h | h
  · rw [Nat.min_eq_left h]
    exact hp c s _ (by omega) h hI
  · rw [Nat.min_eq_right h, rangeProd_ge h]
    exact hp c s _ hl (Nat.le_refl _) hI

theorem rangeProd_self {a : List S} (l : ℕ) : rangeProd a l l = 1 := by
  unfold rangeProd; rw [List.drop_of_length_le (by rw [List.length_take]; omega)]; rfl

theorem maxRightS_sat (hM : LawfulOps M Fits) {t : Segtree S} {a : List S} (hr : Rep t a)
    (hf : ProdsFit Fits a) {l : ℕ} (hl : l ≤ a.length) {f : σ → S → Res (Bool × σ)} {P : ℕ → Bool → Prop}
    (hp : Answers Inv f (fun k => rangeProd a l k) l a.length P) {s0 s1 : σ}
    (e1 : f s0 1 = ok (true, s1)) (hp1 : P l true) (hI1 : Inv (c0 + 1) s1) :
    Sat (t.maxRightS M l f s0) (fun o => (l ≤ o.1 ∧ P (min o.1 a.length) true ∧
      (o.1 = a.length ∨ (o.1 < t.size ∧ P (min (o.1 + 1) a.length) false))) ∧ ∃ c, c ≤ c0 + max (2 * t.log) (t.log + 2) ∧ Inv c o.2) := by
  unfold Segtree.maxRightS
  rw [assert_true (by rw [hr.n]; exact hl)]
  simp only [ok_bind, hM.e_eq, e1]
  rw [assert_true trivial]
  simp only [ok_bind, sat_ite, sat_ok, hr.n]
  have hle := hr.le
  have hs := hr.size
  have hlog := hr.log
  have hsz : t.size ≤ 2 ^ 32 := by rw [hs]; exact Nat.pow_le_pow_right (by omega) hlog
  constructor
  · rintro rfl
    exact ⟨⟨Nat.le_refl _, by rw [Nat.min_self]; exact hp1, Or.inl trivial⟩, _, by omega, hI1⟩
  intro hne
  have hcall : ∀ {c : ℕ} {s : σ}, Inv c s → ∀ K, l + t.size ≤ K →
      ∃ b s', f s (rprod (leaf t.size a) (l + t.size) K) = .ok (b, s') ∧ P (min (K - t.size) a.length) b ∧ Inv (c + 1) s' :=
    fun h K hK => answers_right hl hp h hK
  refine loop_satG (I := fun (st : ℕ × S × σ) k => ∃ j c, Lvl t.size j st.1 ∧ l + t.size ≤ st.1 * 2 ^ j ∧
      st.2.1 = rprod (leaf t.size a) (l + t.size) (st.1 * 2 ^ j) ∧
      P (min (st.1 * 2 ^ j - t.size) a.length) true ∧
      k = 2 * t.size - st.1 * 2 ^ j ∧ Inv c st.2.2 ∧
      (c ≤ c0 + j + 1 ∨ (st.1 % 2 = 0 ∧ c ≤ c0 + j + 2)) ∧
      (st.1 * 2 ^ j = l + t.size → c ≤ c0 + 1)) _ ?_ _ _ (2 * t.size - (l + t.size)) ?_ ?_
  · rintro ⟨l0, sm, s⟩ k ⟨j0, c, h1, h2, h3, h4, h5, h6, h7, h9⟩
    simp only at h1 h2 h3 h4 h5 h6 h7 h9
    simp only [sat_bind]
    refine (whileLoop_sat (I := fun l' : ℕ => ∃ j, Lvl t.size j l' ∧ l' * 2 ^ j = l0 * 2 ^ j0 ∧
        (c ≤ c0 + j + 1 ∨ (l' % 2 = 0 ∧ c ≤ c0 + j + 2)))
      (μ := fun l' => l') (Q := fun l' => ∃ j, Lvl t.size j l' ∧ l' * 2 ^ j = l0 * 2 ^ j0 ∧ l' % 2 = 1 ∧
        c ≤ c0 + j + 1)
      ?_ _ _ ⟨j0, h1, rfl, h7⟩ (Nat.lt_succ_self _)).mono ?_
    · rintro l' ⟨j, hlv, e, hc⟩
      simp only [sat_ok]
      by_cases h : l' % 2 = 0
      · simp only [h, decide_true, if_true, Nat.shiftRight_one]
        have hpos := hlv.pos
        have e2 : l' / 2 * 2 ^ (j + 1) = l' * 2 ^ j := by rw [← lc_start]; congr 1; omega
        refine ⟨⟨j + 1, ?_, by rw [e2, e], by omega⟩, by omega⟩
        unfold Lvl; rw [e2]; exact hlv
      · simp only [h, decide_false, Bool.false_eq_true, if_false]
        exact ⟨j, hlv, e, by omega, by omega⟩
    rintro l' ⟨j, hlv, e, hodd, hc⟩
    rw [← e] at h2 h3 h4 h5 h9
    clear e h1 h7
    have hroot : j = t.log → c ≤ c0 + 1 := by
      rintro rfl
      apply h9
      have h1 := hlv.1
      have h2 := hlv.2
      have hl1 : l' = 1 := by
        have := Nat.two_pow_pos t.log
        have h3 : l' * 2 ^ t.log < 2 * 2 ^ t.log := by rw [hs] at h2; exact h2
        have := Nat.lt_of_mul_lt_mul_right h3
        omega
      subst hl1
      rw [← hs] at h2 ⊢
      omega
    have hlvL := hlv
    rw [hs] at hlvL
    have hend := hlvL.end_le
    have hjL := hlvL.j_le
    rw [← hs] at hend
    have hpj := Nat.two_pow_pos j
    have hstep : (l' + 1) * 2 ^ j = l' * 2 ^ j + 2 ^ j := by rw [Nat.add_mul, Nat.one_mul]
    have hop : M.op sm (rprod (leaf t.size a) (l' * 2 ^ j) ((l' + 1) * 2 ^ j)) =
        .ok (rprod (leaf t.size a) (l + t.size) ((l' + 1) * 2 ^ j)) := by
      rw [h3]; exact op_range hM hf (by omega) h2 (by omega)
    obtain ⟨b2, s2, e2, hP2, hI2⟩ := hcall h6 ((l' + 1) * 2 ^ j) (by omega)
    simp only [idx_of_some (hr.node j l' hlv), ok_bind, sat_ok, hop, e2]
    rw [sat_ite]
    constructor
    · intro hfalse
      have hfalse : b2 = false := by simpa using hfalse
      rw [hfalse] at hP2
      replace hfalse := hP2
      simp only [sat_bind]
      refine (whileLoop_sat (I := fun st : ℕ × S × σ => ∃ j c, Lvl t.size j st.1 ∧
          l + t.size ≤ st.1 * 2 ^ j ∧
          st.2.1 = rprod (leaf t.size a) (l + t.size) (st.1 * 2 ^ j) ∧
          P (min (st.1 * 2 ^ j - t.size) a.length) true ∧
          P (min ((st.1 + 1) * 2 ^ j - t.size) a.length) false ∧ Inv c st.2.2 ∧ c + j ≤ c0 + max (2 * t.log) (t.log + 2))
        (μ := fun st => t.size - st.1)
        (Q := fun st => t.size ≤ st.1 ∧ st.1 < 2 * t.size ∧ l + t.size ≤ st.1 ∧
          P (min (st.1 - t.size) a.length) true ∧
          P (min (st.1 + 1 - t.size) a.length) false ∧ ∃ c, Inv c st.2.2 ∧ c ≤ c0 + max (2 * t.log) (t.log + 2)) ?_ _ _ ?_ ?_).mono ?_
      · rintro ⟨x, sm, s⟩ ⟨j, c, g1, g2, g3, g4, g5, g6, g7⟩
        simp only at g1 g2 g3 g4 g5 g6 g7
        simp only [sat_ok]
        by_cases hx : x < t.size
        · simp only [hx, decide_true, if_true, sat_bind, sat_idx]
          obtain ⟨j, rfl⟩ : ∃ j', j = j' + 1 := ⟨j - 1, by have := g1.j_pos hx; omega⟩
          have gL : Lvl t.size j (2 * x) := by rw [hs] at g1 ⊢; exact g1.left
          have gR : Lvl t.size j (2 * x + 1) := by rw [hs] at g1 ⊢; exact g1.right
          have hpj := Nat.two_pow_pos j
          rw [Nat.mul_comm x 2]
          refine ⟨_, hr.node j _ gL, ?_⟩
          rw [g3, lc_start, op_range hM hf (by omega) g2 (by rw [lc_end]; omega)]
          simp only [sat_ok]
          obtain ⟨b3, s3, e3, hP3, hI3⟩ := hcall g6 ((2 * x + 1) * 2 ^ j) (by rw [lc_end]; omega)
          rw [e3]
          simp only [sat_ok]
          rw [sat_ite]
          have := g1.pos
          constructor
          · intro hft
            have hft : b3 = true := by simpa using hft
            rw [hft] at hP3
            replace hft := hP3
            simp only [sat_ok]
            exact ⟨⟨j, _, gR, by rw [lc_end]; omega, rfl, hft, by rw [rc_end]; exact g5, hI3, by omega⟩, by omega⟩
          · intro hft
            have hft : b3 = false := by simpa using hft
            rw [hft] at hP3
            replace hft := hP3
            simp only [sat_ok]
            refine ⟨⟨j, _, gL, by rw [lc_start]; exact g2, by rw [lc_start], by rw [lc_start]; exact g4,
              hft, hI3, by omega⟩, by omega⟩
        · simp only [hx, decide_false, Bool.false_eq_true, if_false]
          have := g1.j_zero (by omega)
          subst this
          simp only [Nat.pow_zero, Nat.mul_one] at g2 g3 g4 g5
          exact ⟨by omega, g1.k_le, g2, g4, g5, c, g6, by omega⟩
      · exact ⟨j, _, hlv, h2, h3, h4, hfalse, hI2, by omega⟩
      · show t.size - l' < t.size + 1
        omega
      · rintro ⟨x, sm', s'⟩ ⟨g1, g2, g3, g4, g5, c', g6, g7⟩
        simp only at g1 g2 g3 g4 g5 g6
        simp only [sat_subU, sat_ok]
        rw [show x + 1 - t.size = x - t.size + 1 by omega] at g5
        exact ⟨g1, ⟨by omega, g4, Or.inr ⟨by omega, g5⟩⟩, c', g7, g6⟩
    · intro htrue
      have hb2 : b2 = true := by simpa using htrue
      rw [hb2] at hP2
      replace htrue := hP2
      have hk := hlv.k_le
      rw [and_wneg _ (by omega) (by omega), sat_ite]
      constructor
      · intro hnp
        simp only [sat_ok]
        have hne : (l' + 1) * 2 ^ j ≠ 2 * t.size := by
          intro e
          rw [hs, ← Nat.pow_succ'] at e
          exact hnp ((low_eq_self_iff (by omega)).2 (pow2_of_mul e))
        refine ⟨2 * t.size - (l' + 1) * 2 ^ j, by omega, j, c + 1, ⟨by omega, by omega⟩, by omega, rfl, htrue, rfl,
          hI2, Or.inr ⟨by omega, by omega⟩, by omega⟩
      · intro hnp
        simp only [sat_ok]
        have hnp : low (l' + 1) = l' + 1 := by
          apply Classical.byContradiction; intro h; exact hnp h
        obtain ⟨m, hm⟩ := (low_eq_self_iff (by omega)).1 hnp
        have e : (l' + 1) * 2 ^ j = 2 * t.size := by
          have h1 := hlv.1
          rw [hm] at hstep hend ⊢
          rw [hs] at hend h1 ⊢
          exact end_pow2 (by omega) hend
        rw [e, Nat.min_eq_right (by omega)] at htrue
        exact ⟨⟨hl, by rw [Nat.min_self]; exact htrue, Or.inl trivial⟩, c + 1, by omega, hI2⟩
  · refine ⟨0, c0 + 1, ?_, ?_, ?_, ?_, ?_, hI1, Or.inl (by omega), fun _ => Nat.le_refl _⟩
    · constructor <;> simp; omega
    · simp
    · simp
    · simpa [Nat.min_eq_left hl] using hp1
    · simp
  · omega

/-- A call on the product from leaf `K`. -/
theorem answers_left {f : σ → S → Res (Bool × σ)} {a : List S} {r N : ℕ} {P : ℕ → Bool → Prop}
    (hp : Answers Inv f (fun k => rangeProd a k r) 0 r P) {c : ℕ} {s : σ} (hI : Inv c s) {K : ℕ}
    (hK : N ≤ K) (hK2 : K ≤ r + N) :
    ∃ b s', f s (rprod (leaf N a) K (r + N)) = .ok (b, s') ∧ P (K - N) b ∧ Inv (c + 1) s' := by
  rw [leaf_prod'' _ _ hK]
  exact hp c s _ (Nat.zero_le _) (by omega) hI

theorem minLeftS_sat (hM : LawfulOps M Fits) {t : Segtree S} {a : List S} (hr : Rep t a)
    (hf : ProdsFit Fits a) {r : ℕ} (hrn : r ≤ a.length) {f : σ → S → Res (Bool × σ)} {P : ℕ → Bool → Prop}
    (hp : Answers Inv f (fun k => rangeProd a k r) 0 r P) {s0 s1 : σ}
    (e1 : f s0 1 = ok (true, s1)) (hp1 : P r true) (hI1 : Inv (c0 + 1) s1) :
    Sat (t.minLeftS M r f s0) (fun o => (o.1 ≤ r ∧ P o.1 true ∧
      (o.1 = 0 ∨ P (o.1 - 1) false)) ∧ ∃ c, c ≤ c0 + max (2 * t.log) (t.log + 2) ∧ Inv c o.2) := by
  unfold Segtree.minLeftS
  rw [assert_true (by rw [hr.n]; exact hrn)]
  simp only [ok_bind, hM.e_eq, e1]
  rw [assert_true trivial]
  simp only [ok_bind, sat_ite, sat_ok]
  have hle := hr.le
  have hs := hr.size
  have hlog := hr.log
  have hsz : t.size ≤ 2 ^ 32 := by rw [hs]; exact Nat.pow_le_pow_right (by omega) hlog
  constructor
  · rintro rfl
    exact ⟨⟨Nat.le_refl _, hp1, Or.inl trivial⟩, _, by omega, hI1⟩
  intro hne
  have hcall : ∀ {c : ℕ} {s : σ}, Inv c s → ∀ K, t.size ≤ K → K ≤ r + t.size →
      ∃ b s', f s (rprod (leaf t.size a) K (r + t.size)) = .ok (b, s') ∧ P (K - t.size) b ∧ Inv (c + 1) s' :=
    fun h K hK hK2 => answers_left hp h hK hK2
  refine loop_satG (I := fun (st : ℕ × S × σ) k => ∃ j c, j ≤ t.log ∧ t.size < st.1 * 2 ^ j ∧
      st.1 * 2 ^ j ≤ r + t.size ∧
      st.2.1 = rprod (leaf t.size a) (st.1 * 2 ^ j) (r + t.size) ∧ P (st.1 * 2 ^ j - t.size) true ∧
      k = st.1 * 2 ^ j ∧ Inv c st.2.2 ∧
      (c ≤ c0 + j + 1 ∨ (st.1 % 2 = 0 ∧ 2 < st.1 ∧ c ≤ c0 + j + 2)) ∧
      (st.1 * 2 ^ j = r + t.size → c ≤ c0 + 1)) _ ?_ _ _ (r + t.size) ?_ ?_
  · rintro ⟨r0, sm, s⟩ k ⟨j0, c, hj0, h1, h2, h3, h4, h5, h6, h7, h9⟩
    simp only at h1 h2 h3 h4 h5 h6 h7 h9
    have hr0 : 0 < r0 := by
      rcases Nat.eq_zero_or_pos r0 with rfl | h
      · omega
      · exact h
    simp only [sat_bind, sat_subU]
    refine ⟨by omega, ?_⟩
    have hlv0 : Lvl t.size j0 (r0 - 1) := by
      have hpj := Nat.two_pow_pos j0
      apply Lvl.of_end
      · have e : t.size = 2 ^ (t.log - j0) * 2 ^ j0 := by
          rw [hs, ← Nat.pow_add]; congr 1; omega
        have : 2 ^ (t.log - j0) * 2 ^ j0 < r0 * 2 ^ j0 := by rw [← e]; exact h1
        have := Nat.lt_of_mul_lt_mul_right this
        rw [e]
        exact Nat.mul_le_mul_right _ (by omega)
      · rw [show r0 - 1 + 1 = r0 by omega]; omega
    refine (whileLoop_sat (I := fun x : ℕ => ∃ j, Lvl t.size j x ∧ (x + 1) * 2 ^ j = r0 * 2 ^ j0 ∧
        (c ≤ c0 + j + 1 ∨ (1 < x ∧ x % 2 = 1 ∧ c ≤ c0 + j + 2)))
      (μ := fun x => x) (Q := fun x => ∃ j, Lvl t.size j x ∧ (x + 1) * 2 ^ j = r0 * 2 ^ j0 ∧
        (x = 1 ∨ x % 2 = 0) ∧ c ≤ c0 + j + 1)
      ?_ _ _ ⟨j0, hlv0, by rw [show r0 - 1 + 1 = r0 by omega], by omega⟩ (Nat.lt_succ_self _)).mono ?_
    · rintro x ⟨j, hlv, e, hc⟩
      simp only [sat_ok]
      by_cases h : x > 1 ∧ x % 2 = 1
      · simp only [h, and_self, decide_true, if_true, Nat.shiftRight_one]
        have hp : Lvl t.size (j + 1) (x / 2) := by rw [hs] at hlv ⊢; exact hlv.parent h.1
        have e2 : (x / 2 + 1) * 2 ^ (j + 1) = (x + 1) * 2 ^ j := by
          rw [← rc_end]; congr 1; omega
        exact ⟨⟨j + 1, hp, by rw [e2, e], by omega⟩, by omega⟩
      · simp only [h, decide_false, Bool.false_eq_true, if_false]
        have := hlv.pos
        exact ⟨j, hlv, e, by omega, by omega⟩
    rintro x ⟨j, hlv, e, hev, hc⟩
    rw [← e] at h1 h2 h3 h4 h5 h9
    clear e hlv0 hj0 h7
    have hroot : j = t.log → c ≤ c0 + 1 := by
      rintro rfl
      apply h9
      have h1 := hlv.1
      have h2 := hlv.2
      have hl1 : x = 1 := by
        have := Nat.two_pow_pos t.log
        have h3 : x * 2 ^ t.log < 2 * 2 ^ t.log := by rw [hs] at h2; exact h2
        have := Nat.lt_of_mul_lt_mul_right h3
        have := hlv.pos
        omega
      subst hl1
      rw [← hs] at h2 ⊢
      omega
    have hlvL := hlv
    rw [hs] at hlvL
    have hend := hlvL.end_le
    have hjL := hlvL.j_le
    rw [← hs] at hend
    have hpj := Nat.two_pow_pos j
    have hge := hlv.1
    have hstep : (x + 1) * 2 ^ j = x * 2 ^ j + 2 ^ j := by rw [Nat.add_mul, Nat.one_mul]
    have hop : M.op (rprod (leaf t.size a) (x * 2 ^ j) ((x + 1) * 2 ^ j)) sm =
        .ok (rprod (leaf t.size a) (x * 2 ^ j) (r + t.size)) := by
      rw [h3]; exact op_range hM hf hge (by omega) h2
    obtain ⟨b2, s2, e2, hP2, hI2⟩ := hcall h6 (x * 2 ^ j) hge (by omega)
    simp only [idx_of_some (hr.node j x hlv), ok_bind, sat_ok, hop, e2]
    rw [sat_ite]
    constructor
    · intro hfalse
      have hfalse : b2 = false := by simpa using hfalse
      rw [hfalse] at hP2
      replace hfalse := hP2
      simp only [sat_bind]
      refine (whileLoop_sat (I := fun st : ℕ × S × σ => ∃ j c, Lvl t.size j st.1 ∧
          (st.1 + 1) * 2 ^ j ≤ r + t.size ∧
          st.2.1 = rprod (leaf t.size a) ((st.1 + 1) * 2 ^ j) (r + t.size) ∧
          P ((st.1 + 1) * 2 ^ j - t.size) true ∧
          P (st.1 * 2 ^ j - t.size) false ∧ Inv c st.2.2 ∧ c + j ≤ c0 + max (2 * t.log) (t.log + 2))
        (μ := fun st => t.size - st.1)
        (Q := fun st => t.size ≤ st.1 ∧ st.1 + 1 ≤ r + t.size ∧
          P (st.1 + 1 - t.size) true ∧
          P (st.1 - t.size) false ∧ ∃ c, Inv c st.2.2 ∧ c ≤ c0 + max (2 * t.log) (t.log + 2)) ?_ _ _ ?_ ?_).mono ?_
      · rintro ⟨x, sm, s⟩ ⟨j, c, g1, g2, g3, g4, g5, g6, g7⟩
        simp only at g1 g2 g3 g4 g5 g6 g7
        simp only [sat_ok]
        by_cases hx : x < t.size
        · simp only [hx, decide_true, if_true, sat_bind, sat_idx]
          obtain ⟨j, rfl⟩ : ∃ j', j = j' + 1 := ⟨j - 1, by have := g1.j_pos hx; omega⟩
          have gL : Lvl t.size j (2 * x) := by rw [hs] at g1 ⊢; exact g1.left
          have gR : Lvl t.size j (2 * x + 1) := by rw [hs] at g1 ⊢; exact g1.right
          have hpj := Nat.two_pow_pos j
          have hx2 : (2 * x + 1) * 2 ^ j ≤ (x + 1) * 2 ^ (j + 1) := by
            rw [← rc_end]; exact Nat.mul_le_mul_right _ (by omega)
          refine ⟨_, hr.node j _ gR, ?_⟩
          rw [g3, rc_end, op_range hM hf gR.1 hx2 g2]
          simp only [sat_ok]
          obtain ⟨b3, s3, e3, hP3, hI3⟩ := hcall g6 ((2 * x + 1) * 2 ^ j) gR.1 (by omega)
          rw [e3]
          simp only [sat_ok]
          rw [sat_ite]
          have := g1.pos
          constructor
          · intro hft
            have hft : b3 = true := by simpa using hft
            rw [hft] at hP3
            replace hft := hP3
            simp only [sat_bind, sat_subU, sat_ok]
            refine ⟨by omega, ⟨j, _, ?_, ?_, ?_, ?_, ?_, hI3, by omega⟩, by omega⟩
            · rw [Nat.add_sub_cancel]; exact gL
            · rw [Nat.add_sub_cancel]; omega
            · rw [Nat.add_sub_cancel]
            · rw [Nat.add_sub_cancel]; exact hft
            · rw [Nat.add_sub_cancel, lc_start]; exact g5
          · intro hft
            have hft : b3 = false := by simpa using hft
            rw [hft] at hP3
            replace hft := hP3
            simp only [sat_ok]
            refine ⟨⟨j, _, gR, by rw [rc_end]; exact g2, by rw [rc_end], by rw [rc_end]; exact g4,
              hft, hI3, by omega⟩, by omega⟩
        · simp only [hx, decide_false, Bool.false_eq_true, if_false]
          have := g1.j_zero (by omega)
          subst this
          simp only [Nat.pow_zero, Nat.mul_one] at g2 g3 g4 g5
          exact ⟨by omega, g2, g4, g5, c, g6, by omega⟩
      · exact ⟨j, _, hlv, h2, h3, h4, hfalse, hI2, by omega⟩
      · show t.size - x < t.size + 1
        omega
      · rintro ⟨x, sm', s'⟩ ⟨g1, g2, g4, g5, c', g6, g7⟩
        simp only at g1 g2 g4 g5 g6
        simp only [sat_subU, sat_ok]
        refine ⟨by omega, ⟨by omega, g4, Or.inr ?_⟩, c', g7, g6⟩
        rw [show x + 1 - t.size - 1 = x - t.size by omega]; exact g5
    · intro htrue
      have hb2 : b2 = true := by simpa using htrue
      rw [hb2] at hP2
      replace htrue := hP2
      have hk := hlv.k_le
      have hpos := hlv.pos
      rw [and_wneg _ (by omega) (by omega), sat_ite]
      constructor
      · intro hnp
        simp only [sat_ok]
        have hne : x * 2 ^ j ≠ t.size := by
          intro e
          rw [hs] at e
          exact hnp ((low_eq_self_iff (by omega)).2 (pow2_of_mul e))
        have hx1 : x ≠ 1 := by
          rintro rfl
          exact hnp ((low_eq_self_iff (by omega)).2 ⟨0, rfl⟩)
        have hx2 : x ≠ 2 := by
          rintro rfl
          exact hnp ((low_eq_self_iff (by omega)).2 ⟨1, rfl⟩)
        exact ⟨x * 2 ^ j, by omega, j, c + 1, hjL, by omega, by omega, rfl, htrue, rfl, hI2,
          Or.inr ⟨by omega, by omega, by omega⟩, by omega⟩
      · intro hnp
        simp only [sat_ok]
        have hnp : low x = x := by
          apply Classical.byContradiction; intro h; exact hnp h
        obtain ⟨m, hm⟩ := (low_eq_self_iff (by omega)).1 hnp
        have e : x * 2 ^ j = t.size := by
          have h1 := hlv.1
          have h2 := hlv.2
          rw [hm] at h1 h2 ⊢
          rw [hs] at h1 h2 ⊢
          rw [← Nat.pow_add] at *
          rw [← Nat.pow_succ'] at h2
          have := (Nat.pow_le_pow_iff_right (a := 2) (by omega)).1 h1
          have := (Nat.pow_lt_pow_iff_right (a := 2) (by omega)).1 h2
          congr 1; omega
        rw [e, Nat.sub_self] at htrue
        exact ⟨⟨by omega, htrue, Or.inl trivial⟩, c + 1, by omega, hI2⟩
  · refine ⟨0, c0 + 1, ?_, ?_, ?_, ?_, ?_, ?_, hI1, Or.inl (by omega), fun _ => Nat.le_refl _⟩ <;> simp [hp1]; omega
  · omega

end Verif.SegP
