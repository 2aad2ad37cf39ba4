import Verif.Proof.LazyLeaf
/-! What each call does to the elements, whatever the binary operation is. -/
namespace Verif.LeafP
open Res Model Spec LazyP
open SegP (leaf)

variable {S F : Type} {R : MapMonoidOps S F} {act : F → S → S}

/-- The tree `t` holds the elements `a`. -/
def Holds (R : MapMonoidOps S F) (act : F → S → S) (t : LazySegtree S F) (a : List S) : Prop :=
  ∃ t', LT t t' ∧ Rep (wordOps R act) t' (a.map FreeMonoid.of)

/-- The run over words returns, so the other one returns a related result or panics in the operation. -/
theorem sim_satOr {α β : Type} {p : Prop} {Q : α → β → Prop} {P : β → Prop} {x : Res α} {y : Res β}
    (h : Sim p False Q x y) (hy : Sat y P) : SatOr p x (fun a => ∃ b, Q a b ∧ P b) := by
  obtain ⟨b, rfl, hb⟩ := hy
  rcases h with ⟨h, e⟩ | ⟨h, e⟩ | ⟨e1, e2⟩ | ⟨e1, e2⟩ | ⟨a, b', e1, e2, h⟩
  · exact .inr ⟨h, e⟩
  · exact h.elim
  · cases e2
  · cases e2
  · cases e2; exact .inl ⟨a, e1, b, h, hb⟩

variable {t : LazySegtree S F} {a : List S}

theorem Holds.dims (h : Holds R act t a) : t.n = a.length ∧ t.size = 2 ^ bitLen (a.length - 1) ∧
    t.log = bitLen (a.length - 1) ∧ a.length ≤ 2 ^ bitLen (a.length - 1) ∧ bitLen (a.length - 1) ≤ 32 ∧
    t.d.length = 2 * 2 ^ bitLen (a.length - 1) := by
  obtain ⟨t', ht, L, ⟨hL, e⟩, hle, hw⟩ := h
  obtain ⟨d1, d2, d3⟩ := hw.dims
  obtain ⟨v, hi, _⟩ := hw
  rw [List.length_map] at e hle d1
  subst e
  exact ⟨ht.n.trans d1, ht.size.trans d2, ht.log.trans d3, hle, hL, ht.dlen.trans hi.dlen⟩

theorem ltn_of {t' : LazySegtree (FreeMonoid S) F} (h : LT t t') : LTn t.n t.size t.log t t' := ⟨h, rfl, rfl, rfl⟩

theorem from_holds (hR : ActsOnElements R act) (hn : a.length < 2 ^ 32) :
    SatOr (OpPanics R) (LazySegtree.from R a) (fun t => Holds R act t a) :=
  sim_satOr (from_ltn hR a) (from_sat (word_lawful hR) (by simpa using hn))

theorem get_holds (hR : ActsOnElements R act) (h : Holds R act t a) {p : Nat} (hp : p < a.length) :
    SatOr (OpPanics R) (t.get R p) (fun o => Holds R act o.1 a ∧ o.2 = a[p]) := by
  obtain ⟨t', ht, hr⟩ := h
  refine (sim_satOr (get_ltn hR (ltn_of ht) p) (get_sat (word_lawful hR) hr (by simpa using hp))).mono ?_
  rintro o ⟨o', ⟨h1, h2⟩, h3, h4⟩
  refine ⟨⟨_, h1.1, h3⟩, ?_⟩
  rw [h2, List.getElem_map] at h4
  exact FreeMonoid.of_injective h4

theorem Holds.le (h : Holds R act t a) : t.n ≤ t.size := by
  obtain ⟨d1, d2, -, d4, -⟩ := h.dims
  rw [d1, d2]; exact d4

theorem set_holds (hR : ActsOnElements R act) (h : Holds R act t a) {p : Nat} (hp : p < a.length) (x : S) :
    SatOr (OpPanics R) (t.set R p x) (fun t => Holds R act t (a.set p x)) := by
  have hle := h.le
  obtain ⟨t', ht, hr⟩ := h
  refine (sim_satOr (set_ltn hR (ltn_of ht) hle p x) (set_sat (word_lawful hR) hr (by simpa using hp))).mono ?_
  rintro o ⟨o', h1, h3⟩
  exact ⟨_, h1.1, by rw [List.map_set]; exact h3⟩

theorem map_mapRange {g : S → S} (l r : Nat) :
    mapRange (FreeMonoid.map g) (a.map FreeMonoid.of) l r = (mapRange g a l r).map FreeMonoid.of := by
  unfold mapRange
  apply List.ext_getElem?
  intro i
  simp only [List.getElem?_mapIdx, List.getElem?_map]
  cases a[i]? with
  | none => rfl
  | some x =>
    simp only [Option.map_some]
    split <;> simp

theorem set_mapRange {f : S → S} {p : Nat} (hp : p < a.length) : a.set p (f a[p]) = mapRange f a p (p + 1) := by
  unfold mapRange
  apply List.ext_getElem?
  intro i
  rw [List.getElem?_mapIdx, List.getElem?_set]
  by_cases e : p = i
  · subst e; simp [hp]
  · simp only [e, if_false]
    cases a[i]? with
    | none => rfl
    | some x => simp only [Option.map_some]; rw [if_neg (by omega)]

theorem apply_holds (hR : ActsOnElements R act) (h : Holds R act t a) {p : Nat} (hp : p < a.length) (f : F) :
    SatOr (OpPanics R) (t.apply R p f) (fun t => Holds R act t (mapRange (act f) a p (p + 1))) := by
  have hle := h.le
  obtain ⟨t', ht, hr⟩ := h
  refine (sim_satOr (apply_ltn hR (ltn_of ht) hle p f) (apply_sat (word_lawful hR) hr (by simpa using hp))).mono ?_
  rintro o ⟨o', h1, h3⟩
  refine ⟨_, h1.1, ?_⟩
  rw [← set_mapRange hp, List.map_set]
  simpa [wordOps] using h3

theorem applyRange_holds (hR : ActsOnElements R act) (h : Holds R act t a) {l r : Nat} (hlr : l ≤ r)
    (hr : r ≤ a.length) (f : F) :
    SatOr (OpPanics R) (t.applyRange R l r f) (fun t => Holds R act t (mapRange (act f) a l r)) := by
  have hle := h.le
  obtain ⟨t', ht, hrep⟩ := h
  refine (sim_satOr (applyRange_ltn hR (ltn_of ht) hle l r f)
    (applyRange_sat (word_lawful hR) hrep hlr (by simpa using hr))).mono ?_
  rintro o ⟨o', h1, h3⟩
  refine ⟨_, h1.1, ?_⟩
  rw [← map_mapRange]
  exact h3

theorem prod_holds (hR : ActsOnElements R act) (h : Holds R act t a) {l r : Nat} (hlr : l ≤ r) (hr : r ≤ a.length) :
    SatOr (OpPanics R) (t.prod R l r) (fun o => Holds R act o.1 a) := by
  obtain ⟨t', ht, hrep⟩ := h
  refine (sim_satOr (prod_ltn hR (ltn_of ht) l r) (prod_sat (word_lawful hR) hrep hlr (by simpa using hr))).mono ?_
  rintro o ⟨o', h1, h3⟩
  exact ⟨_, h1.1, h3.1⟩

theorem push_holds (hR : ActsOnElements R act) (h : Holds R act t a) {k : Nat} (h0 : 0 < k) (hk : k < t.size) :
    SatOr (OpPanics R) (t.push R k) (fun t => Holds R act t a) := by
  obtain ⟨t', ht, L, hL, hle, hw⟩ := h
  rw [ht.size, hw.dims.2.1] at hk
  obtain ⟨j, hj⟩ := Lvl.exists_succ h0 hk
  refine (sim_satOr (push_ltn hR (ltn_of ht) k) (push_sat (word_lawful hR) hw (Nat.succ_pos j) hj fun _ _ h => h.elim)).mono ?_
  rintro o ⟨o', h1, h3⟩
  exact ⟨o', h1.1, L, hL, hle, h3.mono (fun _ _ _ h => h) fun _ _ _ h => h.elim⟩

theorem pushPath_holds (hR : ActsOnElements R act) (h : Holds R act t a) {k : Nat} (h0 : t.size ≤ k)
    (hk : k < 2 * t.size) : SatOr (OpPanics R) (t.pushPath R k) (fun t => Holds R act t a) := by
  obtain ⟨t', ht, L, hL, hle, hw⟩ := h
  rw [ht.size, hw.dims.2.1] at h0 hk
  refine (sim_satOr (pushPath_ltn hR (ltn_of ht) k) (pushPath_sat (word_lawful hR) hw h0 hk)).mono ?_
  rintro o ⟨o', h1, h3⟩
  exact ⟨o', h1.1, L, hL, hle, h3.mono (fun _ _ _ h => h) fun _ _ _ h => h.elim⟩

theorem op_satOr (hR : ActsOnElements R act) (x y : S) : SatOr (OpPanics R) (R.op x y) (fun _ => True) := by
  cases e : R.op x y with
  | ok a => simp
  | panic => exact satOr_panic ⟨x, y, e⟩
  | diverge => exact absurd e (hR.op x y)

theorem idx_satOr {b : Prop} {α : Type} {l : List α} {k : Nat} (h : k < l.length) : SatOr b (idx l k) (fun _ => True) := by
  rw [idx_of_lt h]; simp

theorem maxRight_holds (hR : ActsOnElements R act) (h : Holds R act t a) {l : Nat} (hl : l ≤ a.length) {g : S → Bool}
    (hg : g R.e = true) :
    SatOr (OpPanics R) (t.maxRight R l g) (fun o => Holds R act o.1 a ∧ l ≤ o.2) := by
  unfold LazySegtree.maxRight
  obtain ⟨d1, d2, d3, d4, d5, d6⟩ := h.dims
  rw [assert_true (by rw [d1]; exact hl), assert_true hg]
  simp only [ok_bind, d1]
  by_cases hne : l = a.length
  · rw [if_pos hne]; simpa using ⟨h, hl⟩
  rw [if_neg hne, d2]
  generalize hL : bitLen (a.length - 1) = L at *
  have hpL := Nat.two_pow_pos L
  have hsz : 2 ^ L ≤ 2 ^ 32 := Nat.pow_le_pow_right (by omega) d5
  refine satOr_bind ((pushPath_holds hR h (by omega) (by omega)).mono fun t1 ht1 => ?_)
  obtain ⟨c1, c2, c3, c4, c5, c6⟩ := ht1.dims
  rw [hL] at c2 c6
  rw [c2]
  refine loop_satOrG (I := fun (st : ℕ × S) k => ∃ j, Lvl (2 ^ L) j st.1 ∧ l + 2 ^ L ≤ st.1 * 2 ^ j ∧
    k = 2 * 2 ^ L - st.1 * 2 ^ j) _ ?_ _ _ (2 * 2 ^ L - (l + 2 ^ L)) ?_ ?_
  · rintro ⟨l0, sm⟩ k ⟨j0, h1, h2, h3⟩
    simp only at h1 h2 h3
    refine satOr_bind (Sat.toOr ((whileLoop_sat (I := fun l' : ℕ => ∃ j, Lvl (2 ^ L) j l' ∧ l' * 2 ^ j = l0 * 2 ^ j0)
      (μ := fun l' => l') (Q := fun l' => ∃ j, Lvl (2 ^ L) j l' ∧ l' * 2 ^ j = l0 * 2 ^ j0)
      ?_ _ _ ⟨j0, h1, rfl⟩ (Nat.lt_succ_self _)).mono ?_))
    · rintro l' ⟨j, hlv, e⟩
      simp only [sat_ok]
      by_cases h : l' % 2 = 0
      · simp only [h, decide_true, if_true, Nat.shiftRight_one]
        have hpos := hlv.pos
        have e2 : l' / 2 * 2 ^ (j + 1) = l' * 2 ^ j := by rw [← lc_start]; congr 1; omega
        refine ⟨⟨j + 1, ?_, by rw [e2, e]⟩, by omega⟩
        unfold Lvl; rw [e2]; exact hlv
      · simp only [h, decide_false, Bool.false_eq_true, if_false]
        exact ⟨j, hlv, e⟩
    rintro l' ⟨j, hlv, e⟩
    rw [← e] at h2 h3
    clear e h1
    have hk := hlv.k_le
    have hend := hlv.end_le
    have hp := Nat.two_pow_pos j
    have hstep : (l' + 1) * 2 ^ j = l' * 2 ^ j + 2 ^ j := by rw [Nat.add_mul, Nat.one_mul]
    refine satOr_bind ((idx_satOr (by rw [c6]; exact hk)).mono fun x _ => satOr_bind ((op_satOr hR _ _).mono fun y _ => ?_))
    split
    · refine satOr_bind ((whileLoop_satOr (I := fun st : ℕ × S × LazySegtree S F => ∃ j, Lvl (2 ^ L) j st.1 ∧
          l + 2 ^ L ≤ st.1 * 2 ^ j ∧ Holds R act st.2.2 a) (μ := fun st => 2 ^ L - st.1)
          (cond := fun st => decide (st.1 < st.2.2.size)) ?_ _ (l', sm, t1) ⟨j, hlv, h2, ht1⟩ (by simp only; omega)).mono ?_)
      · rintro ⟨x, sm, t2⟩ ⟨j, g1, g2, g3⟩ hc
        simp only [decide_eq_true_eq] at g1 g2 g3 hc ⊢
        obtain ⟨-, e2, -⟩ := g3.dims
        rw [hL] at e2
        obtain ⟨j, rfl⟩ : ∃ j', j = j' + 1 := ⟨j - 1, by have := g1.j_pos (e2 ▸ hc); omega⟩
        have gL := g1.left
        have gR := g1.right
        have hpj := Nat.two_pow_pos j
        have hpos := g1.pos
        refine satOr_bind ((push_holds hR g3 hpos hc).mono fun t3 ht3 => ?_)
        obtain ⟨-, -, -, -, -, e6⟩ := ht3.dims
        rw [hL] at e6
        rw [Nat.mul_comm x 2]
        refine satOr_bind ((idx_satOr (by rw [e6]; exact gL.k_le)).mono fun x _ =>
          satOr_bind ((op_satOr hR _ _).mono fun y _ => ?_))
        split
        · rw [satOr_ok]
          refine ⟨⟨j, gR, ?_, ht3⟩, by simp only; omega⟩
          rw [lc_end]; have := g2; rw [Nat.pow_succ] at this; omega
        · rw [satOr_ok]
          exact ⟨⟨j, gL, by simp only; rw [lc_start]; exact g2, ht3⟩, by simp only; omega⟩
      · rintro ⟨x, sm', t2⟩ ⟨⟨j, g1, g2, g3⟩, hc⟩
        simp only [decide_eq_false_iff_not] at g1 g2 g3 hc
        obtain ⟨-, e2, -⟩ := g3.dims
        rw [hL] at e2
        have := g1.j_zero (by omega)
        subst this
        have hsub : subU x t2.size = ok (x - t2.size) := by unfold subU; rw [if_pos (by omega)]
        simp only [hsub, ok_bind, satOr_ok]
        exact ⟨g3, by omega⟩
    · refine satOr_bind ((idx_satOr (by rw [c6]; exact hk)).mono fun x _ => satOr_bind ((op_satOr hR _ _).mono fun y _ => ?_))
      rw [and_wneg _ (by omega) (by omega)]
      split
      · rw [satOr_ok]; exact ⟨ht1, by rw [c1]; exact hl⟩
      · rename_i hnp
        rw [satOr_ok]
        have hne : (l' + 1) * 2 ^ j ≠ 2 * 2 ^ L := by
          intro e
          rw [← Nat.pow_succ'] at e
          exact hnp ((low_eq_self_iff (by omega)).2 (pow2_of_mul e))
        refine ⟨2 * 2 ^ L - (l' + 1) * 2 ^ j, by omega, j, ?_, by simp only; omega, rfl⟩
        exact (⟨by have := hlv.1; omega, by omega⟩ : Lvl (2 ^ L) j (l' + 1))
  · refine ⟨0, ?_, by simp, by simp⟩
    constructor <;> simp; omega
  · omega

theorem minLeft_holds (hR : ActsOnElements R act) (h : Holds R act t a) {r : Nat} (hr : r ≤ a.length) {g : S → Bool}
    (hg : g R.e = true) :
    SatOr (OpPanics R) (t.minLeft R r g) (fun o => Holds R act o.1 a ∧ o.2 ≤ r) := by
  unfold LazySegtree.minLeft
  obtain ⟨d1, d2, d3, d4, d5, d6⟩ := h.dims
  rw [assert_true (by rw [d1]; exact hr), assert_true hg]
  simp only [ok_bind]
  by_cases hne : r = 0
  · rw [if_pos hne]; simpa using h
  rw [if_neg hne, d2]
  generalize hL : bitLen (a.length - 1) = L at *
  have hpL := Nat.two_pow_pos L
  have hsz : 2 ^ L ≤ 2 ^ 32 := Nat.pow_le_pow_right (by omega) d5
  refine satOr_bind ((pushPath_holds hR h (by omega) (by omega)).mono fun t1 ht1 => ?_)
  obtain ⟨c1, c2, c3, c4, c5, c6⟩ := ht1.dims
  rw [hL] at c2 c6
  rw [c2]
  refine loop_satOrG (I := fun (st : ℕ × S) k => ∃ j, j ≤ L ∧ 2 ^ L < st.1 * 2 ^ j ∧
    st.1 * 2 ^ j ≤ r + 2 ^ L ∧ k = st.1 * 2 ^ j) _ ?_ _ _ (r + 2 ^ L) ?_ ?_
  · rintro ⟨r0, sm⟩ k ⟨j0, hj0, h1, h2, h3⟩
    simp only at h1 h2 h3
    have hr0 : 0 < r0 := by
      rcases Nat.eq_zero_or_pos r0 with rfl | h
      · omega
      · exact h
    have hsub : subU r0 1 = ok (r0 - 1) := by unfold subU; rw [if_pos (by omega)]
    simp only [hsub, ok_bind]
    have hlv0 : Lvl (2 ^ L) j0 (r0 - 1) := by
      have hpj := Nat.two_pow_pos j0
      apply Lvl.of_end
      · have e : 2 ^ L = 2 ^ (L - j0) * 2 ^ j0 := by
          rw [← Nat.pow_add]; congr 1; omega
        have : 2 ^ (L - j0) * 2 ^ j0 < r0 * 2 ^ j0 := by rw [← e]; exact h1
        have := Nat.lt_of_mul_lt_mul_right this
        rw [e]
        exact Nat.mul_le_mul_right _ (by omega)
      · rw [show r0 - 1 + 1 = r0 by omega]; omega
    refine satOr_bind (Sat.toOr ((whileLoop_sat (I := fun x : ℕ => ∃ j, Lvl (2 ^ L) j x ∧ (x + 1) * 2 ^ j = r0 * 2 ^ j0)
      (μ := fun x => x) (Q := fun x => ∃ j, Lvl (2 ^ L) j x ∧ (x + 1) * 2 ^ j = r0 * 2 ^ j0)
      ?_ _ _ ⟨j0, hlv0, by rw [show r0 - 1 + 1 = r0 by omega]⟩ (Nat.lt_succ_self _)).mono ?_))
    · rintro x ⟨j, hlv, e⟩
      simp only [sat_ok]
      by_cases h : x > 1 ∧ x % 2 ≠ 0
      · simp only [h, and_self, decide_true, if_true, Nat.shiftRight_one, ne_eq, not_false_eq_true]
        have hp : Lvl (2 ^ L) (j + 1) (x / 2) := hlv.parent h.1
        have e2 : (x / 2 + 1) * 2 ^ (j + 1) = (x + 1) * 2 ^ j := by
          rw [← rc_end]; congr 1; omega
        exact ⟨⟨j + 1, hp, by rw [e2, e]⟩, by omega⟩
      · simp only [h, decide_false, Bool.false_eq_true, if_false]
        exact ⟨j, hlv, e⟩
    rintro x ⟨j, hlv, e⟩
    rw [← e] at h1 h2 h3
    clear e hlv0 hj0
    have hk := hlv.k_le
    have hend := hlv.end_le
    have hp := Nat.two_pow_pos j
    have hge := hlv.1
    have hpos := hlv.pos
    have hstep : (x + 1) * 2 ^ j = x * 2 ^ j + 2 ^ j := by rw [Nat.add_mul, Nat.one_mul]
    refine satOr_bind ((idx_satOr (by rw [c6]; exact hk)).mono fun y _ => satOr_bind ((op_satOr hR _ _).mono fun z _ => ?_))
    split
    · refine satOr_bind ((whileLoop_satOr (I := fun st : ℕ × S × LazySegtree S F => ∃ j, Lvl (2 ^ L) j st.1 ∧
          (st.1 + 1) * 2 ^ j ≤ r + 2 ^ L ∧ Holds R act st.2.2 a) (μ := fun st => 2 ^ L - st.1)
          (cond := fun st => decide (st.1 < st.2.2.size)) ?_ _ (x, sm, t1) ⟨j, hlv, h2, ht1⟩ (by simp only; omega)).mono ?_)
      · rintro ⟨x, sm, t2⟩ ⟨j, g1, g2, g3⟩ hc
        simp only [decide_eq_true_eq] at g1 g2 g3 hc ⊢
        obtain ⟨-, e2, -⟩ := g3.dims
        rw [hL] at e2
        obtain ⟨j, rfl⟩ : ∃ j', j = j' + 1 := ⟨j - 1, by have := g1.j_pos (e2 ▸ hc); omega⟩
        have gL := g1.left
        have gR := g1.right
        have hpj := Nat.two_pow_pos j
        have hpos := g1.pos
        refine satOr_bind ((push_holds hR g3 hpos hc).mono fun t3 ht3 => ?_)
        obtain ⟨-, -, -, -, -, e6⟩ := ht3.dims
        rw [hL] at e6
        refine satOr_bind ((idx_satOr (by rw [e6]; exact gR.k_le)).mono fun y _ =>
          satOr_bind ((op_satOr hR _ _).mono fun z _ => ?_))
        split
        · have hsub : subU (2 * x + 1) 1 = ok (2 * x) := by unfold subU; rw [if_pos (by omega)]; rfl
          rw [hsub, ok_bind, satOr_ok]
          refine ⟨⟨j, gL, ?_, ht3⟩, by simp only; omega⟩
          simp only
          rw [lc_end]; rw [Nat.add_mul, Nat.one_mul, Nat.pow_succ] at g2; rw [Nat.pow_succ]; omega
        · rw [satOr_ok]
          exact ⟨⟨j, gR, by simp only; rw [rc_end]; exact g2, ht3⟩, by simp only; omega⟩
      · rintro ⟨x, sm', t2⟩ ⟨⟨j, g1, g2, g3⟩, hc⟩
        simp only [decide_eq_false_iff_not] at g1 g2 g3 hc
        obtain ⟨-, e2, -⟩ := g3.dims
        rw [hL] at e2
        have := g1.j_zero (by omega)
        subst this
        have hsub : subU (x + 1) t2.size = ok (x + 1 - t2.size) := by unfold subU; rw [if_pos (by omega)]
        simp only [hsub, ok_bind, satOr_ok]
        exact ⟨g3, by omega⟩
    · refine satOr_bind ((idx_satOr (by rw [c6]; exact hk)).mono fun y _ => satOr_bind ((op_satOr hR _ _).mono fun z _ => ?_))
      rw [and_wneg _ (by omega) (by omega)]
      split
      · rw [satOr_ok]; exact ⟨ht1, Nat.zero_le _⟩
      · rename_i hnp
        rw [satOr_ok]
        have hne : x * 2 ^ j ≠ 2 ^ L := fun e => hnp ((low_eq_self_iff hpos).2 (pow2_of_mul e))
        exact ⟨x * 2 ^ j, by omega, j, hlv.j_le, by simp only; omega, by simp only; omega, rfl⟩
  · exact ⟨0, by omega, by simp; omega, by simp, by simp⟩
  · omega

end Verif.LeafP
