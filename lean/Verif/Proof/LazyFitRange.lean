import Verif.Proof.LazyRange
import Verif.Proof.LazyFit
/-! Range operations of the lazy segment tree with operations that return only if the result fits. -/
namespace Verif.LazyF
open Res Model Spec LazyP
open SegP (leaf leaf_prod leaf_prod' leaf_prod'' rangeProd_ge and_one_ne pow_bitLen)

variable {S F : Type} [Monoid S] {M : MapOps S F} {Fits : S → Prop} {FitsF : F → Prop} {C : MapMonoidOps S F}

theorem str_anc {b i s k x : ℕ} (h : Str b i k) (ha : Anc i k s x) : Str b s x := by
  obtain ⟨h1, h2⟩ := h
  obtain ⟨-, a1, a2⟩ := ha
  exact ⟨by omega, by omega⟩

section range
variable {t : LazySegtree S F} {n L : ℕ} {c : ℕ → S} {h : ℕ → List F}

theorem pushBounds_sat (hC : Chk M Fits FitsF C) (hM : LawfulMap M) (hG : LawfulComp M)
    (w : W M t n L c h none2 none2) (hc : FC Fits L c) (hh : FH M FitsF L h) {l r : ℕ}
    (hl1 : 2 ^ L ≤ l) (hlr : l ≤ r) (hr2 : r ≤ 2 * 2 ^ L) :
    Sat (forRangeRev 1 (t.log + 1) t fun i t => do
      let t ← (if (l >>> i) <<< i ≠ l then t.push C (l >>> i) else ok t : Res (LazySegtree S F))
      (if (r >>> i) <<< i ≠ r then t.push C (r >>> i) else ok t : Res (LazySegtree S F)))
      (fun t' => W M t' n L c h none2 (fun s x => 1 ≤ s ∧ (Str l s x ∨ Str r s x))) := by
  have hlog : t.log = L := w.dims.2.2
  rw [hlog]
  have one : ∀ b, 2 ^ L ≤ b → b ≤ 2 * 2 ^ L → ∀ (t : LazySegtree S F) i P, 0 < i → i ≤ L →
      (∀ s x, P s x → i ≤ s) → (∀ s x, i < s → Str b s x → P s x) → W M t n L c h none2 P →
      Sat (if (b >>> i) <<< i ≠ b then t.push C (b >>> i) else ok t : Res (LazySegtree S F))
        (fun t' => W M t' n L c h none2 (fun s x => P s x ∨ (s = i ∧ Str b s x))) := by
    intro b hb1 hb2 t i P hi hiL hP hPa ht
    rw [sat_ite]
    constructor
    · intro hne
      have hstr := str_of_ne hne
      have hlt : b < 2 * 2 ^ L := by
        apply Nat.lt_of_le_of_ne hb2
        rintro rfl; exact not_str_top hiL hstr
      refine (push_sat hC hM hG ht hc hh (i := i) (k := b >>> i) hi (Lvl.shift hb1 hlt hiL) hP
        fun s x _ e => hPa s x e.1 (str_anc hstr e)).mono ?_
      intro t' ht'
      apply ht'.mono (fun _ _ _ h => h)
      rintro s x hx (hp | ⟨rfl, hs⟩)
      · exact Or.inl hp
      · exact Or.inr ⟨rfl, hs.shift.1.symm⟩
    · intro hne
      simp only [sat_ok]
      apply ht.mono (fun _ _ _ h => h)
      rintro s x hx (hp | ⟨rfl, hs⟩)
      · exact hp
      · exact absurd hs.shift.2 hne
  refine forRangeRev_sat (I := fun i (t : LazySegtree S F) =>
    W M t n L c h none2 (fun s x => i ≤ s ∧ (Str l s x ∨ Str r s x))) (by omega) ?_ ?_
  · apply w.mono (fun _ _ _ h => h)
    rintro s x hx ⟨hs, _⟩
    have := hx.j_le; omega
  · intro i t hi1 hi2 ht
    simp only [sat_bind]
    refine (one l hl1 (by omega) t i _ hi1 (by omega) ?_ ?_ ht).mono ?_
    · rintro s x ⟨h, _⟩; omega
    · intro s x hs e; exact ⟨hs, .inl e⟩
    intro t1 ht1
    refine (one r (by omega) hr2 t1 i _ hi1 (by omega) ?_ ?_ ht1).mono ?_
    · rintro s x (⟨h, _⟩ | ⟨h, _⟩) <;> omega
    · intro s x hs e; exact .inl ⟨hs, .inr e⟩
    intro t2 ht2
    apply ht2.mono (fun _ _ _ h => h)
    rintro s x hx ⟨hs, hst⟩
    rcases Nat.lt_or_ge i s with h | h
    · exact Or.inl (Or.inl ⟨h, hst⟩)
    · have : s = i := by omega
      subst this
      rcases hst with h | h
      · exact Or.inl (Or.inr ⟨rfl, h⟩)
      · exact Or.inr ⟨rfl, h⟩

end range

theorem prod_sat (hC : Chk M Fits FitsF C) (hM : LawfulMap M) (hG : LawfulComp M) {t : LazySegtree S F} {a : List S}
    {h : List (List F)} (hf : Fine M Fits FitsF a h) (hr : Rep M t a h) {l r : ℕ}
    (hlr : l ≤ r) (hrn : r ≤ a.length) :
    Sat (t.prod C l r) (fun o => Rep M o.1 a h ∧ o.2 = rangeProd a l r) := by
  unfold LazySegtree.prod
  obtain ⟨L, hL, hle, hlen, hw⟩ := id hr
  have hfc := fc_of hf hle
  obtain ⟨d1, d2, d3⟩ := hw.dims
  rw [assert_true ⟨hlr, by rw [d1]; exact hrn⟩, ok_bind, sat_ite]
  constructor
  · rintro rfl
    simp only [sat_ok]
    refine ⟨hr, ?_⟩
    unfold rangeProd; rw [List.drop_of_length_le (by rw [List.length_take]; omega), hC.e, hM.e_eq]; rfl
  intro hne
  simp only [sat_bind, d2]
  refine (pushBounds_sat hC hM hG hw hfc (fh_of hf) (l := l + 2 ^ L) (r := r + 2 ^ L) (by omega) (by omega)
    (by omega)).mono ?_
  intro t' ht'
  have hnode : ∀ j k, Lvl (2 ^ L) j k → (∀ s x, j < s → x * 2 ^ s ≤ k * 2 ^ j →
      (k + 1) * 2 ^ j ≤ (x + 1) * 2 ^ s → Str (l + 2 ^ L) s x ∨ Str (r + 2 ^ L) s x) →
      t'.d[k]? = some (rprod (leaf (2 ^ L) a) (k * 2 ^ j) ((k + 1) * 2 ^ j)) := by
    intro j k hk ha
    refine ht'.node hM hk (fun h => h) ?_
    intro s x hs _ hx1 hx2
    exact ⟨by omega, ha s x hs hx1 hx2⟩
  refine (whileLoop_sat (I := fun st : Nat × Nat × S × S => ∃ j, l + 2 ^ L ≤ st.1 * 2 ^ j ∧
      st.1 * 2 ^ j < l + 2 ^ L + 2 ^ j ∧
      st.1 ≤ st.2.1 ∧ st.2.1 * 2 ^ j ≤ r + 2 ^ L ∧ r + 2 ^ L < st.2.1 * 2 ^ j + 2 ^ j ∧
      st.2.2.1 = rprod (leaf (2 ^ L) a) (l + 2 ^ L) (st.1 * 2 ^ j) ∧
      st.2.2.2 = rprod (leaf (2 ^ L) a) (st.2.1 * 2 ^ j) (r + 2 ^ L))
    (μ := fun st => st.2.1) (Q := fun st => ∃ B, l + 2 ^ L ≤ B ∧ B ≤ r + 2 ^ L ∧
      st.2.2.1 = rprod (leaf (2 ^ L) a) (l + 2 ^ L) B ∧
      st.2.2.2 = rprod (leaf (2 ^ L) a) B (r + 2 ^ L)) ?_ _ _ ?_ ?_).mono ?_
  · rintro ⟨l', r', sml, smr⟩ ⟨j, h1, h1', h2, h3, h3', h4, h5⟩
    simp only at h1 h1' h2 h3 h3' h4 h5
    have hp := Nat.two_pow_pos j
    simp only [sat_ok]
    by_cases hlt : l' < r'
    · simp only [hlt, decide_true, if_true, sat_bind]
      have hL : Sat (if l' &&& 1 ≠ 0 then do
            let x ← idx t'.d l'
            let sml ← C.op sml x
            ok (l' + 1, sml)
          else ok (l', sml) : Res (Nat × S))
          (fun o => o.1 % 2 = 0 ∧ l' ≤ o.1 ∧ (o.1 = l' ∨ o.1 = l' + 1 ∧ l' % 2 = 1) ∧
            o.2 = rprod (leaf (2 ^ L) a) (l + 2 ^ L) (o.1 * 2 ^ j)) := by
        rw [sat_ite, and_one_ne]
        constructor
        · intro hodd
          have hend : (l' + 1) * 2 ^ j ≤ r' * 2 ^ j := Nat.mul_le_mul_right _ hlt
          have hlv : Lvl (2 ^ L) j l' := Lvl.of_end (by omega) (by omega)
          simp only [sat_bind, sat_idx]
          refine ⟨_, hnode j l' hlv (fun s x hs hx1 hx2 =>
            Or.inl (left_anc hs hodd h1 h1' hx1 hx2)), ?_⟩
          have e : M.op sml (rprod (leaf (2 ^ L) a) (l' * 2 ^ j) ((l' + 1) * 2 ^ j)) =
              rprod (leaf (2 ^ L) a) (l + 2 ^ L) ((l' + 1) * 2 ^ j) := by
            rw [h4, hM.op_eq, rprod_split h1 (Nat.mul_le_mul_right _ (by omega))]
          have hst : (l' + 1) * 2 ^ j = l' * 2 ^ j + 2 ^ j := by rw [Nat.add_mul, Nat.one_mul]
          rw [hC.op _ _ (by rw [e]; exact hfc _ _ (by omega) (by omega) (by omega)), e]
          simp only [sat_ok]
          exact ⟨by omega, by omega, Or.inr ⟨trivial, hodd⟩, trivial⟩
        · intro heven
          simp only [sat_ok]
          exact ⟨by omega, Nat.le_refl _, Or.inl trivial, h4⟩
      refine hL.mono ?_
      rintro ⟨l1, sml1⟩ ⟨g1, g2, g3, g4⟩
      simp only at g1 g2 g3 g4
      have hR : Sat (if r' &&& 1 ≠ 0 then do
            let x ← idx t'.d (r' - 1)
            let smr ← C.op x smr
            ok (r' - 1, smr)
          else ok (r', smr) : Res (Nat × S))
          (fun o => o.1 % 2 = 0 ∧ o.1 ≤ r' ∧ r' ≤ o.1 + 1 ∧ l1 ≤ o.1 ∧
            o.2 = rprod (leaf (2 ^ L) a) (o.1 * 2 ^ j) (r + 2 ^ L)) := by
        rw [sat_ite, and_one_ne]
        constructor
        · intro hodd
          have hge : l' * 2 ^ j ≤ (r' - 1) * 2 ^ j := Nat.mul_le_mul_right _ (by omega)
          have hlv : Lvl (2 ^ L) j (r' - 1) :=
            Lvl.of_end (by omega) (by rw [show r' - 1 + 1 = r' by omega]; omega)
          simp only [sat_bind, sat_idx]
          refine ⟨_, hnode j _ hlv (fun s x hs hx1 hx2 =>
            Or.inr (right_anc hs hodd h3 h3' hx1 hx2)), ?_⟩
          rw [show r' - 1 + 1 = r' by omega]
          have e : M.op (rprod (leaf (2 ^ L) a) ((r' - 1) * 2 ^ j) (r' * 2 ^ j)) smr =
              rprod (leaf (2 ^ L) a) ((r' - 1) * 2 ^ j) (r + 2 ^ L) := by
            rw [h5, hM.op_eq, rprod_split (Nat.mul_le_mul_right _ (by omega)) h3]
          have hm : (r' - 1) * 2 ^ j ≤ r' * 2 ^ j := Nat.mul_le_mul_right _ (by omega)
          rw [hC.op _ _ (by rw [e]; exact hfc _ _ (by omega) (by omega) (by omega)), e]
          simp only [sat_ok]
          exact ⟨by omega, by omega, by omega, by omega, trivial⟩
        · intro heven
          simp only [sat_ok]
          exact ⟨by omega, Nat.le_refl _, by omega, by omega, h5⟩
      refine hR.mono ?_
      rintro ⟨r1, smr1⟩ ⟨g5, g6, g6', g7, g8⟩
      simp only at g5 g6 g6' g7 g8
      simp only [sat_ok, Nat.shiftRight_one]
      have el : l1 / 2 * 2 ^ (j + 1) = l1 * 2 ^ j := by
        rw [← lc_start]; congr 1; omega
      have er : r1 / 2 * 2 ^ (j + 1) = r1 * 2 ^ j := by
        rw [← lc_start]; congr 1; omega
      have e2 : 2 ^ (j + 1) = 2 ^ j + 2 ^ j := by rw [Nat.pow_succ]; omega
      have m1 := Nat.mul_le_mul_right (2 ^ j) g2
      have m2 := Nat.mul_le_mul_right (2 ^ j) g6
      have m3 := Nat.mul_le_mul_right (2 ^ j) g6'
      have m4 : l1 * 2 ^ j ≤ (l' + 1) * 2 ^ j := Nat.mul_le_mul_right (2 ^ j) (by omega)
      rw [Nat.add_mul, Nat.one_mul] at m3 m4
      refine ⟨⟨j + 1, ?_, ?_, by omega, ?_, ?_, ?_, ?_⟩, by omega⟩
      · rw [el]; omega
      · rw [el]; omega
      · rw [er]; omega
      · rw [er]; omega
      · rw [el]; exact g4
      · rw [er]; exact g8
    · simp only [hlt, decide_false, Bool.false_eq_true, if_false]
      have : l' = r' := by omega
      subst this
      exact ⟨_, h1, h3, h4, h5⟩
  · refine ⟨0, ?_, ?_, ?_, ?_, ?_, ?_, ?_⟩ <;> simp [hC.e, hM.e_eq]; omega
  · simp
  · rintro ⟨l1, r1, sml, smr⟩ ⟨B, h1, h2, h3, h4⟩
    simp only at h3 h4
    have e : M.op sml smr = rprod (leaf (2 ^ L) a) (l + 2 ^ L) (r + 2 ^ L) := by
      rw [h3, h4, hM.op_eq, rprod_split h1 h2]
    rw [hC.op _ _ (by rw [e]; exact hfc _ _ (by omega) (by omega) (by omega)), e, leaf_prod]
    simp only [sat_ok]
    exact ⟨⟨L, hL, hle, hlen, ht'.mono (fun _ _ _ h => h) (fun _ _ _ h => h.elim)⟩, trivial⟩

/-- State during the marking loop of `apply_range`. -/
theorem applyNode_sat (hC : Chk M Fits FitsF C) (hM : LawfulMap M) (hG : LawfulComp M) {t : LazySegtree S F} {n L : ℕ}
    {c : ℕ → S} {g : ℕ → List F} {Bd : ℕ → ℕ → Prop} {j k : ℕ} {f : F}
    (h : W M t n L c g Bd Bd) (hk : Lvl (2 ^ L) j k) (hnb : ¬ Bd j k)
    (ha : ∀ s x, j < s → Lvl (2 ^ L) s x → x * 2 ^ s ≤ k * 2 ^ j →
      (k + 1) * 2 ^ j ≤ (x + 1) * 2 ^ s → Bd s x)
    (hc : Fits (rprod (fun i => M.mapping f (c i)) (k * 2 ^ j) ((k + 1) * 2 ^ j)))
    (hh : ∀ i, k * 2 ^ j ≤ i → i < (k + 1) * 2 ^ j → ∀ r, FitsF (compAll M ((f :: g i).take r))) :
    Sat (t.allApply C k f) (fun t' => W M t' n L
      (fun i => if k * 2 ^ j ≤ i ∧ i < (k + 1) * 2 ^ j then M.mapping f (c i) else c i)
      (fun i => if k * 2 ^ j ≤ i ∧ i < (k + 1) * 2 ^ j then f :: g i else g i) Bd Bd) := by
  obtain ⟨v, h1, h2, h3, h4, h5⟩ := h
  have hne : ∀ s x, Lvl (2 ^ L) s x → Bd s x → x ≠ k := by
    rintro s x hx hb rfl
    have := hx.unique hk; subst this
    exact hnb hb
  have hancZ : ∀ i s, 2 ^ L ≤ i → i < 2 * 2 ^ L → i >>> j = k → j < s → s ≤ L → Bd s (i >>> s) := by
    intro i s hi1 hi2 hu hs hsL
    have hb := under_iff.1 hu
    have := anc hs hb.1 hb.2
    exact ha s _ hs (Lvl.shift hi1 hi2 hsL) this.1 this.2
  have hidZ : ∀ i s, 2 ^ L ≤ i → i < 2 * 2 ^ L → i >>> j = k → j < s → s ≤ L → v.Z (i >>> s) = M.idMap :=
    fun i s hi1 hi2 hu hs hsL => h4 s _ (Lvl.shift hi1 hi2 hsL) (hancZ i s hi1 hi2 hu hs hsL)
  have hHK : HK M (applyV M (2 ^ L) v k f) L
      (fun i => if k * 2 ^ j ≤ i ∧ i < (k + 1) * 2 ^ j then f :: g i else g i) := by
    intro i hi1 hi2 s hs
    beta_reduce
    by_cases hu : i >>> j = k
    · rw [if_pos (under_iff.1 hu)]
      have hid := hidZ i
      rcases Nat.lt_or_ge s j with hsj | hsj
      · rw [apply_K_under hG hk hi1 hi2 hsj hu fun x x1 x2 => hid x hi1 hi2 hu x1 x2]
        obtain ⟨r, hr⟩ := h5 i hi1 hi2 s hs
        exact ⟨r + 1, by rw [hr]; rfl⟩
      · rw [apply_K_top hG hk hi1 hi2 hsj hs fun x x1 x2 => hid x hi1 hi2 hu x1 x2]
        exact ⟨0, rfl⟩
    · rw [if_neg (fun h => hu (under_iff.2 h)), apply_K_ne hk hi1 hi2 hu hs]
      exact h5 i hi1 hi2 s hs
  have hp := Nat.two_pow_pos j
  have b1 := hk.1
  have b2 := hk.end_le
  have b3 : (k + 1) * 2 ^ j = k * 2 ^ j + 2 ^ j := by rw [Nat.add_mul, Nat.one_mul]
  have hD : v.D k = rprod c (k * 2 ^ j) ((k + 1) * 2 ^ j) :=
    nodeV hM h2 hk (h3 j k hk hnb) fun s x hs hx x1 x2 => h4 s x hx (ha s x hs hx x1 x2)
  have hZ : k < 2 ^ L → FitsF (M.comp f (v.Z k)) := by
    intro hlt
    have hj := hk.j_pos hlt
    have hjL := hk.j_le
    have hu : (k * 2 ^ j) >>> j = k := shift_unique (Nat.le_refl _) (by omega)
    obtain ⟨r, hr⟩ := hHK (k * 2 ^ j) b1 (by omega) (j - 1) (by omega)
    beta_reduce at hr
    rw [if_pos ⟨Nat.le_refl _, by omega⟩, apply_K_under hG hk b1 (by omega) (by omega) hu
      (fun x x1 x2 => hidZ _ x b1 (by omega) hu x1 x2), show L - (j - 1) = 1 + (L - j) by omega, K_add hG, K_one hG,
      show j - 1 + 1 = j by omega, hu, K_id hG, hG.id_left] at hr
    · rw [hr]; exact hh _ (Nat.le_refl _) (by omega) r
    · intro x x1 x2
      exact hidZ _ x b1 (by omega) hu x1 (by omega)
  refine (allApply_is hC h1 hk.k_le (by rw [hD, map_rprod hM f _ (by omega)]; exact hc) hZ).mono ?_
  intro t' ht'
  refine ⟨_, ht', ?_, ?_, ?_, hHK⟩
  · intro i hi1 hi2
    beta_reduce
    by_cases hu : i >>> j = k
    · rw [if_pos (under_iff.1 hu), ← h2 i hi1 hi2, V_top hM hk.j_le, apply_under hM hk hu]
      · congr 1
        symm
        apply V_top hM hk.j_le
        intro s hs1 hs2
        exact h4 s _ (Lvl.shift hi1 hi2 hs2) (hancZ i s hi1 hi2 hu hs1 hs2)
      · intro s hs1 hs2
        have hb := hancZ i s hi1 hi2 hu hs1 hs2
        have hx := Lvl.shift hi1 hi2 hs2
        rw [applyV_Z_ne (hne s _ hx hb)]
        exact h4 s _ hx hb
    · rw [if_neg (fun h => hu (under_iff.2 h)), ← h2 i hi1 hi2]
      exact apply_same hk hi1 hi2 (Nat.le_refl _) (Or.inr hu)
  · intro s x hx hb
    by_cases e : x = k
    · subst e
      have := hx.unique hk; subst this
      exact apply_NI_self hM hx (h3 _ _ hx hb)
    · refine apply_NI_ne hk hx e ?_ (h3 s x hx hb)
      rcases Nat.lt_or_ge j s with hs | hs
      · right
        intro i hi hu
        have hb' := under_iff.1 hu
        have hk1 := hk.1
        have hk2 := hk.end_le
        have := hancZ i s (by omega) (by omega) hu hs hx.j_le
        rw [hi] at this
        exact hb this
      · exact Or.inl hs
  · intro s x hx hb
    rw [applyV_Z_ne (hne s x hx hb)]
    exact h4 s x hx hb

theorem mark_sat (hC : Chk M Fits FitsF C) (hM : LawfulMap M) (hG : LawfulComp M) {t : LazySegtree S F} {n L : ℕ}
    {c : ℕ → S} {g : ℕ → List F} {f : F}
    {l r : ℕ} (hl1 : 2 ^ L ≤ l) (hlr : l ≤ r) (hr2 : r ≤ 2 * 2 ^ L)
    (h : W M t n L c g none2 (fun s x => 1 ≤ s ∧ (Str l s x ∨ Str r s x)))
    (hc : FC Fits L (fun i => if l ≤ i ∧ i < r then M.mapping f (c i) else c i))
    (hh : FH M FitsF L (fun i => if l ≤ i ∧ i < r then f :: g i else g i)) :
    Sat (whileLoop (r + 1) ((l, r, t) : Nat × Nat × LazySegtree S F)
      (fun (l, r, _) => ok (decide (l < r)))
      (fun (l, r, t) => do
        let (l, t) ← (if l &&& 1 ≠ 0 then do
            let t ← t.allApply C l f
            ok (l + 1, t)
          else ok (l, t) : Res (Nat × LazySegtree S F))
        let (r, t) ← (if r &&& 1 ≠ 0 then do
            let t ← t.allApply C (r - 1) f
            ok (r - 1, t)
          else ok (r, t) : Res (Nat × LazySegtree S F))
        ok (l >>> 1, r >>> 1, t)))
      (fun st => W M st.2.2 n L (fun i => if l ≤ i ∧ i < r then M.mapping f (c i) else c i)
        (fun i => if l ≤ i ∧ i < r then f :: g i else g i)
        (fun s x => 1 ≤ s ∧ (Str l s x ∨ Str r s x))
        (fun s x => 1 ≤ s ∧ (Str l s x ∨ Str r s x))) := by
  have hfit : ∀ lo hi, l ≤ lo → lo ≤ hi → hi ≤ r → ∀ c' : ℕ → S, (∀ i, lo ≤ i → i < hi → c' i = c i) →
      Fits (rprod (fun i => M.mapping f (c' i)) lo hi) := by
    intro lo hi h1 h2 h3 c' hc'
    have := hc lo hi (by omega) h2 (by omega)
    rw [rprod_congr (c' := fun i => M.mapping f (c' i))] at this
    · exact this
    · intro i i1 i2
      beta_reduce
      rw [if_pos (by omega), hc' i i1 i2]
  have hmfit : ∀ i, l ≤ i → i < r → ∀ m, FitsF (compAll M ((f :: g i).take m)) := by
    intro i i1 i2 m
    have := hh i (by omega) (by omega) m
    beta_reduce at this
    rwa [if_pos ⟨i1, i2⟩] at this
  generalize hBd : (fun s x => 1 ≤ s ∧ (Str l s x ∨ Str r s x)) = Bd at h ⊢
  refine whileLoop_sat (I := fun st : Nat × Nat × LazySegtree S F => ∃ j, l ≤ st.1 * 2 ^ j ∧
      st.1 * 2 ^ j < l + 2 ^ j ∧
      st.1 ≤ st.2.1 ∧ st.2.1 * 2 ^ j ≤ r ∧ r < st.2.1 * 2 ^ j + 2 ^ j ∧
      W M st.2.2 n L (fun i => if (l ≤ i ∧ i < st.1 * 2 ^ j) ∨ (st.2.1 * 2 ^ j ≤ i ∧ i < r)
        then M.mapping f (c i) else c i)
        (fun i => if (l ≤ i ∧ i < st.1 * 2 ^ j) ∨ (st.2.1 * 2 ^ j ≤ i ∧ i < r) then f :: g i else g i) Bd Bd)
    (μ := fun st => st.2.1) _ ?_ _ _ ?_ ?_
  · rintro ⟨l', r', t'⟩ ⟨j, h1, h1', h2, h3, h3', h4⟩
    simp only at h1 h1' h2 h3 h3' h4
    have hp := Nat.two_pow_pos j
    simp only [sat_ok]
    by_cases hlt : l' < r'
    · simp only [hlt, decide_true, if_true, sat_bind]
      have hL : Sat (if l' &&& 1 ≠ 0 then do
            let t' ← t'.allApply C l' f
            ok (l' + 1, t')
          else ok (l', t') : Res (Nat × LazySegtree S F))
          (fun o => o.1 % 2 = 0 ∧ l' ≤ o.1 ∧ (o.1 = l' ∨ o.1 = l' + 1 ∧ l' % 2 = 1) ∧
            W M o.2 n L (fun i => if (l ≤ i ∧ i < o.1 * 2 ^ j) ∨ (r' * 2 ^ j ≤ i ∧ i < r)
              then M.mapping f (c i) else c i)
              (fun i => if (l ≤ i ∧ i < o.1 * 2 ^ j) ∨ (r' * 2 ^ j ≤ i ∧ i < r) then f :: g i else g i) Bd Bd) := by
        rw [sat_ite, and_one_ne]
        constructor
        · intro hodd
          have hend : (l' + 1) * 2 ^ j ≤ r' * 2 ^ j := Nat.mul_le_mul_right _ hlt
          have hlv : Lvl (2 ^ L) j l' := Lvl.of_end (by omega) (by omega)
          simp only [sat_bind]
          have hstep : (l' + 1) * 2 ^ j = l' * 2 ^ j + 2 ^ j := by rw [Nat.add_mul, Nat.one_mul]
          refine (applyNode_sat hC hM hG h4 hlv ?_ ?_ ?_ ?_).mono ?_
          · rw [← hBd]; rintro ⟨_, ⟨b1, b2⟩ | ⟨b1, b2⟩⟩ <;> omega
          · intro s x hs _ hx1 hx2
            rw [← hBd]
            exact ⟨by omega, Or.inl (left_anc hs hodd h1 h1' hx1 hx2)⟩
          · apply hfit _ _ (by omega) (by omega) (by omega)
            intro i i1 i2
            beta_reduce
            rw [if_neg (by omega)]
          · intro i i1 i2
            beta_reduce
            rw [if_neg (by omega)]
            exact hmfit i (by omega) (by omega)
          · intro t1 ht1
            simp only [sat_ok]
            refine ⟨by omega, by omega, Or.inr ⟨trivial, hodd⟩, ht1.congr ?_ ?_⟩
            all_goals
              intro i hi1 hi2
              beta_reduce
              by_cases c1 : l' * 2 ^ j ≤ i ∧ i < (l' + 1) * 2 ^ j
              · rw [if_pos c1, if_neg (by omega), if_pos (by omega)]
              · rw [if_neg c1]
                have : ((l ≤ i ∧ i < l' * 2 ^ j) ∨ (r' * 2 ^ j ≤ i ∧ i < r)) ↔
                    ((l ≤ i ∧ i < (l' + 1) * 2 ^ j) ∨ (r' * 2 ^ j ≤ i ∧ i < r)) := by omega
                simp only [this]
        · intro heven
          simp only [sat_ok]
          exact ⟨by omega, Nat.le_refl _, Or.inl trivial, h4⟩
      refine hL.mono ?_
      rintro ⟨l1, t1⟩ ⟨g1, g2, g3, g4⟩
      simp only at g1 g2 g3 g4
      have hR : Sat (if r' &&& 1 ≠ 0 then do
            let t1 ← t1.allApply C (r' - 1) f
            ok (r' - 1, t1)
          else ok (r', t1) : Res (Nat × LazySegtree S F))
          (fun o => o.1 % 2 = 0 ∧ o.1 ≤ r' ∧ r' ≤ o.1 + 1 ∧ l1 ≤ o.1 ∧
            W M o.2 n L (fun i => if (l ≤ i ∧ i < l1 * 2 ^ j) ∨ (o.1 * 2 ^ j ≤ i ∧ i < r)
              then M.mapping f (c i) else c i)
              (fun i => if (l ≤ i ∧ i < l1 * 2 ^ j) ∨ (o.1 * 2 ^ j ≤ i ∧ i < r) then f :: g i else g i) Bd Bd) := by
        rw [sat_ite, and_one_ne]
        constructor
        · intro hodd
          have hge : l1 * 2 ^ j ≤ (r' - 1) * 2 ^ j := Nat.mul_le_mul_right _ (by omega)
          have hge' : l' * 2 ^ j ≤ l1 * 2 ^ j := Nat.mul_le_mul_right _ (by omega)
          have hlv : Lvl (2 ^ L) j (r' - 1) :=
            Lvl.of_end (by omega) (by rw [show r' - 1 + 1 = r' by omega]; omega)
          have hstep : r' * 2 ^ j = (r' - 1) * 2 ^ j + 2 ^ j := by
            rw [← Nat.succ_mul]; congr 1; omega
          simp only [sat_bind]
          refine (applyNode_sat hC hM hG g4 hlv ?_ ?_ ?_ ?_).mono ?_
          · rw [← hBd]
            rintro ⟨_, ⟨b1, b2⟩ | ⟨b1, b2⟩⟩
            · omega
            · rw [show r' - 1 + 1 = r' by omega] at b2; omega
          · intro s x hs _ hx1 hx2
            rw [← hBd]
            exact ⟨by omega, Or.inr (right_anc hs hodd h3 h3' hx1 hx2)⟩
          · rw [show r' - 1 + 1 = r' by omega]
            apply hfit _ _ (by omega) (by omega) (by omega)
            intro i i1 i2
            beta_reduce
            rw [if_neg (by omega)]
          · rw [show r' - 1 + 1 = r' by omega]
            intro i i1 i2
            beta_reduce
            rw [if_neg (by omega)]
            exact hmfit i (by omega) (by omega)
          · intro t2 ht2
            simp only [sat_ok]
            refine ⟨by omega, by omega, by omega, by omega, ht2.congr ?_ ?_⟩
            all_goals
              intro i hi1 hi2
              beta_reduce
              rw [show r' - 1 + 1 = r' by omega]
              by_cases c1 : (r' - 1) * 2 ^ j ≤ i ∧ i < r' * 2 ^ j
              · rw [if_pos c1, if_neg (by omega), if_pos (by omega)]
              · rw [if_neg c1]
                have : ((l ≤ i ∧ i < l1 * 2 ^ j) ∨ (r' * 2 ^ j ≤ i ∧ i < r)) ↔
                    ((l ≤ i ∧ i < l1 * 2 ^ j) ∨ ((r' - 1) * 2 ^ j ≤ i ∧ i < r)) := by omega
                simp only [this]
        · intro heven
          simp only [sat_ok]
          exact ⟨by omega, Nat.le_refl _, by omega, by omega, g4⟩
      refine hR.mono ?_
      rintro ⟨r1, t2⟩ ⟨g5, g6, g6', g7, g8⟩
      simp only at g5 g6 g6' g7 g8
      simp only [sat_ok, Nat.shiftRight_one]
      have el : l1 / 2 * 2 ^ (j + 1) = l1 * 2 ^ j := by
        rw [← lc_start]; congr 1; omega
      have er : r1 / 2 * 2 ^ (j + 1) = r1 * 2 ^ j := by
        rw [← lc_start]; congr 1; omega
      have e2 : 2 ^ (j + 1) = 2 ^ j + 2 ^ j := by rw [Nat.pow_succ]; omega
      have m1 := Nat.mul_le_mul_right (2 ^ j) g2
      have m2 := Nat.mul_le_mul_right (2 ^ j) g6
      have m3 := Nat.mul_le_mul_right (2 ^ j) g6'
      have m4 : l1 * 2 ^ j ≤ (l' + 1) * 2 ^ j := Nat.mul_le_mul_right (2 ^ j) (by omega)
      rw [Nat.add_mul, Nat.one_mul] at m3 m4
      refine ⟨⟨j + 1, ?_, ?_, by omega, ?_, ?_, ?_⟩, by omega⟩
      · rw [el]; omega
      · rw [el]; omega
      · rw [er]; omega
      · rw [er]; omega
      · rw [el, er]; exact g8
    · simp only [hlt, decide_false, Bool.false_eq_true, if_false]
      have : l' = r' := by omega
      subst this
      apply h4.congr
      all_goals
        intro i hi1 hi2
        beta_reduce
        have : ((l ≤ i ∧ i < l' * 2 ^ j) ∨ (l' * 2 ^ j ≤ i ∧ i < r)) ↔ (l ≤ i ∧ i < r) := by omega
        simp only [this]
  · refine ⟨0, ?_, ?_, ?_, ?_, ?_, ?_⟩
    · simp
    · simp
    · exact hlr
    · simp
    · simp
    · apply (h.mono (fun _ _ _ h => h.elim) (fun _ _ _ h => h)).congr
      all_goals
        intro i hi1 hi2
        beta_reduce
        rw [if_neg (by simp only [Nat.pow_zero, Nat.mul_one]; omega)]
  · simp

theorem repair_sat (hC : Chk M Fits FitsF C) (hM : LawfulMap M) {t : LazySegtree S F} {n L : ℕ} {c : ℕ → S}
    {g : ℕ → List F} (hc : FC Fits L c)
    {l r : ℕ} (hl1 : 2 ^ L ≤ l) (hlr : l ≤ r) (hr2 : r ≤ 2 * 2 ^ L)
    (h : W M t n L c g (fun s x => 1 ≤ s ∧ (Str l s x ∨ Str r s x))
      (fun s x => 1 ≤ s ∧ (Str l s x ∨ Str r s x))) :
    Sat (forRange 1 (t.log + 1) t fun i t => do
      let t ← (if (l >>> i) <<< i ≠ l then t.update C (l >>> i) else ok t : Res (LazySegtree S F))
      (if (r >>> i) <<< i ≠ r then t.update C (r >>> i) else ok t : Res (LazySegtree S F)))
      (fun t' => W M t' n L c g none2 none2) := by
  have hlog : t.log = L := h.dims.2.2
  rw [hlog]
  have one : ∀ b, b = l ∨ b = r → ∀ (t : LazySegtree S F) i (Bad : ℕ → ℕ → Prop), 0 < i → i ≤ L →
      (∀ s x, Bad s x → i ≤ s) →
      W M t n L c g Bad (fun s x => 1 ≤ s ∧ (Str l s x ∨ Str r s x)) →
      Sat (if (b >>> i) <<< i ≠ b then t.update C (b >>> i) else ok t : Res (LazySegtree S F))
        (fun t' => W M t' n L c g (fun s x => Bad s x ∧ ¬ (s = i ∧ Str b s x))
          (fun s x => 1 ≤ s ∧ (Str l s x ∨ Str r s x))) := by
    intro b hb t i Bad hi hiL hB ht
    have hb1 : 2 ^ L ≤ b := by omega
    have hb2 : b ≤ 2 * 2 ^ L := by omega
    rw [sat_ite]
    constructor
    · intro hne
      have hstr := str_of_ne hne
      have hlt : b < 2 * 2 ^ L := by
        apply Nat.lt_of_le_of_ne hb2
        rintro rfl; exact not_str_top hiL hstr
      obtain ⟨j, rfl⟩ : ∃ j, i = j + 1 := ⟨i - 1, by omega⟩
      refine (update_sat hC hM ht hc (k := b >>> (j + 1)) (Lvl.shift hb1 hlt hiL) ⟨hi, ?_⟩ ?_ ?_ ?_).mono ?_
      · rcases hb with rfl | rfl
        · exact Or.inl hstr
        · exact Or.inr hstr
      · intro s x _ e
        refine ⟨by have := e.1; omega, ?_⟩
        rcases hb with rfl | rfl
        · exact Or.inl (str_anc hstr e)
        · exact Or.inr (str_anc hstr e)
      · intro h; have := hB _ _ h; omega
      · intro h; have := hB _ _ h; omega
      · intro t' ht'
        apply ht'.mono _ (fun _ _ _ h => h)
        rintro s x hx ⟨h1, h2⟩
        refine ⟨h1, ?_⟩
        rintro ⟨rfl, hs⟩
        exact h2 hs.shift.1.symm
    · intro hne
      simp only [sat_ok]
      apply ht.mono _ (fun _ _ _ h => h)
      intro s x hx hb
      refine ⟨hb, ?_⟩
      rintro ⟨rfl, hs⟩
      exact hne hs.shift.2
  refine (forRange_sat (I := fun i (t : LazySegtree S F) =>
    W M t n L c g (fun s x => i ≤ s ∧ (Str l s x ∨ Str r s x))
      (fun s x => 1 ≤ s ∧ (Str l s x ∨ Str r s x))) (by omega) h ?_).mono ?_
  · intro i t hi1 hi2 ht
    simp only [sat_bind]
    refine (one l (Or.inl rfl) t i _ hi1 (by omega) ?_ ht).mono ?_
    · rintro s x ⟨h, _⟩; exact h
    intro t1 ht1
    refine (one r (Or.inr rfl) t1 i _ hi1 (by omega) ?_ ht1).mono ?_
    · rintro s x ⟨⟨h, _⟩, _⟩; exact h
    intro t2 ht2
    apply ht2.mono _ (fun _ _ _ h => h)
    rintro s x hx ⟨⟨⟨h1, h2⟩, h3⟩, h4⟩
    refine ⟨?_, h2⟩
    apply Nat.lt_of_le_of_ne h1
    rintro rfl
    rcases h2 with h | h
    · exact h3 ⟨rfl, h⟩
    · exact h4 ⟨rfl, h⟩
  · intro t' ht'
    apply ht'.mono _ (fun _ _ _ h => h.elim)
    rintro s x hx ⟨hs, _⟩
    have := hx.j_le; omega

theorem leafL_mapRange {N : ℕ} {f : F} {h : List (List F)} {l r i : ℕ} (hr : r ≤ h.length) (hi : N ≤ i) :
    leafL N (mapRange (f :: ·) h l r) i = if l + N ≤ i ∧ i < r + N then f :: leafL N h i else leafL N h i := by
  unfold leafL mapRange
  simp only [Nat.not_lt.2 hi, if_false]
  rw [List.getD_eq_getElem?_getD, List.getD_eq_getElem?_getD, List.getElem?_mapIdx]
  by_cases h' : i - N < h.length
  · rw [List.getElem?_eq_getElem h']
    simp only [Option.map_some, Option.getD_some]
    have : (l ≤ i - N ∧ i - N < r) ↔ (l + N ≤ i ∧ i < r + N) := by omega
    simp only [this]
  · rw [List.getElem?_eq_none (by omega), if_neg (by omega)]; rfl

theorem mapRange_self {α : Type} (f : α → α) (a : List α) (l : ℕ) : mapRange f a l l = a := by
  unfold mapRange
  apply List.ext_getElem?
  intro i
  rw [List.getElem?_mapIdx]
  cases a[i]? with
  | none => rfl
  | some x => simp only [Option.map_some]; rw [if_neg (by omega)]

theorem FC.congr {L : ℕ} {c c' : ℕ → S} (h : FC Fits L c) (hc : ∀ i, 2 ^ L ≤ i → i < 2 * 2 ^ L → c i = c' i) :
    FC Fits L c' := by
  intro lo hi h1 h2 h3
  rw [← rprod_congr (c := c) (c' := c')]
  · exact h lo hi h1 h2 h3
  · intro i i1 i2; exact hc i (by omega) (by omega)

theorem FH.congr {L : ℕ} {g g' : ℕ → List F} (h : FH M FitsF L g)
    (hc : ∀ i, 2 ^ L ≤ i → i < 2 * 2 ^ L → g i = g' i) : FH M FitsF L g' := by
  intro i h1 h2
  rw [← hc i h1 h2]
  exact h i h1 h2

theorem applyRange_sat (hC : Chk M Fits FitsF C) (hM : LawfulMap M) (hG : LawfulComp M) {t : LazySegtree S F}
    {a : List S} {h : List (List F)} (hf : Fine M Fits FitsF a h) (hr : Rep M t a h)
    {l r : ℕ} {f : F} (hlr : l ≤ r) (hrn : r ≤ a.length)
    (hf' : Fine M Fits FitsF (mapRange (M.mapping f) a l r) (mapRange (f :: ·) h l r)) :
    Sat (t.applyRange C l r f) (fun t' => Rep M t' (mapRange (M.mapping f) a l r) (mapRange (f :: ·) h l r)) := by
  unfold LazySegtree.applyRange
  obtain ⟨L, hL, hle, hlen, hw⟩ := id hr
  obtain ⟨d1, d2, d3⟩ := hw.dims
  rw [assert_true ⟨hlr, by rw [d1]; exact hrn⟩, ok_bind, sat_ite]
  constructor
  · rintro rfl
    simp only [sat_ok]
    rw [mapRange_self, mapRange_self]; exact hr
  intro hne
  have hshift : ∀ (b i : ℕ) (g : ℕ → Res (LazySegtree S F)) (z : Res (LazySegtree S F)),
      (if (b >>> i) <<< i ≠ b then g ((b - 1) >>> i) else z) =
      (if (b >>> i) <<< i ≠ b then g (b >>> i) else z) := by
    intro b i g z
    split
    · rename_i h
      have := str_of_ne h
      rw [this.pred]
    · rfl
  simp only [sat_bind, d2]
  simp only [fun (b i : ℕ) (t : LazySegtree S F) => hshift b i (fun k => t.push C k) (ok t),
    fun (b i : ℕ) (t : LazySegtree S F) => hshift b i (fun k => t.update C k) (ok t)]
  have hfc' : FC Fits L (fun i => if l + 2 ^ L ≤ i ∧ i < r + 2 ^ L then M.mapping f (leaf (2 ^ L) a i) else
      leaf (2 ^ L) a i) :=
    (fc_of hf' (by simpa [mapRange] using hle)).congr fun i hi1 hi2 => leaf_mapRange hrn hi1
  have hfh' : FH M FitsF L (fun i => if l + 2 ^ L ≤ i ∧ i < r + 2 ^ L then f :: leafL (2 ^ L) h i else
      leafL (2 ^ L) h i) := (fh_of hf').congr fun i hi1 hi2 => leafL_mapRange (by omega) hi1
  refine (pushBounds_sat hC hM hG hw (fc_of hf hle) (fh_of hf) (l := l + 2 ^ L) (r := r + 2 ^ L) (by omega) (by omega)
    (by omega)).mono ?_
  intro t1 ht1
  refine (mark_sat hC hM hG (f := f) (by omega) (by omega) (by omega) ht1 hfc' hfh').mono ?_
  rintro ⟨l', r', t2⟩ ht2
  refine (repair_sat hC hM hfc' (by omega) (by omega) (by omega) ht2).mono ?_
  intro t3 ht3
  refine ⟨L, by simpa [mapRange] using hL, by simpa [mapRange] using hle, by simpa [mapRange] using hlen, ?_⟩
  have := ht3.congr (c' := leaf (2 ^ L) (mapRange (M.mapping f) a l r))
    (h' := leafL (2 ^ L) (mapRange (f :: ·) h l r))
    (fun i hi1 hi2 => (leaf_mapRange hrn hi1).symm) (fun i hi1 hi2 => (leafL_mapRange (by omega) hi1).symm)
  simpa [mapRange] using this

end Verif.LazyF
