import Verif.Proof.NumberTheory
import Verif.Spec.NumberTheory
import Mathlib.Tactic.NormNum
/-! Proofs about `ex_crt`. -/
namespace Verif.NTP
open Model Res Spec

theorem i64_in {v : Int} : i64.In v ↔ -9223372036854775808 ≤ v ∧ v ≤ 9223372036854775807 := by
  unfold IntTy.In
  rw [show i64.mn = -9223372036854775808 by decide, show i64.mx = 9223372036854775807 by decide]

theorem i128_in {v : Int} : i128.In v ↔
    -170141183460469231731687303715884105728 ≤ v ∧ v ≤ 170141183460469231731687303715884105727 := by
  unfold IntTy.In
  rw [show i128.mn = -170141183460469231731687303715884105728 by decide,
    show i128.mx = 170141183460469231731687303715884105727 by decide]

theorem ck_satOr {ty : IntTy} {v : Int} {b : Prop} {P : Int → Prop} (h : ¬ b → ty.In v) (hP : ty.In v → P v) :
    SatOr b (ty.ck v) P := by
  by_cases hv : ty.In v
  · rw [IntTy.ck_of hv, satOr_ok]; exact hP hv
  · rw [IntTy.ck_panic hv]; exact satOr_panic (Classical.byContradiction fun hb => hv (h hb))

theorem asI64_of {v : Int} (h : -9223372036854775808 ≤ v) (h' : v ≤ 9223372036854775807) : asI64 v = v := by
  unfold asI64
  norm_num
  omega

/-- What one step of `ex_crt` establishes. -/
def StepPost (a b m x l : Int) : Option (Int × Int) → Prop
  | none => ∀ z, l ∣ z - x → ¬ m ∣ a * z - b
  | some (x', l') => 0 < l' ∧ -l' < x' ∧ x' < l' ∧ i64.In x' ∧ i64.In l' ∧ l ∣ l' ∧
      (∀ L, l ∣ L → m ∣ L → l' ∣ L) ∧ ∀ z, l' ∣ z - x' ↔ (l ∣ z - x ∧ m ∣ a * z - b)

theorem crtStep_sat {B : Prop} {a b m x l : Int} (ha : 0 ≤ a) (hm : 0 < m) (hmi : i64.In m) (hl : 0 < l)
    (hli : i64.In l) (hx1 : -l < x) (hx2 : x < l)
    (hov : ¬ B → i64.In (a * l) ∧ i64.In (a * x) ∧ i64.In (b - a * x) ∧
      ∀ l', (∀ L, l ∣ L → m ∣ L → l' ∣ L) → i64.In l') :
    SatOr B (crtStep a b m x l) (StepPost a b m x l) := by
  unfold crtStep
  refine satOr_bind (ck_satOr (fun h => (hov h).1) fun ha' => ?_)
  refine satOr_bind (ck_satOr (fun h => (hov h).2.1) fun hax => ?_)
  refine satOr_bind (ck_satOr (fun h => (hov h).2.2.1) fun hb' => ?_)
  have hal : 0 ≤ a * l := Int.mul_nonneg ha hl.le
  refine satOr_bind ?_
  have hmin : ¬ MinNeg i64 (a * l) m := by
    rintro ⟨_, h | h⟩
    · have := h.2; omega
    · have := h.1; omega
  obtain ⟨⟨y, w, g⟩, he, e1, e2, e3, e4, e5, e6⟩ := exGcd_sat (ty := i64) rfl (by decide) ha' hmi hmin
  rw [he, satOr_ok]
  simp only at e1 e2 e3 e4 e5 e6 ⊢
  have hg0 : 0 < g := by
    have h1 := e6 hal hm.le
    have h2 : g ≠ 0 := by
      rintro rfl
      have := (Int.gcd_eq_zero_iff.1 e2.symm).2
      omega
    omega
  have hgabs : (g.natAbs : Int) = g := by omega
  have hgd : (Int.gcd (a * l) m : Int) = g := by rw [← e2]; exact hgabs
  have hga : g ∣ a * l := by rw [← hgd]; exact Int.gcd_dvd_left ..
  have hgm : g ∣ m := by rw [← hgd]; exact Int.gcd_dvd_right ..
  have hgi : i64.In g := by
    have := Int.le_of_dvd hm hgm
    rw [i64_in] at hmi ⊢
    omega
  have hneg : ∀ v : Int, ¬ (i64.signed = true ∧ v = i64.mn ∧ g = -1) := fun v h => by omega
  rw [rem_ok hg0.ne' (hneg _)]
  refine satOr_bind ?_
  rw [satOr_ok]
  by_cases hr : (b - a * x).tmod g = 0
  swap
  · rw [if_pos hr, satOr_ok]
    intro z hz hd
    apply hr
    apply Int.tmod_eq_zero_of_dvd
    obtain ⟨k, hk⟩ := hz
    have h1 : g ∣ a * z - b := hgm.trans hd
    have h2 : b - a * x = a * l * k - (a * z - b) := by
      have : z = x + l * k := by omega
      subst this; ring
    rw [h2]
    exact Int.dvd_sub (hga.mul_right k) h1
  rw [if_neg (by simpa using hr)]
  have hgb : g ∣ b - a * x := Int.dvd_of_tmod_eq_zero hr
  obtain ⟨b2, hbe⟩ := hgb
  obtain ⟨m2, hm2⟩ := hgm
  obtain ⟨a2, ha2⟩ := hga
  have q1 : (b - a * x).tdiv g = b2 := by rw [hbe]; exact Int.mul_tdiv_cancel_left _ hg0.ne'
  have q2 : m.tdiv g = m2 := by rw [hm2]; exact Int.mul_tdiv_cancel_left _ hg0.ne'
  rw [div_ok hb' hgi hg0.ne' (hneg _), div_ok hmi hgi hg0.ne' (hneg _), q1, q2]
  simp only [ok_bind]
  have hm2p : 0 < m2 := by
    by_contra hc
    have : g * m2 ≤ 0 := Int.mul_nonpos_of_nonneg_of_nonpos hg0.le (by omega)
    omega
  have hm2le : m2 ≤ m := by rw [hm2]; nlinarith
  have bez : a2 * y + m2 * w = 1 := by
    have : g * (a2 * y + m2 * w) = g * 1 := by
      rw [ha2, hm2] at e1
      linear_combination e1
    exact Int.eq_of_mul_eq_mul_left hg0.ne' this
  -- `y` and `b2` are `i64` values
  have hy : y.natAbs ≤ 9223372036854775808 := by
    rw [i64_in] at hmi
    by_cases hz : (a * l).tmod m = 0
    · have := e4 hm.ne' hz
      simp only [Prod.mk.injEq] at this
      omega
    · have h1 := (e5 hm.ne' hz).1
      rw [← e2] at h1
      have h2 : y.natAbs ≤ g.natAbs * y.natAbs := Nat.le_mul_of_pos_left _ (by omega)
      omega
  have hb2 : b2.natAbs ≤ 9223372036854775808 := by
    have h1 : b2.natAbs ≤ (b - a * x).natAbs := by
      rw [hbe, Int.natAbs_mul]; exact Nat.le_mul_of_pos_left _ (by omega)
    rw [i64_in] at hb'
    omega
  have hyb : (y * b2).natAbs ≤ 9223372036854775808 * 9223372036854775808 := by
    rw [Int.natAbs_mul]; exact Nat.mul_le_mul hy hb2
  rw [IntTy.ck_of (i128_in.2 (by omega)), ok_bind,
    rem_ok (ty := i128) hm2p.ne' (fun h => by omega), ok_bind]
  have htl := natAbs_tmod_lt (y * b2) hm2p.ne'
  have htd := Int.mul_tdiv_add_tmod (y * b2) m2
  generalize ht : (y * b2).tmod m2 = t at htl htd ⊢
  generalize (y * b2).tdiv m2 = qq at htd
  have hmi' := i64_in.1 hmi
  rw [asI64_of (by omega) (by omega)]
  -- new modulus
  have hlcm : ∀ L, l ∣ L → m ∣ L → l * m2 ∣ L := by
    rintro L ⟨u, hu⟩ ⟨v, hv⟩
    -- a2 * y + m2 * w = 1; L = l u = g m2 v
    refine ⟨v * a * y + u * w, ?_⟩
    have h1 : L * (a2 * y) = l * m2 * (v * a * y) := by
      have : L * a2 = l * m2 * v * a := by
        rw [hv, hm2]
        linear_combination -(m2 * v) * ha2
      linear_combination y * this
    have h2 : L * (m2 * w) = l * m2 * (u * w) := by rw [hu]; ring
    linear_combination h1 + h2 - L * bez
  have hl2 : 0 < l * m2 := Int.mul_pos hl hm2p
  have hlt1 : l * t < l * m2 - l + 1 := by
    have : l * t ≤ l * (m2 - 1) := Int.mul_le_mul_of_nonneg_left (by omega) hl.le
    linarith [Int.mul_sub l m2 1]
  have hlt2 : -(l * m2 - l + 1) < l * t := by
    have : l * -(m2 - 1) ≤ l * t := Int.mul_le_mul_of_nonneg_left (by omega) hl.le
    have h3 : l * -(m2 - 1) = -(l * m2) + l := by ring
    omega
  have hnew : ¬ B → i64.In (l * m2) := fun h => (hov h).2.2.2 _ hlcm
  refine satOr_bind (ck_satOr (fun h => ?_) fun _ => ?_)
  · have := i64_in.1 (hnew h); rw [i64_in]; omega
  refine satOr_bind (ck_satOr (fun h => ?_) fun hxi => ?_)
  · have := i64_in.1 (hnew h); rw [i64_in]; omega
  refine satOr_bind (ck_satOr hnew fun hli' => ?_)
  rw [satOr_ok]
  refine ⟨hl2, by omega, by omega, hxi, hli', ⟨m2, rfl⟩, hlcm, ?_⟩
  intro z
  constructor
  · rintro ⟨k, hk⟩
    have hz : z = x + l * (t + m2 * k) := by linear_combination hk
    refine ⟨⟨t + m2 * k, by linear_combination hz⟩, ?_⟩
    -- a z - b = a l (t + m2 k) - g b2 = g (a2 (t + m2 k) - b2)
    refine ⟨a2 * k - a2 * qq - w * b2, ?_⟩
    rw [hz]
    have h1 : a * (x + l * (t + m2 * k)) - b = a * l * (t + m2 * k) - (b - a * x) := by ring
    rw [h1]
    linear_combination (t + m2 * k) * ha2 - hbe + g * a2 * htd + g * b2 * bez - (a2 * k - a2 * qq - w * b2) * hm2
  · rintro ⟨⟨k, hk⟩, ⟨v, hv⟩⟩
    have h1 : a2 * k - b2 = m2 * v := by
      have : g * (a2 * k - b2) = g * (m2 * v) := by
        linear_combination hv - k * ha2 + hbe + v * hm2 - a * hk
      exact Int.eq_of_mul_eq_mul_left hg0.ne' this
    refine ⟨v * y + w * k + qq, ?_⟩
    linear_combination hk + l * y * h1 - l * k * bez - l * htd

/-! ### The loop -/

theorem getD_cons_drop {l : List Int} {i : Nat} (h : i < l.length) : l.drop i = l.getD i 0 :: l.drop (i + 1) := by
  rw [List.drop_eq_getElem_cons h, List.getD_eq_getElem?_getD, List.getElem?_eq_getElem h]
  rfl

theorem idx_getD {l : List Int} {i : Nat} (h : i < l.length) : idx l i = ok (l.getD i 0) := by
  apply idx_of_some
  rw [List.getD_eq_getElem?_getD, List.getElem?_eq_getElem h]
  rfl

/-- Solutions of the first `i` congruences. -/
def PrefSol (a b m : List Int) (i : Nat) (z : Int) : Prop :=
  ∀ j < i, m.getD j 0 ∣ a.getD j 0 * z - b.getD j 0

/-- What the loop of `ex_crt` establishes. -/
def LoopPost (a b m : List Int) : Option (Int × Int) → Prop
  | none => ∀ z, ¬ CongrSol a b m z
  | some (x, l) => 0 < l ∧ -l < x ∧ x < l ∧ i64.In x ∧ i64.In l ∧
      (∀ L, (∀ j < a.length, m.getD j 0 ∣ L) → l ∣ L) ∧ ∀ z, l ∣ z - x ↔ CongrSol a b m z

theorem crtLoop_sat {B : Prop} {a b m : List Int} (hin : CongrInput a b m)
    (hB : ¬ B → ∃ L, CongrSmall a b m L) :
    ∀ (n i : Nat) (x l : Int), i + n = a.length → 0 < l → -l < x → x < l → i64.In x → i64.In l →
      (∀ L, (∀ j < i, m.getD j 0 ∣ L) → l ∣ L) → (∀ z, l ∣ z - x ↔ PrefSol a b m i z) →
      SatOr B (crtLoop b m i (a.drop i) x l) (LoopPost a b m) := by
  intro n
  induction n with
  | zero =>
    intro i x l hi hl h1 h2 h3 h4 h5 h6
    rw [List.drop_eq_nil_of_le (by omega)]
    unfold crtLoop
    rw [satOr_ok]
    have e : i = a.length := by omega
    subst e
    exact ⟨hl, h1, h2, h3, h4, h5, h6⟩
  | succ n ih =>
    intro i x l hi hl h1 h2 h3 h4 h5 h6
    obtain ⟨q1, q2, q3⟩ := hin
    have hia : i < a.length := by omega
    obtain ⟨⟨p1, p2⟩, ⟨p3, p4⟩, p5, p6⟩ := q3 i hia
    rw [getD_cons_drop hia]
    unfold crtLoop
    rw [idx_getD (by omega), ok_bind, idx_getD (by omega), ok_bind]
    generalize hai : a.getD i 0 = ai at *
    generalize hbi : b.getD i 0 = bi at *
    generalize hmi : m.getD i 0 = mi at *
    refine satOr_bind ((crtStep_sat p1 p5 (i64_in.2 (by omega)) hl h4 h1 h2 ?_).mono ?_)
    · intro hb
      obtain ⟨L, s1, s2, s3⟩ := hB hb
      have hlL : l ∣ L := h5 L fun j hj => (s3 j (by omega)).1
      have hle := Int.le_of_dvd s1 hlL
      obtain ⟨t1, t2, t3, t4⟩ := s3 i hia
      rw [hai] at t2
      rw [hbi] at t3 t4
      rw [hmi] at t1
      have g1 : ai * l ≤ ai * L := Int.mul_le_mul_of_nonneg_left hle p1
      have g0 : 0 ≤ ai * l := Int.mul_nonneg p1 hl.le
      have g2 : ai * x ≤ ai * l := Int.mul_le_mul_of_nonneg_left h2.le p1
      have g3 : ai * -l ≤ ai * x := Int.mul_le_mul_of_nonneg_left h1.le p1
      have g4 : ai * -l = -(ai * l) := by ring
      have g5 : ai = 0 ∨ -(ai * l) < ai * x := by
        rcases eq_or_lt_of_le p1 with e | e
        · exact .inl e.symm
        · refine .inr ?_
          rw [← g4]; exact Int.mul_lt_mul_of_pos_left h1 e
      have g6 : ai = 0 → ai * x = 0 := by rintro rfl; simp
      simp only [i64_in]
      refine ⟨by omega, by omega, by omega, ?_⟩
      intro l' hl'
      have hd : l' ∣ L := hl' L hlL t1
      have h1 := Int.le_of_dvd s1 hd
      have h2 := Int.le_of_dvd s1 (Int.neg_dvd.2 hd)
      omega
    · intro r hr
      rcases r with _ | ⟨x', l'⟩
      · simp only [satOr_ok]
        intro z hz
        refine hr z ((h6 z).2 fun j hj => hz j (by omega)) ?_
        have := hz i hia
        rwa [hai, hbi, hmi] at this
      · obtain ⟨r1, r2, r3, r4, r5, r6, r7, r8⟩ := hr
        simp only []
        refine ih (i + 1) x' l' (by omega) r1 r2 r3 r4 r5 ?_ ?_
        · intro L hL
          refine r7 L (h5 L fun j hj => hL j (by omega)) ?_
          have := hL i (by omega)
          rwa [hmi] at this
        · intro z
          rw [r8, h6]
          constructor
          · rintro ⟨u1, u2⟩ j hj
            rcases Nat.lt_succ_iff_lt_or_eq.1 hj with h | rfl
            · exact u1 j h
            · rw [hai, hbi, hmi]; exact u2
          · intro u
            refine ⟨fun j hj => u j (by omega), ?_⟩
            have := u i (by omega)
            rwa [hai, hbi, hmi] at this

/-- What `ex_crt` returns. -/
def CrtPost (a b m : List Int) : Option (Int × Int) → Prop
  | none => ∀ z, ¬ CongrSol a b m z
  | some (x, l) => 0 ≤ x ∧ x < l ∧ ∀ z, CongrSol a b m z ↔ ∃ k, z = x + k * l

theorem exCrt_sat {B : Prop} {a b m : List Int} (hin : CongrInput a b m)
    (hB : ¬ B → ∃ L, CongrSmall a b m L) : SatOr B (exCrt a b m) (CrtPost a b m) := by
  unfold exCrt
  have h := crtLoop_sat hin hB a.length 0 0 1 (by omega) (by decide) (by decide) (by decide) (by decide)
    (by decide) (fun L _ => Int.one_dvd L)
    (fun z => ⟨fun _ j hj => absurd hj (by omega), fun _ => Int.one_dvd _⟩)
  rw [List.drop_zero] at h
  refine satOr_bind (h.mono ?_)
  rintro (_ | ⟨x, l⟩) hr
  · simp only [satOr_ok]; exact hr
  obtain ⟨r1, r2, r3, r4, r5, r6, r7⟩ := hr
  simp only []
  refine satOr_bind (ck_satOr ?_ fun hs => ?_)
  · intro hb
    obtain ⟨L, s1, s2, s3⟩ := hB hb
    have := Int.le_of_dvd s1 (r6 L fun j hj => (s3 j hj).1)
    rw [i64_in]; omega
  rw [rem_ok r1.ne' (fun h => by omega), ok_bind, satOr_ok]
  have h0 : 0 ≤ x + l := by omega
  have hn := Int.tmod_nonneg l h0
  have hlt := Int.tmod_lt_of_pos (x + l) r1
  have he := Int.mul_tdiv_add_tmod (x + l) l
  refine ⟨hn, hlt, fun z => ?_⟩
  rw [← r7]
  constructor
  · rintro ⟨k, hk⟩
    exact ⟨k - 1 + (x + l).tdiv l, by linear_combination hk - he⟩
  · rintro ⟨k, rfl⟩
    exact ⟨k + 1 - (x + l).tdiv l, by linear_combination he⟩

end Verif.NTP
