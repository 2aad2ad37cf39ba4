import Verif.Proof.ExCrt
/-! `ex_crt` on arbitrary `i64` inputs: negative coefficients, zero and negative moduli. -/
namespace Verif.NTP
open Model Res Spec

theorem rem_satOr {ty : IntTy} {a b : Int} {B : Prop} {P : Int → Prop}
    (h : ¬ B → b ≠ 0 ∧ a ≠ ty.mn) (hP : b ≠ 0 → P (a.tmod b)) : SatOr B (ty.rem a b) P := by
  by_cases hb : b = 0
  · unfold IntTy.rem; rw [if_pos hb]
    exact satOr_panic (Classical.byContradiction fun hB => (h hB).1 hb)
  by_cases hs : ty.signed = true ∧ a = ty.mn ∧ b = -1
  · unfold IntTy.rem; rw [if_neg hb, if_pos hs]
    exact satOr_panic (Classical.byContradiction fun hB => (h hB).2 hs.2.1)
  · rw [rem_ok hb hs, satOr_ok]; exact hP hb

theorem div_satOr {ty : IntTy} {a b : Int} {B : Prop} {P : Int → Prop} (ha : ty.In a) (hbi : ty.In b)
    (h : ¬ B → a ≠ ty.mn) (hb : b ≠ 0) (hP : P (a.tdiv b)) : SatOr B (ty.div a b) P := by
  by_cases hs : ty.signed = true ∧ a = ty.mn ∧ b = -1
  · have hB : B := Classical.byContradiction fun hB => h hB hs.2.1
    unfold IntTy.div
    rw [if_neg hb]
    exact ck_satOr (fun h => absurd hB h) fun _ => hP
  · rw [div_ok ha hbi hb hs, satOr_ok]; exact hP

theorem step_bounds {x l lt p : Int} (h1 : x.natAbs < l.natAbs) (h2 : lt.natAbs + l.natAbs ≤ p.natAbs) :
    (x + lt).natAbs < p.natAbs ∧ (i64.In p ∧ p ≠ i64.mn → i64.In lt ∧ i64.In (x + lt)) := by
  rw [show i64.mn = -9223372036854775808 by decide]
  simp only [i64_in]
  omega

/-- What one step of `ex_crt` establishes, whatever the signs. -/
def StepPostAny (a b m x l : Int) : Option (Int × Int) → Prop
  | none => ∀ z, l ∣ z - x → ¬ m ∣ a * z - b
  | some (x', l') => m ≠ 0 ∧ l' ≠ 0 ∧ x'.natAbs < l'.natAbs ∧ i64.In x' ∧ i64.In l' ∧ l ∣ l' ∧
      (∀ L, l ∣ L → m ∣ L → l' ∣ L) ∧ ∀ z, l' ∣ z - x' ↔ (l ∣ z - x ∧ m ∣ a * z - b)

theorem crtStep_any {B : Prop} {a b m x l : Int} (hmi : i64.In m) (hl : l ≠ 0)
    (hx : x.natAbs < l.natAbs)
    (hov : ¬ B → m ≠ 0 ∧ m ≠ i64.mn ∧ i64.In (a * l) ∧ a * l ≠ i64.mn ∧ i64.In (a * x) ∧
      i64.In (b - a * x) ∧ b - a * x ≠ i64.mn ∧
      ∀ l', (∀ L, l ∣ L → m ∣ L → l' ∣ L) → i64.In l' ∧ l' ≠ i64.mn) :
    SatOr B (crtStep a b m x l) (StepPostAny a b m x l) := by
  unfold crtStep
  refine satOr_bind (ck_satOr (fun h => (hov h).2.2.1) fun ha' => ?_)
  refine satOr_bind (ck_satOr (fun h => (hov h).2.2.2.2.1) fun hax => ?_)
  refine satOr_bind (ck_satOr (fun h => (hov h).2.2.2.2.2.1) fun hb' => ?_)
  refine satOr_bind ?_
  by_cases hmin : MinNeg i64 (a * l) m
  · rw [exGcd_minNeg hmin]
    refine satOr_panic (Classical.byContradiction fun hB => ?_)
    obtain ⟨_, h | h⟩ := hmin
    · exact (hov hB).2.2.2.1 h.1
    · exact (hov hB).2.1 h.2
  obtain ⟨⟨y, w, g⟩, he, e1, e2, e3, e4, e5, e6⟩ := exGcd_sat (ty := i64) rfl (by decide) ha' hmi hmin
  rw [he, satOr_ok]
  simp only at e1 e2 e3 e4 e5 e6 ⊢
  have hga : g ∣ a * l := by
    rw [← Int.natAbs_dvd, e2]; exact Int.gcd_dvd_left ..
  have hgm : g ∣ m := by
    rw [← Int.natAbs_dvd, e2]; exact Int.gcd_dvd_right ..
  have hg0' : m ≠ 0 → g ≠ 0 := by
    rintro h rfl
    exact h (Int.gcd_eq_zero_iff.1 e2.symm).2
  have hgi : i64.In g := by
    by_cases hm0 : m = 0
    · have := e3 hm0
      simp only [Prod.mk.injEq] at this
      rw [this.2.2]; exact ha'
    · by_cases hz : (a * l).tmod m = 0
      · have := e4 hm0 hz
        simp only [Prod.mk.injEq] at this
        rw [this.2.2]; exact hmi
      · have h1 : g.natAbs ≤ m.natAbs := Nat.le_of_dvd (by omega) (Int.natAbs_dvd_natAbs.2 hgm)
        have h2 : g.natAbs ≠ m.natAbs := by
          intro h
          apply hz
          apply Int.tmod_eq_zero_of_dvd
          rw [← Int.natAbs_dvd, ← h, Int.natAbs_dvd]
          exact hga
        rw [i64_in] at hmi ⊢
        omega
  refine satOr_bind (rem_satOr (fun h => ⟨hg0' (hov h).1, (hov h).2.2.2.2.2.2.1⟩) fun hg0 => ?_)
  by_cases hr : (b - a * x).tmod g = 0
  swap
  · rw [if_pos hr, satOr_ok]
    intro z hz hd
    apply hr
    apply Int.tmod_eq_zero_of_dvd
    obtain ⟨k, hk⟩ := hz
    have h1 : g ∣ a * z - b := hgm.trans hd
    have h2 : b - a * x = a * l * k - (a * z - b) := by
      have : z = x + l * k := by omega
      subst this; ring
    rw [h2]
    exact Int.dvd_sub (hga.mul_right k) h1
  rw [if_neg (by simpa using hr)]
  have hgb : g ∣ b - a * x := Int.dvd_of_tmod_eq_zero hr
  obtain ⟨b2, hbe⟩ := hgb
  obtain ⟨m2, hm2⟩ := hgm
  obtain ⟨a2, ha2⟩ := hga
  have q1 : (b - a * x).tdiv g = b2 := by rw [hbe]; exact Int.mul_tdiv_cancel_left _ hg0
  have q2 : m.tdiv g = m2 := by rw [hm2]; exact Int.mul_tdiv_cancel_left _ hg0
  refine satOr_bind (div_satOr hb' hgi (fun h => (hov h).2.2.2.2.2.2.1) hg0 ?_)
  refine satOr_bind (div_satOr hmi hgi (fun h => (hov h).2.1) hg0 ?_)
  rw [q1, q2]
  have bez : a2 * y + m2 * w = 1 := by
    have : g * (a2 * y + m2 * w) = g * 1 := by
      rw [ha2, hm2] at e1
      linear_combination e1
    exact Int.eq_of_mul_eq_mul_left hg0 this
  -- `y` and `b2` are `i64` values
  have hy : y.natAbs ≤ 9223372036854775808 := by
    rw [i64_in] at hmi
    by_cases hm0 : m = 0
    · have := e3 hm0
      simp only [Prod.mk.injEq] at this
      omega
    by_cases hz : (a * l).tmod m = 0
    · have := e4 hm0 hz
      simp only [Prod.mk.injEq] at this
      omega
    · have h1 := (e5 hm0 hz).1
      rw [← e2] at h1
      have h2 : y.natAbs ≤ g.natAbs * y.natAbs := Nat.le_mul_of_pos_left _ (by omega)
      omega
  have hb2 : b2.natAbs ≤ 9223372036854775808 := by
    have h1 : b2.natAbs ≤ (b - a * x).natAbs := by
      rw [hbe, Int.natAbs_mul]; exact Nat.le_mul_of_pos_left _ (by omega)
    rw [i64_in] at hb'
    omega
  have hyb : (y * b2).natAbs ≤ 9223372036854775808 * 9223372036854775808 := by
    rw [Int.natAbs_mul]; exact Nat.mul_le_mul hy hb2
  rw [IntTy.ck_of (i128_in.2 (by omega)), ok_bind]
  have hm20 : m ≠ 0 → m2 ≠ 0 := by
    rintro h rfl
    exact h (by rw [hm2]; simp)
  refine satOr_bind (rem_satOr (fun h => ⟨hm20 (hov h).1, ?_⟩) fun hm2p => ?_)
  · rw [show i128.mn = -170141183460469231731687303715884105728 by decide]; omega
  have hm0 : m ≠ 0 := by rw [hm2]; exact Int.mul_ne_zero hg0 hm2p
  have hm2le : m2.natAbs ≤ m.natAbs := by
    rw [hm2, Int.natAbs_mul]; exact Nat.le_mul_of_pos_left _ (by omega)
  have htl := natAbs_tmod_lt (y * b2) hm2p
  have htd := Int.mul_tdiv_add_tmod (y * b2) m2
  generalize ht : (y * b2).tmod m2 = t at htl htd ⊢
  generalize (y * b2).tdiv m2 = qq at htd
  have hmi' := i64_in.1 hmi
  rw [asI64_of (by omega) (by omega)]
  -- new modulus
  have hlcm : ∀ L, l ∣ L → m ∣ L → l * m2 ∣ L := by
    rintro L ⟨u, hu⟩ ⟨v, hv⟩
    refine ⟨v * a * y + u * w, ?_⟩
    have h1 : L * (a2 * y) = l * m2 * (v * a * y) := by
      have : L * a2 = l * m2 * v * a := by
        rw [hv, hm2]
        linear_combination -(m2 * v) * ha2
      linear_combination y * this
    have h2 : L * (m2 * w) = l * m2 * (u * w) := by rw [hu]; ring
    linear_combination h1 + h2 - L * bez
  have hl2 : l * m2 ≠ 0 := Int.mul_ne_zero hl hm2p
  have hlt : (l * t).natAbs + l.natAbs ≤ (l * m2).natAbs := by
    rw [Int.natAbs_mul, Int.natAbs_mul, ← Nat.mul_succ]
    exact Nat.mul_le_mul_left _ htl
  have hnew : ¬ B → i64.In (l * m2) ∧ l * m2 ≠ i64.mn := fun h => (hov h).2.2.2.2.2.2.2 _ hlcm
  obtain ⟨hsb, hsi⟩ := step_bounds hx hlt
  refine satOr_bind (ck_satOr (fun h => (hsi (hnew h)).1) fun _ => ?_)
  refine satOr_bind (ck_satOr (fun h => (hsi (hnew h)).2) fun hxi => ?_)
  refine satOr_bind (ck_satOr (fun h => (hnew h).1) fun hli' => ?_)
  rw [satOr_ok]
  refine ⟨hm0, hl2, hsb, hxi, hli', ⟨m2, rfl⟩, hlcm, ?_⟩
  intro z
  constructor
  · rintro ⟨k, hk⟩
    have hz : z = x + l * (t + m2 * k) := by linear_combination hk
    refine ⟨⟨t + m2 * k, by linear_combination hz⟩, ?_⟩
    refine ⟨a2 * k - a2 * qq - w * b2, ?_⟩
    rw [hz]
    have h1 : a * (x + l * (t + m2 * k)) - b = a * l * (t + m2 * k) - (b - a * x) := by ring
    rw [h1]
    linear_combination (t + m2 * k) * ha2 - hbe + g * a2 * htd + g * b2 * bez - (a2 * k - a2 * qq - w * b2) * hm2
  · rintro ⟨⟨k, hk⟩, ⟨v, hv⟩⟩
    have h1 : a2 * k - b2 = m2 * v := by
      have : g * (a2 * k - b2) = g * (m2 * v) := by
        linear_combination hv - k * ha2 + hbe + v * hm2 - a * hk
      exact Int.eq_of_mul_eq_mul_left hg0 this
    refine ⟨v * y + w * k + qq, ?_⟩
    linear_combination hk + l * y * h1 - l * k * bez - l * htd

/-- What the loop of `ex_crt` establishes. -/
def LoopPostAny (a b m : List Int) : Option (Int × Int) → Prop
  | none => ∀ z, ¬ CongrSol a b m z
  | some (x, l) => (∀ j < a.length, m.getD j 0 ≠ 0) ∧ l ≠ 0 ∧ x.natAbs < l.natAbs ∧ i64.In x ∧ i64.In l ∧
      (∀ L, (∀ j < a.length, m.getD j 0 ∣ L) → l ∣ L) ∧ ∀ z, l ∣ z - x ↔ CongrSol a b m z

theorem crtLoop_any {B : Prop} {a b m : List Int} (hin : CongrAny a b m)
    (hB : ¬ B → ∃ L, CongrSmallAny a b m L) :
    ∀ (n i : Nat) (x l : Int), i + n = a.length → (∀ j < i, m.getD j 0 ≠ 0) → l ≠ 0 →
      x.natAbs < l.natAbs → i64.In x → i64.In l →
      (∀ L, (∀ j < i, m.getD j 0 ∣ L) → l ∣ L) → (∀ z, l ∣ z - x ↔ PrefSol a b m i z) →
      SatOr B (crtLoop b m i (a.drop i) x l) (LoopPostAny a b m) := by
  intro n
  induction n with
  | zero =>
    intro i x l hi h0 hl h1 h3 h4 h5 h6
    rw [List.drop_eq_nil_of_le (by omega)]
    unfold crtLoop
    rw [satOr_ok]
    have e : i = a.length := by omega
    subst e
    exact ⟨h0, hl, h1, h3, h4, h5, h6⟩
  | succ n ih =>
    intro i x l hi h0 hl h1 h3 h4 h5 h6
    obtain ⟨q1, q2, q3⟩ := hin
    have hia : i < a.length := by omega
    obtain ⟨p1, p2, p3, p4, p5, p6⟩ := q3 i hia
    rw [getD_cons_drop hia]
    unfold crtLoop
    rw [idx_getD (by omega), ok_bind, idx_getD (by omega), ok_bind]
    generalize hai : a.getD i 0 = ai at *
    generalize hbi : b.getD i 0 = bi at *
    generalize hmi : m.getD i 0 = mi at *
    refine satOr_bind ((crtStep_any (i64_in.2 (by omega)) hl h1 ?_).mono ?_)
    · intro hb
      obtain ⟨L, s1, s2, s3⟩ := hB hb
      have hlL : l ∣ L := h5 L fun j hj => (s3 j (by omega)).1
      have hdv : ∀ {v : Int}, v ∣ L → v.natAbs ≤ L.natAbs := fun hv =>
        Nat.le_of_dvd (by omega) (Int.natAbs_dvd_natAbs.2 hv)
      have hle := hdv hlL
      obtain ⟨t1, t2, t2', t3, t4⟩ := s3 i hia
      rw [hai] at t2 t2'
      rw [hbi] at t3 t4
      rw [hmi] at t1
      have t5 : (ai * L).natAbs ≤ 4611686018427387904 := by omega
      have g1 : (ai * l).natAbs ≤ (ai * L).natAbs := by
        rw [Int.natAbs_mul, Int.natAbs_mul]; exact Nat.mul_le_mul_left _ hle
      have g2 : ai = 0 ∨ (ai * x).natAbs < (ai * l).natAbs := by
        by_cases h : ai = 0
        · exact .inl h
        · refine .inr ?_
          rw [Int.natAbs_mul, Int.natAbs_mul]
          exact Nat.mul_lt_mul_of_pos_left h1 (by omega)
      have g3 : ai = 0 → ai * x = 0 := by rintro rfl; simp
      have g4 : (ai * x).natAbs ≤ 4611686018427387903 := by
        rcases g2 with h | h
        · rw [g3 h]; decide
        · omega
      have hm0 : mi ≠ 0 := by
        rintro rfl
        have := Int.zero_dvd.1 t1
        omega
      have g5 := hdv t1
      rw [show i64.mn = -9223372036854775808 by decide]
      simp only [i64_in]
      refine ⟨hm0, by omega, by omega, by omega, by omega, by omega, by omega, ?_⟩
      intro l' hl'
      have := hdv (hl' L hlL t1)
      omega
    · intro r hr
      rcases r with _ | ⟨x', l'⟩
      · simp only [satOr_ok]
        intro z hz
        refine hr z ((h6 z).2 fun j hj => hz j (by omega)) ?_
        have := hz i hia
        rwa [hai, hbi, hmi] at this
      · obtain ⟨r0, r1, r2, r4, r5, r6, r7, r8⟩ := hr
        simp only []
        refine ih (i + 1) x' l' (by omega) ?_ r1 r2 r4 r5 ?_ ?_
        · intro j hj
          rcases Nat.lt_succ_iff_lt_or_eq.1 hj with h | rfl
          · exact h0 j h
          · rw [hmi]; exact r0
        · intro L hL
          refine r7 L (h5 L fun j hj => hL j (by omega)) ?_
          have := hL i (by omega)
          rwa [hmi] at this
        · intro z
          rw [r8, h6]
          constructor
          · rintro ⟨u1, u2⟩ j hj
            rcases Nat.lt_succ_iff_lt_or_eq.1 hj with h | rfl
            · exact u1 j h
            · rw [hai, hbi, hmi]; exact u2
          · intro u
            refine ⟨fun j hj => u j (by omega), ?_⟩
            have := u i (by omega)
            rwa [hai, hbi, hmi] at this

/-- What `ex_crt` returns. -/
def CrtPostAny (a b m : List Int) : Option (Int × Int) → Prop
  | none => ∀ z, ¬ CongrSol a b m z
  | some (x, l) => (∀ j < a.length, m.getD j 0 ≠ 0) ∧ ((0 ≤ x ∧ x < l) ∨ (l < x ∧ x ≤ 0)) ∧
      ∀ z, CongrSol a b m z ↔ ∃ k, z = x + k * l

theorem exCrt_any {B : Prop} {a b m : List Int} (hin : CongrAny a b m)
    (hB : ¬ B → ∃ L, CongrSmallAny a b m L) : SatOr B (exCrt a b m) (CrtPostAny a b m) := by
  unfold exCrt
  have h := crtLoop_any hin hB a.length 0 0 1 (by omega) (fun j hj => absurd hj (by omega)) (by decide)
    (by decide) (by decide) (by decide) (fun L _ => Int.one_dvd L)
    (fun z => ⟨fun _ j hj => absurd hj (by omega), fun _ => Int.one_dvd _⟩)
  rw [List.drop_zero] at h
  refine satOr_bind (h.mono ?_)
  rintro (_ | ⟨x, l⟩) hr
  · simp only [satOr_ok]; exact hr
  obtain ⟨r0, r1, r2, r4, r5, r6, r7⟩ := hr
  simp only []
  have hsm : ¬ B → l.natAbs ≤ 4611686018427387904 := by
    intro hb
    obtain ⟨L, s1, s2, s3⟩ := hB hb
    have := Nat.le_of_dvd (by omega) (Int.natAbs_dvd_natAbs.2 (r6 L fun j hj => (s3 j hj).1))
    omega
  refine satOr_bind (ck_satOr ?_ fun hs => ?_)
  · intro hb
    have := hsm hb
    rw [i64_in]; omega
  have hr := i64_in.1 hs
  rw [rem_ok r1 (fun h => by
      have h1 : x + l = -9223372036854775808 := h.2.1.trans (by decide)
      have h2 := h.2.2
      omega), ok_bind, satOr_ok]
  have he := Int.mul_tdiv_add_tmod (x + l) l
  refine ⟨r0, ?_, fun z => ?_⟩
  · have h1 := natAbs_tmod_lt (x + l) r1
    rcases Int.lt_or_lt_of_ne r1 with h | h
    · right
      have h2 := Int.tmod_nonneg l (a := -(x + l)) (by omega)
      rw [Int.neg_tmod] at h2
      omega
    · left
      have h2 := Int.tmod_nonneg l (a := x + l) (by omega)
      omega
  rw [← r7]
  constructor
  · rintro ⟨k, hk⟩
    exact ⟨k - 1 + (x + l).tdiv l, by linear_combination hk - he⟩
  · rintro ⟨k, rfl⟩
    exact ⟨k + 1 - (x + l).tdiv l, by linear_combination he⟩

theorem nodiv_bind {α β : Type} {x : Res α} {f : α → Res β} (h : x ≠ .diverge) (h' : ∀ v, f v ≠ .diverge) :
    x >>= f ≠ .diverge := by
  rcases x with v | _ | _
  · exact h' v
  · exact fun h => by cases h
  · exact absurd rfl h

theorem ck_nodiv {ty : IntTy} {v : Int} : ty.ck v ≠ .diverge := by
  by_cases h : ty.In v
  · rw [IntTy.ck_of h]; exact fun h => by cases h
  · rw [IntTy.ck_panic h]; exact fun h => by cases h

theorem rem_nodiv {ty : IntTy} {a b : Int} : ty.rem a b ≠ .diverge := by
  unfold IntTy.rem
  split
  · exact fun h => by cases h
  split
  · exact fun h => by cases h
  · exact fun h => by cases h

theorem div_nodiv {ty : IntTy} {a b : Int} : ty.div a b ≠ .diverge := by
  unfold IntTy.div
  split
  · exact fun h => by cases h
  · exact ck_nodiv

theorem crtStep_nodiv {a b m x l : Int} (hm : i64.In m) : crtStep a b m x l ≠ .diverge := by
  unfold crtStep
  by_cases ha : i64.In (a * l)
  swap
  · rw [IntTy.ck_panic ha]; exact fun h => by cases h
  rw [IntTy.ck_of ha, ok_bind]
  refine nodiv_bind ck_nodiv fun _ => nodiv_bind ck_nodiv fun _ => ?_
  refine nodiv_bind ?_ fun ⟨y, w, g⟩ => nodiv_bind rem_nodiv fun r => ?_
  · by_cases hmin : MinNeg i64 (a * l) m
    · rw [exGcd_minNeg hmin]; exact fun h => by cases h
    · obtain ⟨r, he, _⟩ := exGcd_sat (ty := i64) rfl (by decide) ha hm hmin
      rw [he]; exact fun h => by cases h
  split
  · exact fun h => by cases h
  refine nodiv_bind div_nodiv fun _ => nodiv_bind div_nodiv fun _ => nodiv_bind ck_nodiv fun _ => ?_
  refine nodiv_bind rem_nodiv fun _ => nodiv_bind ck_nodiv fun _ => nodiv_bind ck_nodiv fun _ => ?_
  exact nodiv_bind ck_nodiv fun _ h => by cases h

theorem crtLoop_short {b m : List Int} (hmi : ∀ v ∈ m, i64.In v) : ∀ (as : List Int) (i k : Nat) (x l : Int),
    k < as.length → b.length ≤ i + k ∨ m.length ≤ i + k →
    crtLoop b m i as x l = .panic ∨
      (crtLoop b m i as x l = ok none ∧ crtLoop b m i (as.take k) x l = ok none)
  | [], _, _, _, _, h, _ => absurd h (by simp)
  | a :: as, i, k, x, l, h, hs => by
    unfold crtLoop
    by_cases hb : i < b.length
    · rw [idx_getD hb, ok_bind]
      by_cases hm : i < m.length
      · rw [idx_getD hm, ok_bind]
        rcases k with _ | k
        · omega
        rw [List.take_succ_cons]
        simp only [idx_getD hb, idx_getD hm, ok_bind]
        have hmem : m.getD i 0 ∈ m := by
          rw [List.getD_eq_getElem?_getD, List.getElem?_eq_getElem hm]
          exact List.getElem_mem hm
        have hnd := crtStep_nodiv (a := a) (b := b.getD i 0) (x := x) (l := l) (hmi _ hmem)
        generalize crtStep a (b.getD i 0) (m.getD i 0) x l = st at hnd ⊢
        rcases st with (_ | ⟨x', l'⟩) | _ | _
        · exact .inr ⟨rfl, rfl⟩
        · exact crtLoop_short hmi as (i + 1) k x' l' (by simpa using h) (by omega)
        · exact .inl rfl
        · exact absurd rfl hnd
      · rw [idx_panic (l := m) (by omega)]; exact .inl rfl
    · rw [idx_panic (l := b) (by omega)]; exact .inl rfl

end Verif.NTP
