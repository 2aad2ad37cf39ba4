import Verif.Proof.IsPrime
import Mathlib.RingTheory.IntegralDomain
import Mathlib.NumberTheory.LucasPrimality
/-! `primitive_root` returns the least primitive root. -/
namespace Verif.IMP
open Model Res NTP Spec

/-! ### Primitive roots in `ZMod m` -/

theorem cast_pow_eq {m g k x : Nat} (hx : x < m) : ((g : ZMod m) ^ k = (x : ZMod m)) ↔ g ^ k % m = x := by
  have h : ((g : ZMod m) ^ k = (x : ZMod m)) ↔ (((g ^ k : Nat) : ZMod m) = (x : ZMod m)) := by push_cast; rfl
  rw [h, ZMod.natCast_eq_natCast_iff]
  unfold Nat.ModEq
  rw [Nat.mod_eq_of_lt hx]

theorem root_iff {m g : Nat} (hm : m.Prime) (h1 : 1 ≤ g) (h2 : g < m) :
    IsPrimitiveRootMod m g ↔ ∀ q, q.Prime → q ∣ m - 1 → g ^ ((m - 1) / q) % m ≠ 1 := by
  haveI := Fact.mk hm
  have hm2 := hm.two_le
  have hg0 : (g : ZMod m) ≠ 0 := by
    rw [Ne, ZMod.natCast_eq_zero_iff]
    exact fun h => by have := Nat.le_of_dvd (by omega) h; omega
  have hcard : Nat.card (ZMod m)ˣ = m - 1 := by rw [Nat.card_eq_fintype_card, ZMod.card_units]
  let u : (ZMod m)ˣ := Units.mk0 (g : ZMod m) hg0
  have hu : ∀ k : Nat, ((u ^ k : (ZMod m)ˣ) : ZMod m) = (g : ZMod m) ^ k := fun k => by simp [u]
  have hone : ∀ k, u ^ k = 1 ↔ g ^ k % m = 1 := by
    intro k
    rw [← cast_pow_eq (show 1 < m by omega), ← hu, ← Units.val_inj]
    simp
  constructor
  · intro h q hq hd he
    have hpow : ∀ v : (ZMod m)ˣ, v ∈ Submonoid.powers u := by
      intro v
      obtain ⟨k, hk⟩ := h (v : ZMod m).val (by
        rw [Nat.one_le_iff_ne_zero, Ne, ZMod.val_eq_zero]; exact v.ne_zero) (ZMod.val_lt _)
      refine ⟨k, ?_⟩
      rw [← Units.val_inj]
      simp only
      rw [hu, (cast_pow_eq (ZMod.val_lt _)).2 hk, ZMod.natCast_zmod_val]
    have hord := orderOf_eq_card_of_forall_mem_powers hpow
    rw [hcard] at hord
    have := orderOf_dvd_of_pow_eq_one ((hone _).2 he)
    rw [hord] at this
    have h3 : 0 < (m - 1) / q := Nat.div_pos (Nat.le_of_dvd (by omega) hd) hq.pos
    have h4 := Nat.le_of_dvd h3 this
    have h5 := Nat.div_lt_self (show 0 < m - 1 by omega) hq.one_lt
    omega
  · intro h x hx1 hxm
    have hord : orderOf u = m - 1 := by
      refine orderOf_eq_of_pow_and_pow_div_prime (by omega) ?_ ?_
      · rw [← hcard]; exact pow_card_eq_one'
      · intro q hq hd he
        exact h q hq hd ((hone _).1 he)
    have htop : Subgroup.zpowers u = ⊤ := by
      apply Subgroup.eq_top_of_card_eq
      rw [Nat.card_zpowers, hord, hcard]
    have hx0 : (x : ZMod m) ≠ 0 := by
      rw [Ne, ZMod.natCast_eq_zero_iff]
      exact fun h => by have := Nat.le_of_dvd (by omega) h; omega
    have hmem : Units.mk0 (x : ZMod m) hx0 ∈ Submonoid.powers u := by
      rw [mem_powers_iff_mem_zpowers, htop]; exact Subgroup.mem_top _
    obtain ⟨k, hk⟩ := hmem
    refine ⟨k, (cast_pow_eq hxm).1 ?_⟩
    rw [← hu]
    have := congrArg Units.val hk
    simpa using this

theorem root_exists {m : Nat} (hm : m.Prime) : ∃ g, 1 ≤ g ∧ g < m ∧ IsPrimitiveRootMod m g := by
  haveI := Fact.mk hm
  have hm2 := hm.two_le
  obtain ⟨u, hu⟩ := IsCyclic.exists_monoid_generator (α := (ZMod m)ˣ)
  refine ⟨(u : ZMod m).val, ?_, ZMod.val_lt _, ?_⟩
  · rw [Nat.one_le_iff_ne_zero, Ne, ZMod.val_eq_zero]; exact u.ne_zero
  · intro x hx1 hxm
    have hx0 : (x : ZMod m) ≠ 0 := by
      rw [Ne, ZMod.natCast_eq_zero_iff]
      exact fun h => by have := Nat.le_of_dvd (by omega) h; omega
    obtain ⟨k, hk⟩ := hu (Units.mk0 (x : ZMod m) hx0)
    refine ⟨k, (cast_pow_eq hxm).1 ?_⟩
    rw [ZMod.natCast_zmod_val]
    have := congrArg Units.val hk
    simpa using this

/-! ### The divisors -/

theorem i32_in {v : Int} : i32.In v ↔ -2147483648 ≤ v ∧ v ≤ 2147483647 := by
  unfold IntTy.In
  rw [show i32.mn = -2147483648 by decide, show i32.mx = 2147483647 by decide]

theorem natRem (a b : Nat) : ((a : Int)).tmod b = ((a % b : Nat) : Int) := by
  rw [Int.tmod_eq_emod_of_nonneg (by omega)]; simp

theorem natDiv (a b : Nat) : ((a : Int)).tdiv b = ((a / b : Nat) : Int) := by
  rw [Int.tdiv_eq_ediv_of_nonneg (by omega)]; simp

theorem rem32 {a b : Nat} (hb : b ≠ 0) : i32.rem a b = ok ((a % b : Nat) : Int) := by
  rw [rem_ok (by omega) (fun h => by have := h.2.2; omega), natRem]

theorem div32 {a b : Nat} (hb : b ≠ 0) (ha : a < 2 ^ 31) (hb2 : b < 2 ^ 31) : i32.div a b = ok ((a / b : Nat) : Int) := by
  rw [div_ok (i32_in.2 (by omega)) (i32_in.2 (by omega)) (by omega) (fun h => by have := h.2.2; omega), natDiv]

theorem divOut_sat {x i : Nat} (hx0 : 0 < x) (hx : x < 2 ^ 31) (hi : 2 ≤ i) (hi2 : i < 2 ^ 31) :
    Sat (divOut x i) (fun r => ∃ y : Nat, r = y ∧ 0 < y ∧ (∃ e, x = y * i ^ e) ∧ ¬ i ∣ y) := by
  unfold divOut
  refine loop_satG (σ := Int) (fun r k => ∃ y : Nat, r = y ∧ 0 < y ∧ (∃ e, x = y * i ^ e) ∧ y < 2 ^ k) _ ?_ _ _ 31
    ⟨x, rfl, hx0, ⟨0, by simp⟩, hx⟩ (by omega)
  rintro r k ⟨y, rfl, h1, ⟨e, h2⟩, h3⟩
  have hyx : y ≤ x := by
    rw [h2]; exact Nat.le_mul_of_pos_right _ (Nat.pow_pos (by omega))
  unfold divOutStep
  rw [rem32 (by omega), ok_bind]
  by_cases h : y % i = 0
  · rw [if_pos (by omega), div32 (by omega) (by omega) hi2, ok_bind, sat_ok]
    have hdv := Nat.dvd_of_mod_eq_zero h
    have hyi : y / i * i = y := Nat.div_mul_cancel hdv
    have hpos : 0 < y / i := Nat.div_pos (Nat.le_of_dvd h1 hdv) (by omega)
    have hhalf : y / i * 2 ≤ y := by
      calc y / i * 2 ≤ y / i * i := Nat.mul_le_mul_left _ hi
        _ = y := hyi
    rcases k with _ | k
    · simp at h3; omega
    refine ⟨k, by omega, y / i, rfl, hpos, ⟨e + 1, ?_⟩, ?_⟩
    · rw [Nat.pow_succ, Nat.mul_comm (i ^ e) i, ← Nat.mul_assoc, hyi]; exact h2
    · rw [Nat.pow_succ] at h3; omega
  · rw [if_neg (by omega), sat_ok]
    exact ⟨y, rfl, h1, ⟨e, h2⟩, fun hd => h (Nat.mod_eq_zero_of_dvd hd)⟩

/-- The first `cnt` entries of `divs` are prime divisors of `N`, and every prime divisor of `N` is among
them or divides `x`. -/
def DivInv (N : Nat) (divs : List Int) (cnt x : Nat) : Prop :=
  divs.length = 20 ∧ 1 ≤ cnt ∧ cnt ≤ 20 ∧ 0 < x ∧ 3 ^ (cnt - 1) * x < 2 ^ 30 ∧ x ∣ N ∧
  (∀ j < cnt, ∃ q : Nat, divs[j]? = some (q : Int) ∧ q.Prime ∧ q ∣ N) ∧
  ∀ q : Nat, q.Prime → q ∣ N → q ∣ x ∨ ∃ j < cnt, divs[j]? = some (q : Int)

theorem three_pow_lt {k : Nat} (h : 3 ^ k < 2 ^ 30) : k < 19 := by
  by_contra hc
  have : 3 ^ 19 ≤ 3 ^ k := Nat.pow_le_pow_right (by decide) (by omega)
  norm_num at this h
  omega

/-- Push the prime `p` and strip it from `x`. -/
theorem DivInv.push {N : Nat} {divs : List Int} {cnt x p y : Nat} (h : DivInv N divs cnt x) (hp : p.Prime)
    (hp3 : 3 ≤ p) (hpx : p ∣ x) (hy0 : 0 < y) (hy : ∃ e, x = y * p ^ e) (hpy : ¬ p ∣ y) :
    cnt < 20 ∧ DivInv N (divs.set cnt (p : Int)) (cnt + 1) y := by
  obtain ⟨h1, h2, h3, h4, h5, h6, h7, h8⟩ := h
  obtain ⟨e, he⟩ := hy
  have he1 : 1 ≤ e := by
    rcases e with _ | e
    · simp at he; rw [he] at hpx; exact absurd hpx hpy
    · omega
  have hpe : 3 ≤ p ^ e := by
    calc 3 ≤ p := hp3
      _ = p ^ 1 := by simp
      _ ≤ p ^ e := Nat.pow_le_pow_right (by omega) he1
  have hyx : y ∣ x := ⟨p ^ e, he⟩
  have h3y : 3 * y ≤ x := by rw [he]; nlinarith
  have hb : 3 ^ (cnt + 1 - 1) * y < 2 ^ 30 := by
    have e1 : 3 ^ (cnt + 1 - 1) * y = 3 ^ (cnt - 1) * (3 * y) := by
      obtain ⟨c, rfl⟩ : ∃ c, cnt = c + 1 := ⟨cnt - 1, by omega⟩
      simp only [Nat.add_sub_cancel]
      rw [Nat.pow_succ]; ring
    rw [e1]
    exact lt_of_le_of_lt (Nat.mul_le_mul_left _ h3y) h5
  have hc : cnt < 19 := by
    apply three_pow_lt
    have : 3 ^ cnt ≤ 3 ^ cnt * y := Nat.le_mul_of_pos_right _ hy0
    simp only [Nat.add_sub_cancel] at hb
    omega
  refine ⟨by omega, by simpa using h1, by omega, by omega, hy0, hb, hyx.trans h6, ?_, ?_⟩
  · intro j hj
    by_cases hjc : j = cnt
    · subst hjc
      refine ⟨p, ?_, hp, hpx.trans h6⟩
      rw [List.getElem?_set_self (by omega)]
    · obtain ⟨q, hq⟩ := h7 j (by omega)
      exact ⟨q, by rw [List.getElem?_set_ne (by omega)]; exact hq.1, hq.2⟩
  · intro q hq hqN
    rcases h8 q hq hqN with h | ⟨j, hj, hd⟩
    · rw [he] at h
      rcases hq.dvd_mul.1 h with h | h
      · exact .inl h
      · have := (Nat.prime_dvd_prime_iff_eq hq hp).1 (hq.dvd_of_dvd_pow h)
        subst this
        exact .inr ⟨cnt, by omega, by rw [List.getElem?_set_self (by omega)]⟩
    · exact .inr ⟨j, by omega, by rw [List.getElem?_set_ne (by omega)]; exact hd⟩

theorem trial_sat {N : Nat} {divs : List Int} {x : Nat} (h : DivInv N divs 1 x) (hodd : ¬ 2 ∣ x) (hx : x < 2 ^ 31) :
    Sat (loop 65536 ((3, (x : Int), divs, 1) : Int × Int × List Int × Nat) trialStep) (fun r =>
      ∃ y : Nat, r.1 = y ∧ y < 2 ^ 31 ∧ DivInv N r.2.1 r.2.2 y ∧ (y = 1 ∨ (y.Prime ∧ 3 ≤ y))) := by
  refine loop_satG (σ := Int × Int × List Int × Nat) (fun s k => ∃ i y : Nat, s.1 = i ∧ s.2.1 = y ∧ y < 2 ^ 31 ∧
    DivInv N s.2.2.1 s.2.2.2 y ∧ 3 ≤ i ∧ i % 2 = 1 ∧ i ≤ 46400 ∧ k = 46400 - i ∧
    ∀ q : Nat, q.Prime → q ∣ y → i ≤ q) _ ?_ _ _ 46397 ?_ (by omega)
  swap
  · refine ⟨3, x, rfl, rfl, hx, h, by omega, by omega, by omega, rfl, ?_⟩
    intro q hq hqx
    have := hq.two_le
    by_contra hc
    have : q = 2 := by omega
    subst this
    exact hodd hqx
  rintro ⟨_, _, divs, cnt⟩ k ⟨i, y, rfl, rfl, hy, hinv, hi3, hiodd, hi46, rfl, hq⟩
  simp only at hinv
  unfold trialStep
  simp only []
  rw [if_neg (by omega)]
  have hii : ((i : Int) * i) = ((i * i : Nat) : Int) := by push_cast; rfl
  have hib : i * i ≤ 46400 * 46400 := Nat.mul_le_mul hi46 hi46
  rw [hii, IntTy.ck_of (i64_in.2 (by omega)), ok_bind]
  by_cases hex : y < i * i
  · rw [if_pos (by omega), sat_ok]
    refine ⟨y, rfl, hy, hinv, ?_⟩
    by_cases hy1 : y = 1
    · exact .inl hy1
    right
    have hmp := Nat.minFac_prime hy1
    have h1 := hq _ hmp (Nat.minFac_dvd y)
    have hprime : y.Prime := by
      by_contra hnp
      have := Nat.minFac_sq_le_self hinv.2.2.2.1 hnp
      have : i * i ≤ y.minFac ^ 2 := by rw [Nat.pow_two]; exact Nat.mul_le_mul h1 h1
      omega
    refine ⟨hprime, ?_⟩
    have := hq y hprime (dvd_refl y)
    omega
  rw [if_neg (by omega), rem32 (by omega), ok_bind]
  have hi2 : i ≤ 46340 := by
    by_contra hc
    have : 46341 * 46341 ≤ i * i := Nat.mul_le_mul (by omega) (by omega)
    omega
  have hnext : ∀ q : Nat, q.Prime → i ≤ q → q ≠ i → i + 2 ≤ q := by
    intro q hqp h1 h2
    by_contra hc
    have h3 : q = i + 1 := by omega
    have h4 := hqp.eq_two_or_odd
    omega
  by_cases hd : y % i = 0
  · have hdv := Nat.dvd_of_mod_eq_zero hd
    have hip : i.Prime := by
      have h1 := Nat.minFac_prime (n := i) (by omega)
      have h2 := hq _ h1 ((Nat.minFac_dvd i).trans hdv)
      have h3 := Nat.minFac_le (n := i) (by omega)
      have : i.minFac = i := by omega
      rw [← this]; exact h1
    rw [if_pos (by omega)]
    have hdo := divOut_sat (x := y) (i := i) hinv.2.2.2.1 hy (by omega) (by omega)
    obtain ⟨r, hr, z, rfl, z1, z2, z3⟩ := hdo
    obtain ⟨c1, c2⟩ := hinv.push hip hi3 hdv z1 z2 z3
    rw [upd_of_lt (by rw [hinv.1]; exact c1), ok_bind, addU_of_lt (by omega), ok_bind, hr, ok_bind, sat_ok]
    have hzy : z ∣ y := ⟨i ^ z2.choose, z2.choose_spec⟩
    refine ⟨46400 - (i + 2), by omega, i + 2, z, by simp, rfl, ?_, c2, by omega, by omega, by omega, rfl, ?_⟩
    · have := Nat.le_of_dvd hinv.2.2.2.1 hzy; omega
    · intro q hqp hqz
      refine hnext q hqp (hq q hqp (hqz.trans hzy)) ?_
      rintro rfl
      exact z3 hqz
  · rw [if_neg (by omega), sat_ok]
    refine ⟨46400 - (i + 2), by omega, i + 2, y, by simp, rfl, hy, hinv, by omega, by omega, by omega, rfl, ?_⟩
    intro q hqp hqy
    refine hnext q hqp (hq q hqp hqy) ?_
    rintro rfl
    exact hd (Nat.mod_eq_zero_of_dvd hqy)

theorem rootDivs_sat {m : Nat} (hm3 : 3 ≤ m) (hm2 : m < 2 ^ 31) :
    Sat (rootDivs m) (fun r => r.1.length = 20 ∧ r.2 ≤ 20 ∧
      (∀ j < r.2, ∃ q : Nat, r.1[j]? = some (q : Int) ∧ q.Prime ∧ q ∣ 2 * ((m - 1) / 2)) ∧
      ∀ q : Nat, q.Prime → q ∣ 2 * ((m - 1) / 2) → ∃ j < r.2, r.1[j]? = some (q : Int)) := by
  unfold rootDivs
  have hc : ((m : Int) - 1) = ((m - 1 : Nat) : Int) := by omega
  have h2 : ((2 : Nat) : Int) = 2 := rfl
  rw [IntTy.ck_of (i32_in.2 (by omega)), ok_bind, hc, ← h2, div32 (by omega) (by omega) (by omega), ok_bind, sat_bind]
  obtain ⟨r, hr, x, rfl, x0, ⟨e, he⟩, hx2⟩ := divOut_sat (x := (m - 1) / 2) (i := 2) (by omega) (by omega) (by omega) (by omega)
  rw [hr, sat_ok, sat_bind]
  have hxl : x ≤ (m - 1) / 2 := by
    rw [he]; exact Nat.le_mul_of_pos_right _ (Nat.two_pow_pos e)
  have hinit : DivInv (2 * ((m - 1) / 2)) ((List.replicate 20 (0 : Int)).set 0 2) 1 x := by
    refine ⟨by simp, by omega, by omega, x0, by simp; omega, ?_, ?_, ?_⟩
    · rw [he]; exact ⟨2 * 2 ^ e, by ring⟩
    · intro j hj
      have : j = 0 := by omega
      subst this
      exact ⟨2, by simp, Nat.prime_two, ⟨(m - 1) / 2, rfl⟩⟩
    · intro q hq hqd
      rw [he] at hqd
      rcases hq.dvd_mul.1 hqd with h | h
      · exact .inr ⟨0, by omega, by
          have := (Nat.prime_dvd_prime_iff_eq hq Nat.prime_two).1 h
          subst this; simp⟩
      · rcases hq.dvd_mul.1 h with h | h
        · exact .inl h
        · exact .inr ⟨0, by omega, by
            have := (Nat.prime_dvd_prime_iff_eq hq Nat.prime_two).1 (hq.dvd_of_dvd_pow h)
            subst this; simp⟩
  refine (trial_sat hinit hx2 (by omega)).mono ?_
  rintro ⟨_, divs, cnt⟩ ⟨y, rfl, hy, hinv, hfin⟩
  simp only at hinv ⊢
  by_cases hy1 : y = 1
  · subst hy1
    rw [if_neg (by omega), sat_ok]
    obtain ⟨i1, i2, i3, i4, i5, i6, i7, i8⟩ := hinv
    refine ⟨i1, i3, i7, fun q hq hqd => ?_⟩
    rcases i8 q hq hqd with h | h
    · exact absurd (Nat.dvd_one.1 h) hq.one_lt.ne'
    · exact h
  · obtain ⟨hyp, hy3⟩ := hfin.resolve_left hy1
    obtain ⟨c1, c2⟩ := hinv.push hyp hy3 (dvd_refl y) Nat.one_pos ⟨1, by simp⟩ (by
      intro h; exact hy1 (Nat.dvd_one.1 h))
    rw [if_pos (by omega), upd_of_lt (by rw [hinv.1]; exact c1), ok_bind, addU_of_lt (by omega), ok_bind, sat_ok]
    obtain ⟨i1, i2, i3, i4, i5, i6, i7, i8⟩ := c2
    refine ⟨i1, i3, i7, fun q hq hqd => ?_⟩
    rcases i8 q hq hqd with h | h
    · exact absurd (Nat.dvd_one.1 h) hq.one_lt.ne'
    · exact h

/-! ### The search -/

theorem rootTest_sat {m g : Nat} (hm3 : 3 ≤ m) (hm2 : m < 2 ^ 31) (hg : g < 2 ^ 31) {divs : List Int} :
    ∀ (k i : Nat), (∀ j, i ≤ j → j < i + k → ∃ q : Nat, divs[j]? = some (q : Int) ∧ q.Prime ∧ q ≤ m - 1) →
      Sat (rootTest m g divs k i) (fun b => b = true ↔
        ∀ j, i ≤ j → j < i + k → ∀ q : Nat, divs[j]? = some (q : Int) → g ^ ((m - 1) / q) % m ≠ 1) := by
  intro k
  induction k with
  | zero =>
    intro i _
    unfold rootTest
    rw [sat_ok]
    simp only [true_iff]
    intro j h1 h2; omega
  | succ k ih =>
    intro i h
    unfold rootTest
    obtain ⟨q, hq, hqp, hql⟩ := h i (by omega) (by omega)
    have hc : ((m : Int) - 1) = ((m - 1 : Nat) : Int) := by omega
    have := hqp.two_le
    rw [IntTy.ck_of (i32_in.2 (by omega)), ok_bind, idx_of_some hq, ok_bind, hc,
      div32 (by omega) (by omega) (by omega), ok_bind]
    have hlt : (m - 1) / q < 2 ^ 63 := by
      have := Nat.div_le_self (m - 1) q
      omega
    rw [powMod_eq (i64_in.2 (by omega)) hlt (by omega) hm2, ok_bind]
    have hcast : ((g : Int) ^ ((m - 1) / q) % (m : Int)) = ((g ^ ((m - 1) / q) % m : Nat) : Int) := by push_cast; rfl
    rw [hcast]
    by_cases hz : g ^ ((m - 1) / q) % m = 1
    · rw [if_neg (by omega), sat_ok]
      simp only [Bool.false_eq_true, false_iff]
      intro hall
      exact hall i (by omega) (by omega) q hq hz
    · rw [if_pos (by omega)]
      refine (ih (i + 1) fun j h1 h2 => h j (by omega) (by omega)).mono ?_
      intro b hb
      rw [hb]
      constructor
      · intro hall j h1 h2 q' hq'
        by_cases hji : j = i
        · subst hji
          rw [hq] at hq'
          have : q = q' := by injection hq' with hq'; omega
          subst this; exact hz
        · exact hall j (by omega) (by omega) q' hq'
      · intro hall j h1 h2
        exact hall j (by omega) (by omega)

theorem one_not_root {m : Nat} (hm3 : 3 ≤ m) : ¬ IsPrimitiveRootMod m 1 := by
  intro h
  obtain ⟨k, hk⟩ := h 2 (by omega) (by omega)
  rw [Nat.one_pow, Nat.mod_eq_of_lt (by omega)] at hk
  omega

theorem rootSearch_gen {m g0 : Nat} (hm3 : 3 ≤ m) (hm2 : m < 2 ^ 31) (h20 : 2 ≤ g0) (hg0 : g0 < m)
    (ht0 : PassesRootTest m g0) :
    Sat (rootSearch m) (fun r => ∃ g : Nat, r = g ∧ 2 ≤ g ∧ g ≤ g0 ∧ PassesRootTest m g ∧
      ∀ g', 2 ≤ g' → g' < g → ¬ PassesRootTest m g') := by
  unfold rootSearch
  rw [sat_bind]
  refine (rootDivs_sat hm3 hm2).mono ?_
  rintro ⟨divs, cnt⟩ ⟨d1, d2, d3, d4⟩
  simp only at d1 d2 d3 d4 ⊢
  refine loop_satG (σ := Int) (fun s k => ∃ g : Nat, s = g ∧ 2 ≤ g ∧ g ≤ g0 ∧ k = m - g ∧
    ∀ g', 2 ≤ g' → g' < g → ¬ PassesRootTest m g') _ ?_ _ _ (m - 2) ?_ (by omega)
  swap
  · exact ⟨2, rfl, by omega, h20, rfl, fun g' h1 h2 => by omega⟩
  rintro _ k ⟨g, rfl, h1, h2, rfl, h3⟩
  unfold rootStep
  rw [sat_bind]
  refine (rootTest_sat hm3 hm2 (show g < 2 ^ 31 by omega) cnt 0 fun j _ hj => by
    obtain ⟨q, e1, e2, e3⟩ := d3 j (by omega)
    exact ⟨q, e1, e2, by have := Nat.le_of_dvd (by omega) e3; omega⟩).mono ?_
  intro b hb
  have hb' : b = true ↔ PassesRootTest m g := by
    rw [hb]
    constructor
    · intro h q hq hd
      obtain ⟨j, hj, hjq⟩ := d4 q hq hd
      exact h j (by omega) (by omega) q hjq
    · intro h j _ hj q hq
      obtain ⟨q', hq', hp', hd'⟩ := d3 j (by omega)
      rw [hq] at hq'
      have : q = q' := by injection hq' with hq'; omega
      subst this
      exact h q hp' hd'
  rcases b with _ | _
  · rw [if_neg (by simp)]
    have hno : ¬ PassesRootTest m g := fun h => by simpa using hb'.2 h
    have hne : g ≠ g0 := by rintro rfl; exact hno ht0
    rw [IntTy.ck_of (i64_in.2 (by omega)), ok_bind, sat_ok]
    refine ⟨m - (g + 1), by omega, g + 1, by simp, by omega, by omega, rfl, ?_⟩
    intro g' a1 a2
    rcases Nat.lt_succ_iff_lt_or_eq.1 a2 with h | rfl
    · exact h3 g' a1 h
    · exact hno
  · rw [if_pos rfl, sat_ok]
    refine ⟨g, ?_, by omega, by omega, hb'.1 rfl, h3⟩
    unfold asI32
    norm_num
    omega

/-- For an odd prime the test characterises the primitive roots. -/
theorem passes_iff {m g : Nat} (hm : m.Prime) (hm3 : 3 ≤ m) (h1 : 1 ≤ g) (h2 : g < m) :
    PassesRootTest m g ↔ IsPrimitiveRootMod m g := by
  rw [root_iff hm h1 h2]
  have hodd : m % 2 = 1 := by
    rcases hm.eq_two_or_odd with h | h <;> omega
  unfold PassesRootTest
  rw [show 2 * ((m - 1) / 2) = m - 1 by omega]

theorem rootSearch_sat {m : Nat} (hm : m.Prime) (hm3 : 3 ≤ m) (hm2 : m < 2 ^ 31) :
    Sat (rootSearch m) (fun r => ∃ g : Nat, r = g ∧ 1 ≤ g ∧ g < m ∧ IsPrimitiveRootMod m g ∧
      ∀ g', 1 ≤ g' → g' < g → ¬ IsPrimitiveRootMod m g') := by
  obtain ⟨g0, hg1, hg2, hg3⟩ := root_exists hm
  have h20 : 2 ≤ g0 := by
    by_contra hc
    have : g0 = 1 := by omega
    subst this
    exact one_not_root hm3 hg3
  refine (rootSearch_gen hm3 hm2 h20 hg2 ((passes_iff hm hm3 hg1 hg2).2 hg3)).mono ?_
  rintro _ ⟨g, rfl, a1, a2, a3, a4⟩
  refine ⟨g, rfl, by omega, by omega, (passes_iff hm hm3 (by omega) (by omega)).1 a3, ?_⟩
  intro g' b1 b2 h
  by_cases hg : g' = 1
  · subst hg; exact one_not_root hm3 h
  · exact a4 g' (by omega) b2 ((passes_iff hm hm3 (by omega) (by omega)).2 h)

/-- The table of constants agrees with the search. -/
theorem primitiveRoot_eq_search {m : Int} (h2 : m ≠ 2) : primitiveRoot m = rootSearch m := by
  unfold primitiveRoot
  rw [if_neg h2]
  split
  · rename_i h; rw [h]; decide +kernel
  split
  · rename_i h; rw [h]; decide +kernel
  split
  · rename_i h; rw [h]; decide +kernel
  split
  · rename_i h; rw [h]; decide +kernel
  rfl

theorem primitiveRoot_sat {m : Nat} (hm : m.Prime) (hm2 : m < 2 ^ 31) :
    Sat (primitiveRoot m) (fun r => ∃ g : Nat, r = g ∧ 1 ≤ g ∧ g < m ∧ IsPrimitiveRootMod m g ∧
      ∀ g', 1 ≤ g' → g' < g → ¬ IsPrimitiveRootMod m g') := by
  by_cases h2 : m = 2
  · subst h2
    unfold primitiveRoot
    rw [if_pos (by rfl), sat_ok]
    refine ⟨1, rfl, by omega, by omega, ?_, fun g' _ _ => by omega⟩
    intro x h1 h2
    exact ⟨0, by omega⟩
  rw [primitiveRoot_eq_search (by omega)]
  exact rootSearch_sat hm (by have := hm.two_le; omega) hm2

end Verif.IMP
