import Verif.Proof.Sprp.Sound
import Mathlib.Data.Nat.Factorial.Basic
import Mathlib.Data.Nat.Prime.Factorial
/-! What the checks of the table mean, and the case of a large prime factor. -/
namespace Verif.Sprp
open Spec

theorem ordNe_true {p f : Nat} (h : ordNe p f = true) : ¬ (2 ^ f % p = 1 ∧ 7 ^ f % p = 1 ∧ 61 ^ f % p = 1) := by
  rintro ⟨h2, h7, h61⟩
  rcases if_of h with ⟨-, h⟩ | ⟨h, -⟩
  · rcases if_of h with ⟨-, h⟩ | ⟨h, -⟩
    · have := ne_of (not_of h)
      rw [pw_eq] at this
      exact this h61
    · have := ne_of h
      rw [pw_eq] at this
      exact this h7
  · have := ne_of h
    rw [pw_eq] at this
    exact this h2

theorem ordNe_false {p f : Nat} (h : ordNe p f = false) : 2 ^ f % p = 1 ∧ 7 ^ f % p = 1 ∧ 61 ^ f % p = 1 := by
  have h2 : Nat.beq (pw 2 f p) 1 = true := by
    by_contra hc
    rw [Bool.not_eq_true] at hc
    have : ordNe p f = true := by
      show (@Bool.rec (fun _ => Bool) true _ (Nat.beq (pw 2 f p) 1)) = true
      rw [hc]
    rw [this] at h; simp at h
  have h7 : Nat.beq (pw 7 f p) 1 = true := by
    by_contra hc
    rw [Bool.not_eq_true] at hc
    have : ordNe p f = true := by
      show (@Bool.rec (fun _ => Bool) true (@Bool.rec (fun _ => Bool) true _ (Nat.beq (pw 7 f p) 1))
        (Nat.beq (pw 2 f p) 1)) = true
      rw [hc, h2]
    rw [this] at h; simp at h
  have h61 : Nat.beq (pw 61 f p) 1 = true := by
    by_contra hc
    rw [Bool.not_eq_true] at hc
    have : ordNe p f = true := by
      show (@Bool.rec (fun _ => Bool) true (@Bool.rec (fun _ => Bool) true
        (@Bool.rec (fun _ => Bool) true false (Nat.beq (pw 61 f p) 1)) (Nat.beq (pw 7 f p) 1))
        (Nat.beq (pw 2 f p) 1)) = true
      rw [hc, h2, h7]
    rw [this] at h; simp at h
  have h2 := beq_of h2
  have h7 := beq_of h7
  have h61 := beq_of h61
  rw [pw_eq] at h2 h7 h61
  exact ⟨h2, h7, h61⟩

theorem factors_sound {p e : Nat} (fuel : Nat) : ∀ d r, factors p e fuel d r = true → d % 2 = 1 → r % 2 = 1 →
    (∀ l, l.Prime → l ∣ r → d ≤ l) → ∀ l, l.Prime → l ∣ r → ordNe p (e / l) = true := by
  induction fuel with
  | zero => intro d r h; exact absurd h (by simp [factors])
  | succ f ih =>
    intro d r h hd hr hall l hl hlr
    obtain ⟨r, rfl, h⟩ := pos_of h
    obtain ⟨d, rfl, h⟩ := pos_of h
    rcases if_of h with ⟨h1, h⟩ | ⟨-, h⟩
    · have h1 : r + 2 ≤ (d + 1) * (d + 1) := le_of h1
      rcases if_of h with ⟨h2, -⟩ | ⟨-, h⟩
      · have h2 : r + 1 = 1 := beq_of h2
        rw [h2] at hlr
        exact absurd (Nat.dvd_one.1 hlr) hl.one_lt.ne'
      · have : l = r + 1 := by
          obtain ⟨t, ht⟩ := hlr
          by_cases h1t : t = 1
          · rw [ht, h1t, Nat.mul_one]
          · exfalso
            obtain ⟨q, hq, hqt⟩ := Nat.exists_prime_and_dvd h1t
            have e1 := hall l hl ⟨t, ht⟩
            have e2 := hall q hq (ht ▸ Dvd.dvd.mul_left hqt l)
            have e3 : q ≤ t := Nat.le_of_dvd (Nat.pos_of_ne_zero (fun h0 => by rw [h0] at ht; omega)) hqt
            have e4 : (d + 1) * (d + 1) ≤ l * t := Nat.mul_le_mul e1 (e2.trans e3)
            omega
        rw [this]
        exact h
    · rcases if_of h with ⟨h1, h⟩ | ⟨h1, h⟩
      · have h1 : (r + 1) % (d + 1) = 0 := beq_of h1
        obtain ⟨h2, h⟩ := and_of h
        obtain ⟨t, ht⟩ := Nat.dvd_of_mod_eq_zero h1
        have et : Nat.div (Nat.succ r) (Nat.succ d) = t := by
          show (r + 1) / (d + 1) = t
          rw [ht, Nat.mul_div_cancel_left _ (by omega)]
        rw [et] at h
        have hlt : l ∣ (d + 1) * t := ht ▸ hlr
        rcases hl.dvd_mul.1 hlt with hld | hlt
        · have := Nat.le_of_dvd (by omega) hld
          have h3 := hall l hl hlr
          have : l = d + 1 := by omega
          rw [this]; exact h2
        · refine ih (d + 1) t h hd ?_ ?_ l hl hlt
          · rcases Nat.mod_two_eq_zero_or_one t with h0 | h0
            · rw [ht, Nat.mul_mod, h0] at hr; simp at hr
            · exact h0
          · intro q hq hqt
            exact hall q hq (ht ▸ Dvd.dvd.mul_left hqt _)
      · have h1 : (r + 1) % (d + 1) ≠ 0 := ne_of h1
        refine ih (d + 1 + 2) (r + 1) h (by omega) hr ?_ l hl hlr
        intro q hq hqr
        have h3 := hall q hq hqr
        have h4 : q ≠ d + 1 := fun e => h1 (Nat.mod_eq_zero_of_dvd (e ▸ hqr))
        have h5 : q % 2 = 1 := by
          rcases hq.eq_two_or_odd with h2 | h2
          · rw [h2] at hqr; omega
          · exact h2
        omega

theorem zpow_dvd {a k n p : Nat} (hp : 2 ≤ p) (hn : 2 ≤ n) (hpn : p ∣ n) (h : a ^ k % n = 1) : a ^ k % p = 1 := by
  have h1 : a ^ k % n % p = a ^ k % p := Nat.mod_mod_of_dvd _ hpn
  rw [← h1, h, Nat.mod_eq_of_lt (by omega)]

/-- Passing implies the three Fermat congruences. -/
theorem Pass.fermat {n : Nat} (h : Pass n) (hn : 2 ≤ n) :
    2 ^ (n - 1) % n = 1 ∧ 7 ^ (n - 1) % n = 1 ∧ 61 ^ (n - 1) % n = 1 :=
  ⟨fermat_of_strong hn h.1, fermat_of_strong hn h.2.1, fermat_of_strong hn h.2.2⟩

theorem wieferich {a n p : Nat} (hp : p.Prime) (hn : 2 ≤ n) (h : a ^ (n - 1) % n = 1) (hd : p * p ∣ n) :
    a ^ (p - 1) % (p * p) = 1 := by
  have hp2 := hp.two_le
  have hpp : 2 ≤ p * p := le_trans hp2 (Nat.le_mul_of_pos_left p hp.pos)
  have h1 := zpow_dvd hpp hn hd h
  have hpn : p ∣ n := (Dvd.intro p rfl).trans hd
  have hn1 : n - 1 ≠ 0 := by
    have := Nat.le_of_dvd (by omega) hpn
    have := Nat.le_of_dvd (by omega) hd
    omega
  have hcop : Nat.Coprime a (p * p) := by
    have h2 : Nat.gcd a (p * p) ∣ 1 := by
      have h3 : Nat.gcd a (p * p) ∣ a ^ (n - 1) % (p * p) := (Nat.dvd_mod_iff (Nat.gcd_dvd_right ..)).2
        ((Nat.gcd_dvd_left ..).trans (dvd_pow_self a hn1))
      rwa [h1] at h3
    exact Nat.dvd_one.1 h2
  rw [pow_eq_one_iff hpp] at h1 ⊢
  have h2 : (a : ZMod (p * p)) ^ (p * (p - 1)) = 1 := by
    have h3 := Nat.ModEq.pow_totient hcop
    have h4 : Nat.totient (p * p) = p * (p - 1) := by
      rw [← pow_two, Nat.totient_prime_pow hp (by omega)]; simp
    rw [h4] at h3
    have : a ^ (p * (p - 1)) % (p * p) = 1 := by
      rw [h3, Nat.mod_eq_of_lt (by omega)]
    rwa [pow_eq_one_iff hpp] at this
  have d1 := orderOf_dvd_of_pow_eq_one h1
  have d2 := orderOf_dvd_of_pow_eq_one h2
  apply orderOf_dvd_iff_pow_eq_one.1
  refine Nat.Coprime.dvd_of_dvd_mul_left ?_ d2
  apply Nat.Coprime.symm
  rw [Nat.Prime.coprime_iff_not_dvd hp]
  intro hpo
  have h5 := Nat.dvd_sub hpn (hpo.trans d1)
  rw [show n - (n - 1) = 1 by omega] at h5
  exact hp.one_lt.ne' (Nat.dvd_one.1 h5)

theorem entry_sound {tab i n : Nat} (h : entry tab i = true) (hn : 2 ≤ n) (hps : Pass n) (hpr : (tp tab i).Prime)
    (hd : tp tab i ∣ n) : te tab i ∣ n - 1 ∧ ¬ tp tab i * tp tab i ∣ n := by
  obtain ⟨v, hv, h⟩ := pos_of h
  obtain ⟨p, hpv, h⟩ := pos_of h
  obtain ⟨e, hev, h⟩ := pos_of h
  have e1 : tp tab i = p + 1 := by rw [← hpv]; show tv tab i % 65536 = _; rw [hv]; rfl
  have e2 : te tab i = e + 1 := by rw [← hev]; show tv tab i >>> 16 = _; rw [hv]; rfl
  rw [e1] at hpr hd ⊢
  rw [e2]
  obtain ⟨f2, f7, f61⟩ := hps.fermat hn
  have hp2 := hpr.two_le
  rcases if_of h with h | ⟨h1, h⟩
  · exact absurd h.2 (by simp)
  obtain ⟨h2, h⟩ := and_of h
  obtain ⟨h3, h⟩ := and_of h
  obtain ⟨h4, h⟩ := and_of h
  have h1 : 2 ^ (e + 1) % (p + 1) = 1 ∧ 7 ^ (e + 1) % (p + 1) = 1 ∧ 61 ^ (e + 1) % (p + 1) = 1 := ordNe_false h1
  have h2 : (e + 1) / Nat.gcd (e + 1) 65536 % 2 = 1 := beq_of h2
  constructor
  · let x : ZMod (p + 1) × ZMod (p + 1) × ZMod (p + 1) := ((2 : Nat), (7 : Nat), (61 : Nat))
    have key : ∀ f, x ^ f = 1 ↔ (2 ^ f % (p + 1) = 1 ∧ 7 ^ f % (p + 1) = 1 ∧ 61 ^ f % (p + 1) = 1) := by
      intro f
      rw [pow_eq_one_iff hp2, pow_eq_one_iff hp2, pow_eq_one_iff hp2]
      simp only [x, Prod.ext_iff, Prod.pow_fst, Prod.pow_snd, Prod.fst_one, Prod.snd_one]
    have ho : orderOf x = e + 1 := by
      refine orderOf_eq_of_pow_and_pow_div_prime (by omega) ((key _).2 h1) ?_
      intro l hl hle hx
      rw [key] at hx
      refine ordNe_true ?_ hx
      by_cases hl2 : l = 2
      · subst hl2
        rcases if_of h4 with ⟨-, h4⟩ | ⟨h4, -⟩
        · exact h4
        · have h4 : (e + 1) % 2 ≠ 0 := ne_of h4
          omega
      · refine factors_sound _ _ _ h3 (by decide) h2 ?_ l hl ?_
        · intro q hq hqd
          have := hq.two_le
          have h3 : q ≠ 2 := by
            rintro rfl
            have hqd : 2 ∣ (e + 1) / Nat.gcd (e + 1) 65536 := hqd
            omega
          show 3 ≤ q
          omega
        · show l ∣ (e + 1) / Nat.gcd (e + 1) 65536
          have hg : Nat.gcd (e + 1) 65536 ∣ e + 1 := Nat.gcd_dvd_left ..
          obtain ⟨t, ht⟩ := hg
          have ht0 : 0 < Nat.gcd (e + 1) 65536 := Nat.gcd_pos_of_pos_left _ (by omega)
          have ht2 : (e + 1) / Nat.gcd (e + 1) 65536 = t := by
            conv_lhs => rw [show (e + 1) / Nat.gcd (e + 1) 65536 =
              (Nat.gcd (e + 1) 65536 * t) / Nat.gcd (e + 1) 65536 by rw [← ht]]
            rw [Nat.mul_div_cancel_left _ ht0]
          rw [ht2]
          have hle2 : l ∣ Nat.gcd (e + 1) 65536 * t := ht ▸ hle
          rcases hl.dvd_mul.1 hle2 with h5 | h5
          · exfalso
            have h6 : l ∣ 2 ^ 16 := h5.trans (Nat.gcd_dvd_right ..)
            exact hl2 ((Nat.prime_dvd_prime_iff_eq hl Nat.prime_two).1 (hl.dvd_of_dvd_pow h6))
          · exact h5
    rw [← ho]
    apply orderOf_dvd_of_pow_eq_one
    rw [key]
    exact ⟨zpow_dvd hp2 hn hd f2, zpow_dvd hp2 hn hd f7, zpow_dvd hp2 hn hd f61⟩
  · intro hsq
    have w2 := wieferich hpr hn f2 hsq
    have w7 := wieferich hpr hn f7 hsq
    rcases if_of h with ⟨-, h⟩ | ⟨h, -⟩
    · have := ne_of (not_of h)
      rw [pw_eq] at this
      exact this w7
    · have := ne_of h
      rw [pw_eq] at this
      exact this w2

theorem gap_sound {tab pr i : Nat} (hpr : ∀ q, q.Prime → q ∣ pr → q ≤ 255) (h : gap tab pr i = true)
    (ho : tp tab i % 2 = 1) {q : Nat} (hq : q.Prime) (h255 : 255 < q) (h1 : tp tab i < q) :
    tp tab (i + 1) ≤ q ∧ tp tab (i + 1) % 2 = 1 := by
  obtain ⟨p, hp, h⟩ := pos_of h
  obtain ⟨p', hp', h⟩ := pos_of h
  have hp : tp tab i = p + 1 := hp
  have hp' : tp tab (i + 1) = p' + 1 := hp'
  obtain ⟨h0, h⟩ := and_of h
  have h0 : (p' + 1) % 2 = 1 := beq_of h0
  rw [hp']
  refine ⟨?_, h0⟩
  by_contra hlt
  rw [hp] at h1 ho
  have hqo : q % 2 = 1 := by
    rcases hq.eq_two_or_odd with h2 | h2
    · omega
    · exact h2
  have h2 := (allBelow_iff _ _).1 h ((q - (p + 1)) / 2 - 1) (by
    show _ < Nat.pred ((p' - p) / 2)
    rw [Nat.pred_eq_sub_one]
    omega)
  have h3 : Nat.gcd (p + 1 + 2 * ((q - (p + 1)) / 2 - 1 + 1)) pr ≠ 1 := ne_of (not_of h2)
  rw [show p + 1 + 2 * ((q - (p + 1)) / 2 - 1 + 1) = q by omega] at h3
  have h4 : ¬ Nat.Coprime q pr := h3
  rw [Nat.Prime.coprime_iff_not_dvd hq, not_not] at h4
  have := hpr q hq h4
  omega

theorem prodR_sound {q : Nat} (hq : q.Prime) (d : Nat) : ∀ lo, q ∣ prodR d lo → q ≤ lo + 2 ^ d := by
  induction d with
  | zero => intro lo h; exact Nat.le_of_dvd (by omega) h
  | succ d ih =>
    intro lo h
    have h : q ∣ prodR d lo * prodR d (lo + 2 ^ d) := h
    have : 2 ^ (d + 1) = 2 ^ d + 2 ^ d := by rw [pow_succ]; omega
    have := Nat.two_pow_pos d
    rcases hq.dvd_mul.1 h with h | h
    · have := ih lo h; omega
    · have := ih _ h; omega

/-- What is shown of a candidate `v` for the large prime factor. -/
theorem single_sound {c v q : Nat} (hc : 2 ≤ c) (hq : q.Prime) (hcq : c * q < 2 ^ 31) (hps : Pass (c * q))
    (hv : ∀ s, s.Prime → s ∣ v → 65536 < s) (hqv : q ∣ v) (h : single c v = true) : False := by
  have h1 : v ≠ 1 := fun h => hq.one_lt.ne' (Nat.dvd_one.1 (h ▸ hqv))
  rcases if_of h with ⟨h, -⟩ | ⟨-, h⟩
  · exact h1 (beq_of h)
  obtain ⟨h2, h⟩ := and_of h
  have h2 : v ≤ 4294967295 := le_of h2
  have hv0 : v ≠ 0 := by
    rintro rfl
    have := hv 2 Nat.prime_two (by simp)
    omega
  have hqv2 : q = v := by
    obtain ⟨t, ht⟩ := hqv
    by_cases ht1 : t = 1
    · rw [ht, ht1, Nat.mul_one]
    · exfalso
      obtain ⟨s, hs, hst⟩ := Nat.exists_prime_and_dvd ht1
      have a1 := hv q hq ⟨t, ht⟩
      have a2 := hv s hs (ht ▸ Dvd.dvd.mul_left hst q)
      have a3 : s ≤ t := Nat.le_of_dvd (Nat.pos_of_ne_zero (fun h0 => hv0 (by rw [ht, h0, Nat.mul_zero]))) hst
      have a4 : 65537 * 65537 ≤ q * t := Nat.mul_le_mul (by omega) (by omega)
      omega
  subst hqv2
  have hcq2 : 2 ≤ c * q := le_trans hc (Nat.le_mul_of_pos_right c hq.pos)
  rcases if_of h with ⟨h, -⟩ | ⟨-, h⟩
  · have : 2 ^ 31 ≤ c * q := le_of h
    omega
  · obtain ⟨n, hn, h⟩ := pos_of (n := Nat.mul c q) (f := fun n => rej (Nat.succ n)) h
    have hn : c * q = n + 1 := hn
    rw [hn] at hps hcq hcq2
    exact rej_sound hcq2 hcq h hps

theorem strip_sound {P c : Nat} (hP : ∀ q, q.Prime → q ≤ 65536 → q ∣ P) (hP2 : ∀ q, q.Prime → q ∣ P → q ≤ 65536)
    (hc : 2 ≤ c) {q : Nat} (hq : q.Prime) (hq2 : 65536 < q) (hcq : c * q < 2 ^ 31) (hps : Pass (c * q)) (fuel : Nat) :
    ∀ D, strip P c fuel D = true → q ∣ D → False := by
  induction fuel with
  | zero => intro D h; exact absurd h (by simp [strip])
  | succ f ih =>
    intro D h hqD
    obtain ⟨D, rfl, h⟩ := pos_of h
    obtain ⟨g, hg, h⟩ := pos_of h
    have hg : Nat.gcd (D + 1) (P % (D + 1)) = g + 1 := hg
    have hg2 : Nat.gcd (D + 1) P = g + 1 := by
      rw [← hg, Nat.gcd_comm (D + 1) (P % (D + 1)), ← Nat.gcd_rec]
    cases g with
    | succ g =>
      have h : strip P c f ((D + 1) / (g + 2)) = true := h
      refine ih _ h ?_
      obtain ⟨t, ht⟩ : g + 2 ∣ D + 1 := hg2 ▸ Nat.gcd_dvd_left ..
      rw [ht, Nat.mul_div_cancel_left _ (by omega)]
      rw [ht] at hqD
      rcases hq.dvd_mul.1 hqD with h1 | h1
      · have h3 : g + 2 ∣ P := hg2 ▸ Nat.gcd_dvd_right ..
        have := hP2 q hq (h1.trans h3)
        omega
      · exact h1
    | zero =>
      have hv : ∀ s, s.Prime → s ∣ D + 1 → 65536 < s := by
        intro s hs hsD
        by_contra hle
        have h1 := hP s hs (by omega)
        have h2 := Nat.dvd_gcd hsD h1
        rw [hg2] at h2
        exact hs.one_lt.ne' (Nat.dvd_one.1 h2)
      have h : (if% (Nat.beq c (nat_lit 19033)) then
        if% (Nat.beq (Nat.succ D) (nat_lit 8693398897)) then
          if% (single c (nat_lit 76129)) then single c (nat_lit 114193) else false
        else false
        else single c (Nat.succ D)) = true := h
      rcases if_of h with ⟨-, h⟩ | ⟨-, h⟩
      · obtain ⟨h1, h⟩ := and_of h
        obtain ⟨h2, h3⟩ := and_of h
        have h1 : D + 1 = 76129 * 114193 := beq_of h1
        rw [h1] at hv hqD
        rcases hq.dvd_mul.1 hqD with h4 | h4
        · exact single_sound hc hq hcq hps (fun s hs hd => hv s hs (Dvd.dvd.mul_right hd _)) h4 h2
        · exact single_sound hc hq hcq hps (fun s hs hd => hv s hs (Dvd.dvd.mul_left hd _)) h4 h3
      · exact single_sound hc hq hcq hps hv hqD h

theorem large_sound {P k : Nat} (hP : ∀ q, q.Prime → q ≤ 65536 → q ∣ P) (hP2 : ∀ q, q.Prime → q ∣ P → q ≤ 65536)
    (hk : 1 ≤ k) (h : large P k = true) {q : Nat} (hq : q.Prime) (hq2 : 65536 < q) (hcq : (k + 1) * q < 2 ^ 31) :
    ¬ Pass ((k + 1) * q) := by
  intro hps
  have hn : 2 ≤ (k + 1) * q := le_trans (show 2 ≤ k + 1 by omega) (Nat.le_mul_of_pos_right _ hq.pos)
  obtain ⟨f2, f7, f61⟩ := hps.fermat hn
  have key : ∀ a, 1 ≤ a → a < q → a ^ ((k + 1) * q - 1) % ((k + 1) * q) = 1 → q ∣ Nat.pred (a ^ k) := by
    intro a ha haq hf
    have h1 := zpow_dvd hq.two_le hn (Dvd.intro_left _ rfl) hf
    haveI := Fact.mk hq
    rw [pow_eq_one_iff hq.two_le] at h1
    have h2 : (a : ZMod q) ^ (q - 1) = 1 := by
      apply ZMod.pow_card_sub_one_eq_one
      intro h0
      rw [ZMod.natCast_eq_zero_iff] at h0
      have := Nat.le_of_dvd (by omega) h0
      omega
    have h3 : (k + 1) * q - 1 = (q - 1) * (k + 1) + k := by
      obtain ⟨q', rfl⟩ : ∃ q', q = q' + 1 := ⟨q - 1, by omega⟩
      rw [Nat.add_sub_cancel, Nat.mul_succ, Nat.mul_comm]
      omega
    rw [h3, pow_add, pow_mul, h2, one_pow, one_mul] at h1
    rw [Nat.pred_eq_sub_one]
    rw [← pow_eq_one_iff hq.two_le] at h1
    have h4 : a ^ k ≡ 1 [MOD q] := by
      show a ^ k % q = 1 % q
      rw [h1, Nat.mod_eq_of_lt hq.one_lt]
    exact (Nat.modEq_iff_dvd' (Nat.one_le_pow _ _ ha)).1 h4.symm
  refine strip_sound (c := k + 1) hP hP2 (by omega) hq hq2 hcq hps _ _ h ?_
  exact Nat.dvd_gcd (Nat.dvd_gcd (key 2 (by omega) (by omega) f2) (key 7 (by omega) (by omega) f7))
    (key 61 (by omega) (by omega) f61)

end Verif.Sprp
