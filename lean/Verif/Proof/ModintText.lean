import Verif.Proof.Modint
/-! Parsing and displaying modints. -/
namespace Verif.MIP
open Model Res NTP IMP Spec

/-- One digit of a decimal value. -/
def isDig (c : Char) : Prop := '0'.toNat ≤ c.toNat ∧ c.toNat ≤ '9'.toNat

theorem le_iff (a b : Char) : a ≤ b ↔ a.toNat ≤ b.toNat := Iff.rfl

theorem digitVal_some {c : Char} (h : isDig c) : digitVal c = some (c.toNat - 48) := by
  unfold digitVal
  rw [if_pos]
  exact ⟨h.1, h.2⟩

theorem digitVal_none {c : Char} (h : ¬ isDig c) : digitVal c = none := by
  unfold digitVal
  rw [if_neg]
  exact fun h2 => h ⟨h2.1, h2.2⟩

/-- `foldl` value started from `a`. -/
def valFrom (a : Nat) (s : List Char) : Nat := s.foldl (fun acc c => acc * 10 + (c.toNat - '0'.toNat)) a

theorem valFrom_ge (s : List Char) : ∀ a, a ≤ valFrom a s := by
  induction s with
  | nil => intro a; exact le_refl _
  | cons c s ih =>
    intro a
    show a ≤ valFrom (a * 10 + (c.toNat - '0'.toNat)) s
    have := ih (a * 10 + (c.toNat - '0'.toNat))
    omega

theorem parseDigits_pos (ty : IntTy) (s : List Char) : ∀ a : Nat, (a : Int) ≤ ty.mx → (∀ c ∈ s, isDig c) →
    parseDigits ty false (a : Int) s = if (valFrom a s : Int) ≤ ty.mx then some (valFrom a s : Int) else none := by
  have hmn := ty.mn_nonpos
  induction s with
  | nil => intro a ha _; simp only [parseDigits]; rw [if_pos (show (valFrom a [] : Int) ≤ ty.mx from ha)]; rfl
  | cons c s ih =>
    intro a ha hc
    have hcd := hc c (by simp)
    have e0 : valFrom a (c :: s) = valFrom (a * 10 + (c.toNat - 48)) s := rfl
    have hge := valFrom_ge s (a * 10 + (c.toNat - 48))
    simp only [parseDigits, digitVal_some hcd]
    rw [e0]
    by_cases h1 : ty.In ((a : Int) * 10)
    · rw [if_pos h1]
      simp only [Bool.false_eq_true, if_false]
      by_cases h2 : ty.In ((a : Int) * 10 + ((c.toNat - 48 : Nat) : Int))
      · rw [if_pos h2]
        have h3 := h2.2
        have := ih (a * 10 + (c.toNat - 48)) (by push_cast; exact h3) (fun d hd => hc d (by simp [hd]))
        push_cast at this
        exact this
      · rw [if_neg h2, if_neg]
        intro h3
        exact h2 ⟨by omega, by omega⟩
    · rw [if_neg h1, if_neg]
      intro h3
      exact h1 ⟨by omega, by omega⟩

theorem parseDigits_neg (ty : IntTy) (s : List Char) : ∀ a : Nat, (a : Int) ≤ -ty.mn → (∀ c ∈ s, isDig c) →
    parseDigits ty true (-(a : Int)) s = if (valFrom a s : Int) ≤ -ty.mn then some (-(valFrom a s : Int)) else none := by
  have hmx := ty.mx_nonneg
  induction s with
  | nil => intro a ha _; simp only [parseDigits]; rw [if_pos (show (valFrom a [] : Int) ≤ -ty.mn from ha)]; rfl
  | cons c s ih =>
    intro a ha hc
    have hcd := hc c (by simp)
    have e0 : valFrom a (c :: s) = valFrom (a * 10 + (c.toNat - 48)) s := rfl
    have hge := valFrom_ge s (a * 10 + (c.toNat - 48))
    simp only [parseDigits, digitVal_some hcd]
    rw [e0]
    by_cases h1 : ty.In (-(a : Int) * 10)
    · rw [if_pos h1]
      simp only [if_true]
      by_cases h2 : ty.In (-(a : Int) * 10 - ((c.toNat - 48 : Nat) : Int))
      · rw [if_pos h2]
        have h3 := h2.1
        have := ih (a * 10 + (c.toNat - 48)) (by push_cast; omega) (fun d hd => hc d (by simp [hd]))
        rw [show (-(a : Int) * 10 - ((c.toNat - 48 : Nat) : Int)) = -((a * 10 + (c.toNat - 48) : Nat) : Int) by
          push_cast; ring]
        exact this
      · rw [if_neg h2, if_neg]
        intro h3
        exact h2 ⟨by omega, by omega⟩
    · rw [if_neg h1, if_neg]
      intro h3
      exact h1 ⟨by omega, by omega⟩

theorem parseDigits_bad (ty : IntTy) (neg : Bool) (s : List Char) :
    ∀ a : Int, ¬ (∀ c ∈ s, isDig c) → parseDigits ty neg a s = none := by
  induction s with
  | nil => intro a h; exact absurd (by simp) h
  | cons c s ih =>
    intro a h
    by_cases hc : isDig c
    · simp only [parseDigits, digitVal_some hc]
      have h' : ¬ ∀ d ∈ s, isDig d := fun h2 => h (by
        intro d hd
        rcases List.mem_cons.1 hd with rfl | hd
        · exact hc
        · exact h2 d hd)
      have h2 := fun a => ih a h'
      simp only [h2, ite_self]
    · simp only [parseDigits, digitVal_none hc]

theorem parse_pos_some {ty : IntTy} {s : List Char} {v : Int} (hs : s ≠ []) :
    parseDigits ty false 0 s = some v ↔ ∃ n : Nat, DecimalText s n ∧ v = n ∧ ty.In v := by
  have hmn := ty.mn_nonpos
  by_cases hc : ∀ c ∈ s, isDig c
  · have := parseDigits_pos ty s 0 ty.mx_nonneg hc
    rw [Nat.cast_zero] at this
    rw [this]
    constructor
    · intro h
      by_cases hl : (valFrom 0 s : Int) ≤ ty.mx
      · rw [if_pos hl] at h
        injection h with h
        exact ⟨valFrom 0 s, ⟨hs, hc, rfl⟩, h.symm, ⟨by omega, by omega⟩⟩
      · rw [if_neg hl] at h; cases h
    · rintro ⟨n, ⟨_, _, h1⟩, rfl, h2⟩
      have h1 : valFrom 0 s = n := h1
      rw [h1, if_pos h2.2]
  · rw [parseDigits_bad _ _ _ _ hc]
    constructor
    · intro h; cases h
    · rintro ⟨n, ⟨_, h1, _⟩, _⟩
      exact absurd h1 hc

theorem parse_neg_some {ty : IntTy} {s : List Char} {v : Int} (hs : s ≠ []) :
    parseDigits ty true 0 s = some v ↔ ∃ n : Nat, DecimalText s n ∧ v = -n ∧ ty.In v := by
  have hmn := ty.mn_nonpos
  have hmx := ty.mx_nonneg
  by_cases hc : ∀ c ∈ s, isDig c
  · have := parseDigits_neg ty s 0 (by push_cast; omega) hc
    rw [Nat.cast_zero, neg_zero] at this
    rw [this]
    constructor
    · intro h
      by_cases hl : (valFrom 0 s : Int) ≤ -ty.mn
      · rw [if_pos hl] at h
        injection h with h
        exact ⟨valFrom 0 s, ⟨hs, hc, rfl⟩, h.symm, ⟨by omega, by omega⟩⟩
      · rw [if_neg hl] at h; cases h
    · rintro ⟨n, ⟨_, _, h1⟩, rfl, h2⟩
      have h1 : valFrom 0 s = n := h1
      have := h2.1
      rw [h1, if_pos (by omega)]
  · rw [parseDigits_bad _ _ _ _ hc]
    constructor
    · intro h; cases h
    · rintro ⟨n, ⟨_, h1, _⟩, _⟩
      exact absurd h1 hc

/-- The model of `from_str` accepts exactly the decimal texts of the values of the type. -/
theorem parseInt_iff (ty : IntTy) (s : List Char) (v : Int) :
    parseInt ty s = some v ↔ IntText ty.signed s v ∧ ty.In v := by
  have hplus : ∀ (t : List Char) (n : Nat), ¬ DecimalText ('+' :: t) n := fun t n h => by
    have := h.2.1 '+' (by simp)
    revert this; decide
  have hminus : ∀ (t : List Char) (n : Nat), ¬ DecimalText ('-' :: t) n := fun t n h => by
    have := h.2.1 '-' (by simp)
    revert this; decide
  unfold IntText
  unfold parseInt
  split
  · simp [DecimalText]
  · simp only [reduceCtorEq, false_iff]
    rintro ⟨⟨n, h, _⟩ | ⟨t, n, h, h2, _⟩ | ⟨_, t, n, h, h2, _⟩, _⟩
    · exact hplus _ _ h
    · injection h with _ h; subst h; exact h2.1 rfl
    · injection h with h; exact absurd h (by decide)
  · simp only [reduceCtorEq, false_iff]
    rintro ⟨⟨n, h, _⟩ | ⟨t, n, h, h2, _⟩ | ⟨_, t, n, h, h2, _⟩, _⟩
    · exact hminus _ _ h
    · injection h with h; exact absurd h (by decide)
    · injection h with _ h; subst h; exact h2.1 rfl
  · rename_i cs hcs
    rw [parse_pos_some (fun h => hcs h)]
    constructor
    · rintro ⟨n, h1, h2, h3⟩
      exact ⟨.inr (.inl ⟨cs, n, rfl, h1, h2⟩), h3⟩
    · rintro ⟨⟨n, h, _⟩ | ⟨t, n, h, h2, h3⟩ | ⟨_, t, n, h, h2, _⟩, h4⟩
      · exact absurd h (hplus _ _)
      · injection h with _ h; subst h; exact ⟨n, h2, h3, h4⟩
      · injection h with h; exact absurd h (by decide)
  · rename_i cs hcs
    by_cases hsg : ty.signed = true
    · rw [if_pos hsg, parse_neg_some (fun h => hcs h)]
      constructor
      · rintro ⟨n, h1, h2, h3⟩
        exact ⟨.inr (.inr ⟨hsg, cs, n, rfl, h1, h2⟩), h3⟩
      · rintro ⟨⟨n, h, _⟩ | ⟨t, n, h, h2, h3⟩ | ⟨_, t, n, h, h2, h3⟩, h4⟩
        · exact absurd h (hminus _ _)
        · injection h with h; exact absurd h (by decide)
        · injection h with _ h; subst h; exact ⟨n, h2, h3, h4⟩
    · rw [if_neg hsg, parse_pos_some (by simp)]
      constructor
      · rintro ⟨n, h1, _⟩
        exact absurd h1 (hminus _ _)
      · rintro ⟨⟨n, h, _⟩ | ⟨t, n, h, h2, h3⟩ | ⟨h, _⟩, h4⟩
        · exact absurd h (hminus _ _)
        · injection h with h; exact absurd h (by decide)
        · exact absurd h hsg
  · rename_i h0 _ _ h1 h2
    rw [parse_pos_some (fun h => h0 h)]
    constructor
    · rintro ⟨n, h1, h2, h3⟩
      exact ⟨.inl ⟨n, h1, h2⟩, h3⟩
    · rintro ⟨⟨n, h, h3⟩ | ⟨t, n, h, _⟩ | ⟨_, t, n, h, _⟩, h4⟩
      · exact ⟨n, h, h3, h4⟩
      · exact absurd h (h1 t)
      · exact absurd h (h2 t)

/-! ### display -/

theorem digitChar_val {d : Nat} (h : d < 10) : isDig (Nat.digitChar d) ∧ (Nat.digitChar d).toNat - 48 = d := by
  have : ∀ d < 10, isDig (Nat.digitChar d) ∧ (Nat.digitChar d).toNat - 48 = d := by unfold isDig; decide
  exact this d h

theorem toDigits_text (n : Nat) : DecimalText (Nat.toDigits 10 n) n := by
  induction n using Nat.strongRecOn with
  | _ n ih =>
    by_cases hn : n < 10
    · rw [Nat.toDigits_of_lt_base hn]
      have := digitChar_val hn
      refine ⟨by simp, by simpa [isDig] using this.1, ?_⟩
      show valFrom 0 [Nat.digitChar n] = n
      simpa [valFrom] using this.2
    · rw [Nat.toDigits_of_base_le (by omega) (by omega)]
      obtain ⟨h1, h2, h3⟩ := ih (n / 10) (by omega)
      have hd := digitChar_val (show n % 10 < 10 by omega)
      refine ⟨by simp, ?_, ?_⟩
      · intro c hc
        rcases List.mem_append.1 hc with hc | hc
        · exact h2 c hc
        · simp at hc; rw [hc]; exact hd.1
      · unfold decValue at h3 ⊢
        rw [List.foldl_append, h3]
        have e : (Nat.digitChar (n % 10)).toNat - '0'.toNat = n % 10 := hd.2
        simp only [List.foldl_cons, List.foldl_nil, e]
        omega

end Verif.MIP
