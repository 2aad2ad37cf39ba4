import Verif.Prelude.Loop
/-! More rules for `SatOr` ("returns with `P`, or panics and `b` holds"). -/
namespace Verif.Res
universe u v w
variable {α : Type u} {σ : Type v} {ρ : Type w}

/-- `SatOr` version of `forList_satR`. -/
theorem forList_satOrR {b : Prop} {f : α → σ → Res σ} (I : List α → σ → Prop) :
    ∀ (l : List α) (s : σ), I l s →
    (∀ x xs s, x ∈ l → I (x :: xs) s → SatOr b (f x s) (I xs)) → SatOr b (forList l s f) (I []) := by
  intro l
  induction l with
  | nil => intro s h _; simpa using h
  | cons x xs ih =>
    intro s h hs
    rw [forList_cons]
    exact satOr_bind ((hs x xs s (by simp) h).mono fun s' h' => ih s' h' fun y ys s hy =>
      hs y ys s (List.mem_cons_of_mem _ hy))

/-- `SatOr` version of `forRange_sat`. -/
theorem forRange_satOr {b : Prop} {f : Nat → σ → Res σ} (I : Nat → σ → Prop) {lo hi : Nat} {s : σ}
    (hle : lo ≤ hi) (h0 : I lo s)
    (hs : ∀ j t, lo ≤ j → j < hi → I j t → SatOr b (f j t) (I (j + 1))) :
    SatOr b (forRange lo hi s f) (I hi) := by
  obtain ⟨k, rfl⟩ : ∃ k, hi = lo + k := ⟨hi - lo, by omega⟩
  clear hle
  induction k generalizing lo s with
  | zero => rw [forRange_empty (by omega)]; simpa using h0
  | succ k ih =>
    rw [forRange_succ (by omega)]
    refine satOr_bind ((hs lo s (Nat.le_refl _) (by omega) h0).mono fun t ht => ?_)
    have := ih (lo := lo + 1) ht fun j t h1 h2 h3 => hs j t (by omega) (by omega) h3
    rw [show lo + (k + 1) = lo + 1 + k by omega]
    exact this

/-- `SatOr` version of `forBrk_sat`. -/
theorem forBrk_satOr {b : Prop} {f : α → σ → Res (Ctl σ ρ)} (I : List α → σ → Prop) (Q : ρ → Prop) :
    ∀ (l : List α) (s : σ), I l s →
    (∀ x xs s, x ∈ l → I (x :: xs) s → SatOr b (f x s) (fun c => match c with
      | .next s => I xs s
      | .done r => Q r)) →
    SatOr b (forBrk l s f) (fun c => match c with
      | .next s => I [] s
      | .done r => Q r) := by
  intro l
  induction l with
  | nil => intro s h _; simpa using h
  | cons x xs ih =>
    intro s h hs
    rw [forBrk_cons]
    refine satOr_bind ((hs x xs s (by simp) h).mono ?_)
    rintro (s' | r) hc
    · exact ih s' hc fun y ys s hy => hs y ys s (List.mem_cons_of_mem _ hy)
    · simpa using hc

/-- `SatOr` version of `forRangeRev_sat`. -/
theorem forRangeRev_satOr {b : Prop} {f : Nat → σ → Res σ} (I : Nat → σ → Prop) {lo hi : Nat} {s : σ}
    (hle : lo ≤ hi) (h0 : I hi s)
    (hs : ∀ j t, lo ≤ j → j < hi → I (j + 1) t → SatOr b (f j t) (I j)) :
    SatOr b (forRangeRev lo hi s f) (I lo) := by
  unfold forRangeRev
  have : ∀ cnt t, cnt ≤ hi - lo → I (lo + cnt) t → SatOr b (forRevCount cnt lo t f) (I lo) := by
    intro cnt
    induction cnt with
    | zero => intro t _ h; simpa [forRevCount] using h
    | succ cnt ih =>
      intro t hc h
      simp only [forRevCount]
      exact satOr_bind ((hs (lo + cnt) t (by omega) (by omega) h).mono fun u hu => ih u (by omega) hu)
  exact this (hi - lo) s (Nat.le_refl _) (by rw [show lo + (hi - lo) = hi by omega]; exact h0)

/-- `SatOr` version of `whileLoop_sat` for a condition that returns. -/
theorem whileLoop_satOr {σ : Type} {b : Prop} {cond : σ → Bool} {body : σ → Res σ} (I : σ → Prop) (μ : σ → Nat)
    (hs : ∀ s, I s → cond s = true → SatOr b (body s) (fun s' => I s' ∧ μ s' < μ s)) :
    ∀ (fuel : Nat) (s : σ), I s → μ s < fuel →
      SatOr b (whileLoop fuel s (fun s => ok (cond s)) body) (fun s => I s ∧ cond s = false) := by
  intro fuel
  induction fuel with
  | zero => intro s _ h; omega
  | succ fuel ih =>
    intro s hI hμ
    rw [whileLoop, ok_bind]
    cases hc : cond s with
    | false => simpa using ⟨hI, hc⟩
    | true =>
      rw [if_pos rfl]
      exact satOr_bind ((hs s hI hc).mono fun s' h => ih s' h.1 (by omega))

end Verif.Res
