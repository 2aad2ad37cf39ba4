import Verif.Prelude.Res
/-! Loops that also return how many rounds they ran, for statements about cost. Forgetting the count
gives back the loops of `Prelude/Res.lean` (`whileCount_fst`, `loopCount_fst`). -/
namespace Verif.Res

/-- `whileLoop`, with the number of rounds. -/
def whileCount (fuel : Nat) (s : σ) (cond : σ → Res Bool) (body : σ → Res σ) : Res (σ × Nat) :=
  match fuel with
  | 0 => diverge
  | fuel + 1 => cond s >>= fun b =>
    if b then body s >>= fun s' => whileCount fuel s' cond body >>= fun r => ok (r.1, r.2 + 1)
    else ok (s, 0)

/-- `loop`, with the number of rounds that did not end it. -/
def loopCount (fuel : Nat) (s : σ) (body : σ → Res (Ctl σ ρ)) : Res (ρ × Nat) :=
  match fuel with
  | 0 => diverge
  | fuel + 1 => body s >>= fun c =>
    match c with
    | .next s' => loopCount fuel s' body >>= fun r => ok (r.1, r.2 + 1)
    | .done r => ok (r, 0)

theorem bind_bind_res (x : Res α) (f : α → Res β) (g : β → Res γ) :
    ((x >>= f) >>= g) = x >>= fun a => f a >>= g := by
  cases x <;> rfl

theorem bind_eq_ok {x : Res α} {f : α → Res β} {b : β} :
    (x >>= f) = ok b ↔ ∃ a, x = ok a ∧ f a = ok b := by
  cases x with
  | ok a =>
    rw [ok_bind]
    exact ⟨fun h => ⟨a, rfl, h⟩, fun ⟨_, h1, h2⟩ => by cases h1; exact h2⟩
  | panic => exact ⟨fun h => (nomatch h), fun ⟨_, h, _⟩ => (nomatch h)⟩
  | diverge => exact ⟨fun h => (nomatch h), fun ⟨_, h, _⟩ => (nomatch h)⟩

theorem whileCount_fst (fuel : Nat) (s : σ) (cond : σ → Res Bool) (body : σ → Res σ) :
    (whileCount fuel s cond body >>= fun r => ok r.1) = whileLoop fuel s cond body := by
  induction fuel generalizing s with
  | zero => rfl
  | succ fuel ih =>
    simp only [whileCount, whileLoop, bind_bind_res]
    congr 1; funext b
    cases b
    · rfl
    · simp only [if_true, bind_bind_res]
      congr 1; funext s'
      rw [← ih]; rfl

theorem loopCount_fst (fuel : Nat) (s : σ) (body : σ → Res (Ctl σ ρ)) :
    (loopCount fuel s body >>= fun r => ok r.1) = loop fuel s body := by
  induction fuel generalizing s with
  | zero => rfl
  | succ fuel ih =>
    simp only [loopCount, loop, bind_bind_res]
    congr 1; funext c
    cases c with
    | done r => rfl
    | next s' =>
      simp only [bind_bind_res]
      rw [← ih]; rfl

/-- Rule for `whileCount`: the invariant sees the number `m` of rounds already run. -/
theorem whileCount_sat {cond : σ → Res Bool} {body : σ → Res σ} (I : Nat → σ → Prop) (μ : σ → Nat)
    (Q : Nat → σ → Prop)
    (hstep : ∀ m s, I m s → Sat (cond s) (fun b =>
      if b then Sat (body s) (fun s' => I (m + 1) s' ∧ μ s' < μ s) else Q m s)) :
    ∀ (fuel m : Nat) (s : σ), I m s → μ s < fuel →
      Sat (whileCount fuel s cond body) (fun r => Q (m + r.2) r.1) := by
  intro fuel
  induction fuel with
  | zero => intro m s _ h; omega
  | succ fuel ih =>
    intro m s hI hμ
    simp only [whileCount, sat_bind]
    refine (hstep m s hI).mono fun b hb => ?_
    cases b
    · simpa using hb
    · simp only [if_true, sat_bind, sat_ok] at hb ⊢
      refine hb.mono fun s' hs' => (ih (m + 1) s' hs'.1 (by omega)).mono fun r hr => ?_
      rwa [show m + (r.2 + 1) = m + 1 + r.2 by omega]

/-- Rule for `loopCount`. -/
theorem loopCount_sat {body : σ → Res (Ctl σ ρ)} (I : Nat → σ → Prop) (μ : σ → Nat)
    (Q : Nat → ρ → Prop)
    (hstep : ∀ m s, I m s → Sat (body s) (fun c => match c with
      | .next s' => I (m + 1) s' ∧ μ s' < μ s
      | .done r => Q m r)) :
    ∀ (fuel m : Nat) (s : σ), I m s → μ s < fuel →
      Sat (loopCount fuel s body) (fun r => Q (m + r.2) r.1) := by
  intro fuel
  induction fuel with
  | zero => intro m s _ h; omega
  | succ fuel ih =>
    intro m s hI hμ
    simp only [loopCount, sat_bind]
    refine (hstep m s hI).mono fun c hc => ?_
    cases c with
    | done r => simpa using hc
    | next s' =>
      simp only [sat_bind, sat_ok] at hc ⊢
      refine (ih (m + 1) s' hc.1 (by omega)).mono fun r hr => ?_
      rwa [show m + (r.2 + 1) = m + 1 + r.2 by omega]

/-- Invariants of a run of `whileCount` that returns. -/
theorem whileCount_inv {cond : σ → Res Bool} {body : σ → Res σ} (I : Nat → σ → Prop)
    (hstep : ∀ m s s', I m s → cond s = ok true → body s = ok s' → I (m + 1) s') :
    ∀ (fuel m : Nat) (s t : σ) (k : Nat), I m s → whileCount fuel s cond body = ok (t, k) →
      I (m + k) t ∧ cond t = ok false := by
  intro fuel
  induction fuel with
  | zero => intro m s t k _ h; cases h
  | succ fuel ih =>
    intro m s t k hI h
    simp only [whileCount] at h
    cases hc : cond s with
    | panic => rw [hc] at h; cases h
    | diverge => rw [hc] at h; cases h
    | ok b =>
      rw [hc, ok_bind] at h
      cases b
      · simp only [Bool.false_eq_true, if_false] at h
        cases h; exact ⟨hI, hc⟩
      · simp only [if_true] at h
        cases hb : body s with
        | panic => rw [hb] at h; cases h
        | diverge => rw [hb] at h; cases h
        | ok s' =>
          rw [hb, ok_bind] at h
          cases hr : whileCount fuel s' cond body with
          | panic => rw [hr] at h; cases h
          | diverge => rw [hr] at h; cases h
          | ok r =>
            obtain ⟨t', k'⟩ := r
            rw [hr, ok_bind] at h
            cases h
            have := ih (m + 1) s' t' k' (hstep m s s' hI hc hb) hr
            rwa [show m + (k' + 1) = m + 1 + k' by omega]

end Verif.Res
