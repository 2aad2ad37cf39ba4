import Verif.Prelude.Loop
/-! Two runs that agree unless the first panics. -/
namespace Verif.Res

/-- The second run does what the first does, unless the first panics. -/
def Rls (x y : Res α) : Prop := x = panic ∨ y = x

theorem rls_refl {x : Res α} : Rls x x := .inr rfl
theorem rls_panic {y : Res α} : Rls panic y := .inl rfl
theorem rls_of_eq {x y : Res α} (h : y = x) : Rls x y := .inr h

theorem Rls.eq {x y : Res α} (h : Rls x y) (hx : x ≠ panic) : y = x := h.resolve_left hx
theorem Rls.run {x y : Res α} {a : α} (h : Rls x y) (hx : x = ok a) : y = ok a := by
  rcases h with h | h
  · rw [hx] at h; cases h
  · rw [h, hx]

/-- The second run of a step may use the value that the first returns. -/
theorem rls_bindP {x y : Res α} {f g : α → Res β} (h : Rls x y) (hf : ∀ a, x = ok a → Rls (f a) (g a)) :
    Rls (x >>= f) (y >>= g) := by
  rcases h with h | h
  · left; rw [h]; rfl
  · subst h
    cases hy : y with
    | ok a => exact hf a hy
    | panic => exact .inl rfl
    | diverge => exact .inr rfl

theorem rls_bind {x y : Res α} {f g : α → Res β} (h : Rls x y) (hf : ∀ a, Rls (f a) (g a)) :
    Rls (x >>= f) (y >>= g) := rls_bindP h fun a _ => hf a

theorem rls_ite {c : Prop} [Decidable c] {x x' y y' : Res α} (h : c → Rls x y) (h' : ¬ c → Rls x' y') :
    Rls (if c then x else x') (if c then y else y') := by
  split
  · exact h ‹_›
  · exact h' ‹_›

theorem rls_forRange {f g : Nat → σ → Res σ} {lo hi : Nat} {s : σ} (h : ∀ i s, lo ≤ i → i < hi → Rls (f i s) (g i s)) :
    Rls (forRange lo hi s f) (forRange lo hi s g) := by
  unfold forRange
  have : ∀ cnt i s, lo ≤ i → i + cnt ≤ max lo hi → Rls (forCount cnt i s f) (forCount cnt i s g) := by
    intro cnt
    induction cnt with
    | zero => intros; exact rls_refl
    | succ cnt ih =>
      intro i s h1 h2
      exact rls_bind (h i s h1 (by omega)) fun s' => ih (i + 1) s' (by omega) (by omega)
  exact this _ _ _ (Nat.le_refl _) (by omega)

theorem rls_forRangeRev {f g : Nat → σ → Res σ} {lo hi : Nat} {s : σ}
    (h : ∀ i s, lo ≤ i → i < hi → Rls (f i s) (g i s)) : Rls (forRangeRev lo hi s f) (forRangeRev lo hi s g) := by
  unfold forRangeRev
  have : ∀ cnt s, lo + cnt ≤ max lo hi → Rls (forRevCount cnt lo s f) (forRevCount cnt lo s g) := by
    intro cnt
    induction cnt with
    | zero => intros; exact rls_refl
    | succ cnt ih =>
      intro s h2
      exact rls_bind (h _ s (by omega) (by omega)) fun s' => ih s' (by omega)
  exact this _ _ (by omega)

theorem rls_forList {f g : α → σ → Res σ} (h : ∀ x s, Rls (f x s) (g x s)) :
    ∀ (l : List α) (s : σ), Rls (forList l s f) (forList l s g)
  | [], _ => rls_refl
  | x :: xs, s => rls_bind (h x s) fun s' => rls_forList h xs s'

theorem rls_forBrk {f g : α → σ → Res (Ctl σ ρ)} (h : ∀ x s, Rls (f x s) (g x s)) :
    ∀ (l : List α) (s : σ), Rls (forBrk l s f) (forBrk l s g)
  | [], _ => rls_refl
  | x :: xs, s => by
    unfold forBrk
    refine rls_bind (h x s) ?_
    rintro (s' | r)
    · exact rls_forBrk h xs s'
    · exact rls_refl

theorem rls_loop {f g : σ → Res (Ctl σ ρ)} (h : ∀ s, Rls (f s) (g s)) :
    ∀ (fuel : Nat) (s : σ), Rls (loop fuel s f) (loop fuel s g)
  | 0, _ => rls_refl
  | fuel + 1, s => by
    unfold loop
    refine rls_bind (h s) ?_
    rintro (s' | r)
    · exact rls_loop h fuel s'
    · exact rls_refl

/-- Rule for `while` with an invariant of the first run. -/
theorem rls_while {I : σ → Prop} {c : σ → Res Bool} {f g : σ → Res σ} (h : ∀ s, I s → Rls (f s) (g s))
    (hI : ∀ s s', I s → f s = ok s' → I s') : ∀ (fuel : Nat) (s : σ), I s → Rls (whileLoop fuel s c f) (whileLoop fuel s c g)
  | 0, _, _ => rls_refl
  | fuel + 1, s, hs => by
    unfold whileLoop
    refine rls_bind rls_refl fun b => rls_ite (fun _ => ?_) fun _ => rls_refl
    exact rls_bindP (h s hs) fun s' e => rls_while h hI fuel s' (hI s s' hs e)

end Verif.Res
