import Verif.Prelude.Loop
import Verif.Prelude.Post
/-! Two runs that agree unless the first does not end. -/
namespace Verif.Res

/-- The second run does what the first does, unless the first does not end. -/
def Dp (x y : Res α) : Prop := x = diverge ∨ y = x

theorem dp_refl {x : Res α} : Dp x x := .inr rfl
theorem dp_diverge {y : Res α} : Dp diverge y := .inl rfl

theorem Dp.eq {x y : Res α} (h : Dp x y) (hx : x ≠ diverge) : y = x := h.resolve_left hx

theorem dp_bind {x y : Res α} {f g : α → Res β} (h : Dp x y) (hf : ∀ a, Dp (f a) (g a)) :
    Dp (x >>= f) (y >>= g) := by
  rcases h with h | h
  · left; rw [h]; rfl
  · subst h
    cases hy : y with
    | ok a => exact hf a
    | panic => exact .inr rfl
    | diverge => exact .inl rfl

theorem dp_ite {c : Prop} [Decidable c] {x x' y y' : Res α} (h : c → Dp x y) (h' : ¬ c → Dp x' y') :
    Dp (if c then x else x') (if c then y else y') := by
  split
  · exact h ‹_›
  · exact h' ‹_›

theorem dp_forRange {f g : Nat → σ → Res σ} {lo hi : Nat} {s : σ} (h : ∀ i s, Dp (f i s) (g i s)) :
    Dp (forRange lo hi s f) (forRange lo hi s g) := by
  unfold forRange
  generalize hi - lo = cnt
  induction cnt generalizing lo s with
  | zero => exact dp_refl
  | succ cnt ih => exact dp_bind (h _ _) fun s' => ih

theorem dp_forList {f g : α → σ → Res σ} (h : ∀ x s, Dp (f x s) (g x s)) :
    ∀ (l : List α) (s : σ), Dp (forList l s f) (forList l s g)
  | [], _ => dp_refl
  | x :: xs, s => dp_bind (h x s) fun s' => dp_forList h xs s'

theorem dp_forBrk {f g : α → σ → Res (Ctl σ ρ)} (h : ∀ x s, Dp (f x s) (g x s)) :
    ∀ (l : List α) (s : σ), Dp (forBrk l s f) (forBrk l s g)
  | [], _ => dp_refl
  | x :: xs, s => by
    unfold forBrk
    refine dp_bind (h x s) ?_
    rintro (s' | r)
    · exact dp_forBrk h xs s'
    · exact dp_refl

theorem dp_loop {f g : σ → Res (Ctl σ ρ)} (h : ∀ s, Dp (f s) (g s)) :
    ∀ (fuel : Nat) (s : σ), Dp (loop fuel s f) (loop fuel s g)
  | 0, _ => dp_refl
  | fuel + 1, s => by
    unfold loop
    refine dp_bind (h s) ?_
    rintro (s' | r)
    · exact dp_loop h fuel s'
    · exact dp_refl

/-- A family of runs whose results stay the same from the first limit that is enough. -/
theorem dp_mono {f : Nat → Res α} (h : ∀ k, Dp (f k) (f (k + 1))) {k k' : Nat} (hk : k ≤ k') : Dp (f k) (f k') := by
  induction hk with
  | refl => exact dp_refl
  | step _ ih =>
    rcases ih with ih | ih
    · exact .inl ih
    · rcases h _ with h' | h'
      · exact .inl (ih ▸ h')
      · exact .inr (h'.trans ih)

theorem bind_congr_of {x : Res α} {f g : α → Res β} (h : ∀ a, x = ok a → f a = g a) : x >>= f = x >>= g := by
  cases hx : x with
  | ok a => exact h a hx
  | panic => rfl
  | diverge => rfl

/-- Two loops whose bodies agree where an invariant holds. -/
theorem loop_congr {f g : σ → Res (Ctl σ ρ)} (I : σ → Prop) (h : ∀ s, I s → f s = g s)
    (hI : ∀ s s', I s → f s = ok (.next s') → I s') :
    ∀ (fuel : Nat) (s : σ), I s → loop fuel s f = loop fuel s g
  | 0, _, _ => rfl
  | fuel + 1, s, hs => by
    unfold loop
    rw [← h s hs]
    refine bind_congr_of ?_
    rintro (s' | r) e
    · exact loop_congr I h hI fuel s' (hI s s' hs e)
    · rfl

theorem forRange_congrI {f g : Nat → σ → Res σ} {lo hi : Nat} (I : σ → Prop) (h : ∀ i s, I s → f i s = g i s)
    (hI : ∀ i s s', I s → f i s = ok s' → I s') {s : σ} (hs : I s) : forRange lo hi s f = forRange lo hi s g := by
  unfold forRange
  generalize hi - lo = cnt
  induction cnt generalizing lo s with
  | zero => rfl
  | succ cnt ih =>
    unfold forCount
    rw [← h lo s hs]
    exact bind_congr_of fun s' e => ih (hI _ _ _ hs e)

theorem post_forRange {I : σ → Prop} {f : Nat → σ → Res σ} {lo hi : Nat} {s : σ} (hs : I s)
    (h : ∀ i s, I s → Post (f i s) I) : Post (forRange lo hi s f) I := by
  unfold forRange
  generalize hi - lo = cnt
  induction cnt generalizing lo s with
  | zero => exact post_ok hs
  | succ cnt ih => exact post_bind ((h lo s hs).mono fun s' h' => ih h')

theorem satOr_nd' {b : Prop} {r : Res α} {P : α → Prop} (h : SatOr b r P) : r ≠ diverge := by
  rcases h with ⟨a, e, -⟩ | ⟨-, e⟩ <;> rw [e] <;> intro h <;> cases h

/-- Steps that may panic. -/
theorem so_idx {l : List α} {i : Nat} : SatOr True (idx l i) fun a => l[i]? = some a := by
  unfold idx
  split
  · rename_i a h; exact (satOr_ok).2 h
  · exact satOr_panic trivial

theorem so_upd {l : List α} {i : Nat} {a : α} : SatOr True (upd l i a) fun l' => i < l.length ∧ l' = l.set i a := by
  unfold upd
  split
  · exact (satOr_ok).2 ⟨‹_›, rfl⟩
  · exact satOr_panic trivial

theorem so_unwrap {o : Option α} : SatOr True (unwrap o) fun a => o = some a := by
  cases o with
  | none => exact satOr_panic trivial
  | some a => exact (satOr_ok).2 rfl

end Verif.Res
