import Verif.Prelude.Count
import Verif.Prelude.Loop
/-! Facts about runs that return (nothing is said about runs that panic or run out of fuel). -/
namespace Verif.Res

/-- If the call returns, the result satisfies `P`. -/
def Post (r : Res α) (P : α → Prop) : Prop := ∀ a, r = ok a → P a

theorem Post.mono {r : Res α} {P Q : α → Prop} (h : Post r P) (hPQ : ∀ a, P a → Q a) : Post r Q :=
  fun a e => hPQ a (h a e)

theorem Sat.post {r : Res α} {P : α → Prop} (h : Sat r P) : Post r P := by
  obtain ⟨a, e, ha⟩ := h
  intro b hb
  rw [e] at hb; cases hb; exact ha

theorem post_ok {a : α} {P : α → Prop} (h : P a) : Post (ok a) P := by
  intro b e; cases e; exact h

theorem post_bind {x : Res α} {f : α → Res β} {P : β → Prop} (h : Post x fun a => Post (f a) P) :
    Post (x >>= f) P := by
  intro b e
  obtain ⟨a, e1, e2⟩ := bind_eq_ok.1 e
  exact h a e1 b e2

theorem post_eq {x : Res α} : Post x fun a => x = ok a := fun _ e => e

theorem post_idx {l : List α} {i : Nat} : Post (idx l i) fun a => l[i]? = some a := by
  intro a e
  unfold idx at e
  split at e
  · cases e; assumption
  · cases e

theorem post_upd {l : List α} {i : Nat} {a : α} : Post (upd l i a) fun l' => i < l.length ∧ l' = l.set i a := by
  intro l' e
  unfold upd at e
  split at e
  · cases e; exact ⟨by assumption, rfl⟩
  · cases e

theorem post_assert {c : Prop} [Decidable c] : Post (assert c) fun _ => c := by
  intro _ e
  by_cases hc : c
  · exact hc
  · rw [assert_false hc] at e; cases e

theorem post_loop {I : σ → Prop} {Q : ρ → Prop} {f : σ → Res (Ctl σ ρ)} {fuel : Nat} {s : σ} (h : I s)
    (hf : ∀ s, I s → Post (f s) fun c => match c with
      | .next s => I s
      | .done r => Q r) : Post (loop fuel s f) Q := by
  induction fuel generalizing s with
  | zero => intro a e; cases e
  | succ fuel ih =>
    unfold loop
    refine post_bind ((hf s h).mono ?_)
    rintro (s' | r) hc
    · exact ih hc
    · exact post_ok hc

theorem post_forBrk {I : List α → σ → Prop} {Q : ρ → Prop} {f : α → σ → Res (Ctl σ ρ)} {l : List α} {s : σ}
    (h : I l s) (hf : ∀ x xs s, I (x :: xs) s → Post (f x s) fun c => match c with
      | .next s => I xs s
      | .done r => Q r) : Post (forBrk l s f) fun c => match c with
      | .next s => I [] s
      | .done r => Q r := by
  induction l generalizing s with
  | nil => exact post_ok h
  | cons x xs ih =>
    unfold forBrk
    refine post_bind ((hf x xs s h).mono ?_)
    rintro (s' | r) hc
    · exact ih hc
    · exact post_ok hc

theorem Post.and {α : Type} {x : Res α} {P Q : α → Prop} (h : Post x P) (h' : Post x Q) : Post x fun a => P a ∧ Q a :=
  fun a e => ⟨h a e, h' a e⟩

end Verif.Res
