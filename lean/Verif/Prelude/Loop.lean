import Verif.Prelude.Res
/-! `for` loops over a list that may leave early (`return`/`break` inside the body). -/
namespace Verif.Res
universe u v w
variable {α : Type u} {σ : Type v} {ρ : Type w}

/-- `for x in l { … }` whose body may leave the loop with a value. -/
def forBrk (l : List α) (s : σ) (f : α → σ → Res (Ctl σ ρ)) : Res (Ctl σ ρ) :=
  match l with
  | [] => ok (.next s)
  | x :: xs => do
    match ← f x s with
    | .next s => forBrk xs s f
    | .done r => ok (.done r)

@[simp] theorem forBrk_nil {s : σ} {f : α → σ → Res (Ctl σ ρ)} : forBrk [] s f = ok (.next s) := rfl
theorem forBrk_cons {s : σ} {f : α → σ → Res (Ctl σ ρ)} {x : α} {xs : List α} :
    forBrk (x :: xs) s f = (f x s >>= fun c => match c with
      | .next s => forBrk xs s f
      | .done r => ok (.done r)) := rfl

/-- Rule for a loop with early exit: `I` holds with the elements still to come, `Q` of the value at
an early exit. -/
theorem forBrk_sat {f : α → σ → Res (Ctl σ ρ)} (I : List α → σ → Prop) (Q : ρ → Prop) :
    ∀ (l : List α) (s : σ), I l s →
    (∀ x xs s, x ∈ l → I (x :: xs) s → Sat (f x s) (fun c => match c with
      | .next s => I xs s
      | .done r => Q r)) →
    Sat (forBrk l s f) (fun c => match c with
      | .next s => I [] s
      | .done r => Q r) := by
  intro l
  induction l with
  | nil => intro s h _; simpa using h
  | cons x xs ih =>
    intro s h hs
    rw [forBrk_cons, sat_bind]
    refine (hs x xs s (by simp) h).mono ?_
    rintro (s' | r) hc
    · exact ih s' hc fun y ys s hy => hs y ys s (List.mem_cons_of_mem _ hy)
    · simpa using hc

/-- Rule for `for x in l` with the invariant speaking of the elements still to come. -/
theorem forList_satR {f : α → σ → Res σ} (I : List α → σ → Prop) :
    ∀ (l : List α) (s : σ), I l s →
    (∀ x xs s, x ∈ l → I (x :: xs) s → Sat (f x s) (I xs)) → Sat (forList l s f) (I []) := by
  intro l
  induction l with
  | nil => intro s h _; simpa using h
  | cons x xs ih =>
    intro s h hs
    rw [forList_cons, sat_bind]
    exact (hs x xs s (by simp) h).mono fun s' h' => ih s' h' fun y ys s hy =>
      hs y ys s (List.mem_cons_of_mem _ hy)

end Verif.Res
