import Verif.Spec.RecursiveFunction
/-! Theorems about `/repo/src/misc/recursive_function.rs` (C52). -/
namespace Verif.Props
open Model Res Spec

variable {σ A O : Type}

theorem run_mono {r₁ r₂ : A → σ → Res (O × σ)} (h : ∀ a s p, r₁ a s = ok p → r₂ a s = ok p) :
    ∀ (b : Body σ A O) (s : σ) (p : O × σ), b.run r₁ s = ok p → b.run r₂ s = ok p := by
  intro b
  induction b with
  | ret o => intro s p h; exact h
  | get k ih => intro s p h; exact ih s s p h
  | put s' k ih => intro s p h; exact ih s' p h
  | panic => intro s p h; cases h
  | call a k ih =>
    intro s p hb
    simp only [Body.run] at hb ⊢
    cases e : r₁ a s with
    | ok q =>
      rw [e, ok_bind] at hb
      rw [h a s q e, ok_bind]
      exact ih q.1 q.2 p hb
    | panic => rw [e] at hb; cases hb
    | diverge => rw [e] at hb; cases hb

theorem callState_mono {f : A → Body σ A O} {d : Nat} : ∀ {d'}, d ≤ d' → ∀ a s p,
    RecFun.callState f d a s = ok p → RecFun.callState f d' a s = ok p := by
  induction d with
  | zero => intro d' _ a s p h; cases h
  | succ d ih =>
    intro d' hd a s p h
    obtain ⟨d', rfl⟩ : ∃ k, d' = k + 1 := ⟨d' - 1, by omega⟩
    exact run_mono (fun a s p h => ih (by omega) a s p h) (f a) s p h

theorem run_of_runs {f : A → Body σ A O} {b : Body σ A O} {s s' : σ} {o : O} (h : Runs f b s o s') :
    ∃ d, b.run (RecFun.callState f d) s = ok (o, s') := by
  induction h with
  | ret => exact ⟨0, rfl⟩
  | get _ ih => obtain ⟨d, e⟩ := ih; exact ⟨d, e⟩
  | put _ ih => obtain ⟨d, e⟩ := ih; exact ⟨d, e⟩
  | call _ _ ih1 ih2 =>
    rename_i a k s o₁ s₁ o s' _ _
    obtain ⟨d1, e1⟩ := ih1
    obtain ⟨d2, e2⟩ := ih2
    refine ⟨max (d1 + 1) d2, ?_⟩
    have h1 : RecFun.callState f (max (d1 + 1) d2) a s = ok (o₁, s₁) :=
      callState_mono (Nat.le_max_left ..) a s _ (show RecFun.callState f (d1 + 1) a s = _ from e1)
    simp only [Body.run]
    rw [h1, ok_bind]
    exact run_mono (fun a s p h => callState_mono (Nat.le_max_right ..) a s p h) _ _ _ e2

theorem runs_of_run {f : A → Body σ A O} : ∀ (d : Nat) (b : Body σ A O) (s : σ) (o : O) (s' : σ),
    b.run (RecFun.callState f d) s = ok (o, s') → Runs f b s o s' := by
  intro d
  induction d with
  | zero =>
    intro b
    induction b with
    | ret o => intro s o' s' h; cases h; exact .ret
    | get k ih => intro s o s' h; exact .get (ih s s o s' h)
    | put s₁ k ih => intro s o s' h; exact .put (ih s₁ o s' h)
    | panic => intro s o s' h; cases h
    | call a k ih => intro s o s' h; cases h
  | succ d ihd =>
    intro b
    induction b with
    | ret o => intro s o' s' h; cases h; exact .ret
    | get k ih => intro s o s' h; exact .get (ih s s o s' h)
    | put s₁ k ih => intro s o s' h; exact .put (ih s₁ o s' h)
    | panic => intro s o s' h; cases h
    | call a k ih =>
      intro s o s' h
      simp only [Body.run] at h
      cases e : RecFun.callState f (d + 1) a s with
      | ok q =>
        rw [e, ok_bind] at h
        exact .call (ihd (f a) s q.1 q.2 e) (ih q.1 q.2 o s' h)
      | panic => rw [e] at h; cases h
      | diverge => rw [e] at h; cases h

/-- The rules give at most one result. -/
theorem C52_deterministic {f : A → Body σ A O} {b : Body σ A O} {s s₁ s₂ : σ} {o₁ o₂ : O}
    (h₁ : Runs f b s o₁ s₁) (h₂ : Runs f b s o₂ s₂) : o₁ = o₂ ∧ s₁ = s₂ := by
  obtain ⟨d1, e1⟩ := run_of_runs h₁
  obtain ⟨d2, e2⟩ := run_of_runs h₂
  have m1 := run_mono (fun a s p h => callState_mono (Nat.le_max_left d1 d2) a s p h) _ _ _ e1
  have m2 := run_mono (fun a s p h => callState_mono (Nat.le_max_right d1 d2) a s p h) _ _ _ e2
  rw [m1] at m2
  injection m2 with m2
  injection m2 with m3 m4
  exact ⟨m3, m4⟩

/-- **C52.** `call(a)` returns `o`, leaving the captured variables at `s'`, for some bound on the recursion depth and
then for all larger ones, exactly when the recursion of the closure does so. -/
theorem C52_call (f : A → Body σ A O) (s s' : σ) (a : A) (o : O) :
    (∃ d, ∀ d', d ≤ d' → (RecFun.new f s).call d' a = ok (o, RecFun.new f s')) ↔ Runs f (f a) s o s' := by
  constructor
  · rintro ⟨d, h⟩
    have h := h (d + 1) (by omega)
    unfold RecFun.call RecFun.new at h
    simp only [] at h
    cases e : RecFun.callState f (d + 1) a s with
    | ok q =>
      rw [e, ok_bind] at h
      injection h with h
      injection h with h1 h2
      injection h2 with _ h2
      subst h1 h2
      exact runs_of_run d (f a) s q.1 q.2 e
    | panic => rw [e] at h; cases h
    | diverge => rw [e] at h; cases h
  · intro h
    obtain ⟨d, e⟩ := run_of_runs h
    refine ⟨d + 1, fun d' hd => ?_⟩
    have : RecFun.callState f d' a s = ok (o, s') :=
      callState_mono hd a s _ (show RecFun.callState f (d + 1) a s = _ from e)
    unfold RecFun.call RecFun.new
    simp only []
    rw [this, ok_bind]

/-- **C52, no wrong answers.** Whatever the bound on the depth, a result of `call` is the one of the recursion. -/
theorem C52_sound (f : A → Body σ A O) {s : σ} {a : A} {d : Nat} {o : O} {r : RecFun σ A O}
    (h : (RecFun.new f s).call d a = ok (o, r)) : ∃ s', r = RecFun.new f s' ∧ Runs f (f a) s o s' := by
  rcases d with _ | d
  · cases h
  unfold RecFun.call RecFun.new at h
  simp only [] at h
  cases e : RecFun.callState f (d + 1) a s with
  | ok q =>
    rw [e, ok_bind] at h
    injection h with h
    injection h with h1 h2
    subst h1
    exact ⟨q.2, h2.symm, runs_of_run d (f a) s q.1 q.2 e⟩
  | panic => rw [e] at h; cases h
  | diverge => rw [e] at h; cases h

theorem run_mono_panic {r₁ r₂ : A → σ → Res (O × σ)} (h : ∀ a s p, r₁ a s = ok p → r₂ a s = ok p)
    (h' : ∀ a s, r₁ a s = panic → r₂ a s = panic) :
    ∀ (b : Body σ A O) (s : σ), b.run r₁ s = panic → b.run r₂ s = panic := by
  intro b
  induction b with
  | ret o => intro s h; cases h
  | get k ih => intro s h; exact ih s s h
  | put s' k ih => intro s h; exact ih s' h
  | panic => intro s h; rfl
  | call a k ih =>
    intro s hb
    simp only [Body.run] at hb ⊢
    cases e : r₁ a s with
    | ok q =>
      rw [e, ok_bind] at hb
      rw [h a s q e, ok_bind]
      exact ih q.1 q.2 hb
    | panic => rw [h' a s e]; rfl
    | diverge => rw [e] at hb; cases hb

theorem callState_mono_panic {f : A → Body σ A O} {d : Nat} : ∀ {d'}, d ≤ d' → ∀ a s,
    RecFun.callState f d a s = panic → RecFun.callState f d' a s = panic := by
  induction d with
  | zero => intro d' _ a s h; cases h
  | succ d ih =>
    intro d' hd a s h
    obtain ⟨d', rfl⟩ : ∃ k, d' = k + 1 := ⟨d' - 1, by omega⟩
    exact run_mono_panic (fun a s p h => callState_mono (by omega) a s p h) (fun a s h => ih (by omega) a s h) (f a) s h

theorem run_of_panics {f : A → Body σ A O} {b : Body σ A O} {s : σ} (h : Panics f b s) :
    ∃ d, b.run (RecFun.callState f d) s = panic := by
  induction h with
  | here => exact ⟨0, rfl⟩
  | get _ ih => obtain ⟨d, e⟩ := ih; exact ⟨d, e⟩
  | put _ ih => obtain ⟨d, e⟩ := ih; exact ⟨d, e⟩
  | inside _ ih =>
    rename_i a k s _
    obtain ⟨d, e⟩ := ih
    refine ⟨d + 1, ?_⟩
    simp only [Body.run]
    rw [show RecFun.callState f (d + 1) a s = panic from e]
    rfl
  | after h1 _ ih2 =>
    rename_i a k s o₁ s₁ _
    obtain ⟨d1, e1⟩ := run_of_runs h1
    obtain ⟨d2, e2⟩ := ih2
    refine ⟨max (d1 + 1) d2, ?_⟩
    have h1 : RecFun.callState f (max (d1 + 1) d2) a s = ok (o₁, s₁) :=
      callState_mono (Nat.le_max_left ..) a s _ (show RecFun.callState f (d1 + 1) a s = _ from e1)
    simp only [Body.run]
    rw [h1, ok_bind]
    exact run_mono_panic (fun a s p h => callState_mono (Nat.le_max_right ..) a s p h)
      (fun a s h => callState_mono_panic (Nat.le_max_right ..) a s h) _ _ e2

theorem panics_of_run {f : A → Body σ A O} : ∀ (d : Nat) (b : Body σ A O) (s : σ),
    b.run (RecFun.callState f d) s = panic → Panics f b s := by
  intro d
  induction d with
  | zero =>
    intro b
    induction b with
    | ret o => intro s h; cases h
    | get k ih => intro s h; exact .get (ih s s h)
    | put s₁ k ih => intro s h; exact .put (ih s₁ h)
    | panic => intro s h; exact .here
    | call a k ih => intro s h; cases h
  | succ d ihd =>
    intro b
    induction b with
    | ret o => intro s h; cases h
    | get k ih => intro s h; exact .get (ih s s h)
    | put s₁ k ih => intro s h; exact .put (ih s₁ h)
    | panic => intro s h; exact .here
    | call a k ih =>
      intro s h
      simp only [Body.run] at h
      cases e : RecFun.callState f (d + 1) a s with
      | ok q =>
        rw [e, ok_bind] at h
        exact .after (runs_of_run d (f a) s q.1 q.2 e) (ih q.1 q.2 h)
      | panic => exact .inside (ihd (f a) s e)
      | diverge => rw [e] at h; cases h

/-- **C52, panics.** `call(a)` panics, for some bound on the depth and then for all larger ones, exactly when the
recursion of the closure runs into a panic. -/
theorem C52_panics (f : A → Body σ A O) (s : σ) (a : A) :
    (∃ d, ∀ d', d ≤ d' → (RecFun.new f s).call d' a = panic) ↔ Panics f (f a) s := by
  constructor
  · rintro ⟨d, h⟩
    have h := h (d + 1) (by omega)
    unfold RecFun.call RecFun.new at h
    simp only [] at h
    cases e : RecFun.callState f (d + 1) a s with
    | ok q => rw [e, ok_bind] at h; cases h
    | panic => exact panics_of_run d (f a) s e
    | diverge => rw [e] at h; cases h
  · intro h
    obtain ⟨d, e⟩ := run_of_panics h
    refine ⟨d + 1, fun d' hd => ?_⟩
    have : RecFun.callState f d' a s = panic :=
      callState_mono_panic hd a s (show RecFun.callState f (d + 1) a s = _ from e)
    unfold RecFun.call RecFun.new
    simp only []
    rw [this]
    rfl

/-- **C52, the recursive equation.** For a closure that uses no captured variables, if `g` satisfies the recursive
equation of the closure at every argument, then any result of `call(a)` is `g a`. -/
theorem C52_equation (f : A → Body Unit A O) (g : A → O) (hg : ∀ a, bodyValue g (f a) = some (g a))
    {a : A} {d : Nat} {o : O} {r : RecFun Unit A O} (h : (RecFun.new f ()).call d a = ok (o, r)) : o = g a := by
  obtain ⟨s', _, hr⟩ := C52_sound f h
  have key : ∀ {b : Body Unit A O} {s o s'}, Runs f b s o s' → ∀ v, bodyValue g b = some v → o = v := by
    intro b s o s' h
    induction h with
    | ret => intro v h; injection h
    | get _ ih => intro v h; exact ih v h
    | put _ ih => intro v h; exact ih v h
    | call _ _ ih1 ih2 =>
      rename_i a' k _ o₁ _ _ _ _ _
      intro v hv
      have e := ih1 _ (hg a')
      subst e
      exact ih2 v hv
  exact key hr _ (hg a)

/-- **C52, termination.** If moreover the arguments of the recursive calls go down along a measure, `call(a)` does
return, and the result is `g a`. -/
theorem C52_terminates (f : A → Body Unit A O) (g : A → O) (hg : ∀ a, bodyValue g (f a) = some (g a)) (μ : A → Nat)
    (hμ : ∀ a, CallsBelow g μ (μ a) (f a)) (a : A) :
    ∃ d, ∀ d', d ≤ d' → (RecFun.new f ()).call d' a = ok (g a, RecFun.new f ()) := by
  rw [C52_call]
  have key : ∀ n, (∀ a, μ a < n → Runs f (f a) () (g a) ()) → ∀ b : Body Unit A O, CallsBelow g μ n b →
      ∀ v, bodyValue g b = some v → Runs f b () v () := by
    intro n hn b
    induction b with
    | ret o => intro _ v h; injection h with h; subst h; exact .ret
    | get k ih => intro hb v h; exact .get (ih () hb v h)
    | put s k ih => intro hb v h; exact .put (ih hb v h)
    | panic => intro _ v h; cases h
    | call a k ih => intro hb v h; exact .call (hn a hb.1) (ih (g a) hb.2 v h)
  have all : ∀ n a, μ a < n → Runs f (f a) () (g a) () := by
    intro n
    induction n with
    | zero => intro a h; omega
    | succ n ih =>
      intro a h
      exact key (μ a) (fun a' h' => ih a' (by omega)) (f a) (hμ a) _ (hg a)
  exact all (μ a + 1) a (by omega)

/-- Fibonacci, with a counter of calls as captured variable. -/
def fibBody (n : Nat) : Body Nat Nat Nat :=
  .get fun c => .put (c + 1) <|
    if n < 2 then .ret n else .call (n - 1) fun x => .call (n - 2) fun y => .ret (x + y)

example : (match (RecFun.new fibBody 0).call 11 10 with | .ok (o, r) => some (o, r.state) | _ => none) = some (55, 177) ∧
    (match (RecFun.new fibBody 0).call 9 10 with | .diverge => true | _ => false) = true := by decide +kernel

/-- Factorial. -/
def facBody (n : Nat) : Body Unit Nat Nat := if n = 0 then .ret 1 else .call (n - 1) fun x => .ret (n * x)

def facVal : Nat → Nat
  | 0 => 1
  | n + 1 => (n + 1) * facVal n

example : (∀ n, bodyValue facVal (facBody n) = some (facVal n)) ∧ (∀ n, CallsBelow facVal id (id n) (facBody n)) ∧
    facVal 5 = 120 := by
  refine ⟨fun n => ?_, fun n => ?_, rfl⟩
  · cases n <;> simp [facBody, bodyValue, facVal]
  · cases n <;> simp [facBody, CallsBelow]

end Verif.Props
