/-!
# The result monad used by the model

`Res α` is the outcome of a Rust call in the debug profile:
* `ok a`    : the call returns `a`,
* `panic`   : the call panics (index out of bounds, failed `assert!`, `unwrap` on `None`,
              arithmetic overflow, division by zero, `todo!()`),
* `diverge` : the fuel given to a loop or a recursive function ran out.

No part of `/repo` is modelled in this file; it is the semantics of the Rust fragment the
model is written in.
-/

namespace Verif

/-- Outcome of a Rust call. -/
inductive Res (α : Type u) : Type u where
  | ok (a : α)
  | panic
  | diverge
  deriving DecidableEq, Repr

namespace Res

@[inline] protected def bind {α : Type u} {β : Type v} (x : Res α) (f : α → Res β) : Res β :=
  match x with
  | ok a => f a
  | panic => panic
  | diverge => diverge

instance : Monad Res where
  pure := ok
  bind := Res.bind

@[simp] theorem pure_def (a : α) : (pure a : Res α) = ok a := rfl
@[simp] theorem ok_bind (a : α) (f : α → Res β) : (ok a >>= f) = f a := rfl
@[simp] theorem panic_bind (f : α → Res β) : ((panic : Res α) >>= f) = panic := rfl
@[simp] theorem diverge_bind (f : α → Res β) : ((diverge : Res α) >>= f) = diverge := rfl
@[simp] theorem bind_ok (x : Res α) : (x >>= ok) = x := by cases x <;> rfl
@[simp] theorem map_ok (f : α → β) (a : α) : (f <$> (ok a : Res α)) = ok (f a) := rfl

theorem bind_assoc (x : Res α) (f : α → Res β) (g : β → Res γ) :
    ((x >>= f) >>= g) = (x >>= fun a => f a >>= g) := by cases x <;> rfl

instance : LawfulMonad Res := LawfulMonad.mk'
  (id_map := fun x => by cases x <;> rfl)
  (pure_bind := fun _ _ => rfl)
  (bind_assoc := fun x _ _ => by cases x <;> rfl)
  (bind_pure_comp := fun _ x => by cases x <;> rfl)

/-- Total correctness: the call returns normally with a value satisfying `P`. -/
def Sat (r : Res α) (P : α → Prop) : Prop := ∃ a, r = ok a ∧ P a

@[simp] theorem sat_ok (a : α) (P : α → Prop) : Sat (ok a) P ↔ P a := by
  simp [Sat]
@[simp] theorem sat_panic (P : α → Prop) : Sat (panic : Res α) P ↔ False := by
  simp [Sat]
@[simp] theorem sat_diverge (P : α → Prop) : Sat (diverge : Res α) P ↔ False := by
  simp [Sat]
@[simp] theorem sat_bind (r : Res α) (f : α → Res β) (P : β → Prop) :
    Sat (r >>= f) P ↔ Sat r (fun a => Sat (f a) P) := by
  cases r <;> simp

theorem Sat.mono {r : Res α} {P Q : α → Prop} (h : Sat r P) (hpq : ∀ a, P a → Q a) : Sat r Q := by
  obtain ⟨a, h1, h2⟩ := h; exact ⟨a, h1, hpq a h2⟩

theorem Sat.and {r : Res α} {P Q : α → Prop} (h : Sat r P) (h' : Sat r Q) :
    Sat r (fun a => P a ∧ Q a) := by
  obtain ⟨a, h1, h2⟩ := h; obtain ⟨b, h3, h4⟩ := h'
  rw [h1] at h3; cases h3; exact ⟨a, h1, h2, h4⟩

theorem sat_ite {c : Prop} [Decidable c] {a b : Res α} {P : α → Prop} :
    Sat (if c then a else b) P ↔ (c → Sat a P) ∧ (¬ c → Sat b P) := by
  split <;> simp [*]

/-- `assert!(c)` (with an arbitrary condition). -/
def assert (c : Prop) [Decidable c] : Res Unit := if c then ok () else panic

@[simp] theorem sat_assert (c : Prop) [Decidable c] (P : Unit → Prop) :
    Sat (assert c) P ↔ c ∧ P () := by
  unfold assert; split <;> simp [*]
theorem assert_true {c : Prop} [Decidable c] (h : c) : assert c = ok () := by simp [assert, h]
theorem assert_false {c : Prop} [Decidable c] (h : ¬ c) : assert c = panic := by simp [assert, h]

/-- `v[i]` on a `Vec`: panics when out of bounds. -/
def idx (l : List α) (i : Nat) : Res α :=
  match l[i]? with
  | some a => ok a
  | none => panic

theorem idx_eq_ok {l : List α} {i : Nat} {a : α} : idx l i = ok a ↔ l[i]? = some a := by
  unfold idx; split <;> simp [*]
theorem idx_of_some {l : List α} {i : Nat} {a : α} (h : l[i]? = some a) : idx l i = ok a :=
  idx_eq_ok.2 h
theorem idx_of_lt {l : List α} {i : Nat} (h : i < l.length) : idx l i = ok l[i] := by
  simp [idx, h]
theorem idx_panic {l : List α} {i : Nat} (h : l.length ≤ i) : idx l i = panic := by
  simp [idx, h]
@[simp] theorem sat_idx (l : List α) (i : Nat) (P : α → Prop) :
    Sat (idx l i) P ↔ ∃ a, l[i]? = some a ∧ P a := by
  simp only [Sat, idx_eq_ok]

/-- `v[i] = a` on a `Vec`: panics when out of bounds. -/
def upd (l : List α) (i : Nat) (a : α) : Res (List α) :=
  if i < l.length then ok (l.set i a) else panic

theorem upd_of_lt {l : List α} {i : Nat} {a : α} (h : i < l.length) :
    upd l i a = ok (l.set i a) := by simp [upd, h]
theorem upd_panic {l : List α} {i : Nat} {a : α} (h : l.length ≤ i) :
    upd l i a = panic := by simp [upd, Nat.not_lt.2 h]
@[simp] theorem sat_upd (l : List α) (i : Nat) (a : α) (P : List α → Prop) :
    Sat (upd l i a) P ↔ i < l.length ∧ P (l.set i a) := by
  unfold upd; split <;> simp [*]

/-- `opt.unwrap()`. -/
def unwrap : Option α → Res α
  | some a => ok a
  | none => panic
@[simp] theorem unwrap_some (a : α) : unwrap (some a) = ok a := rfl
@[simp] theorem unwrap_none : unwrap (none : Option α) = panic := rfl
@[simp] theorem sat_unwrap (o : Option α) (P : α → Prop) :
    Sat (unwrap o) P ↔ ∃ a, o = some a ∧ P a := by
  cases o <;> simp

/-- `for i in lo..hi { s = f(i, s) }`. -/
def forCount (cnt : Nat) (i : Nat) (s : σ) (f : Nat → σ → Res σ) : Res σ :=
  match cnt with
  | 0 => ok s
  | cnt + 1 => f i s >>= fun s' => forCount cnt (i + 1) s' f

/-- `for i in lo..hi { s = f(i, s) }` (empty when `hi ≤ lo`). -/
def forRange (lo hi : Nat) (s : σ) (f : Nat → σ → Res σ) : Res σ :=
  forCount (hi - lo) lo s f

/-- `for i in (lo..hi).rev() { s = f(i, s) }`: runs `i = lo + cnt - 1, …, lo`. -/
def forRevCount (cnt : Nat) (lo : Nat) (s : σ) (f : Nat → σ → Res σ) : Res σ :=
  match cnt with
  | 0 => ok s
  | cnt + 1 => f (lo + cnt) s >>= fun s' => forRevCount cnt lo s' f

/-- `for i in (lo..hi).rev()`. -/
def forRangeRev (lo hi : Nat) (s : σ) (f : Nat → σ → Res σ) : Res σ :=
  forRevCount (hi - lo) lo s f

/-- `for x in list { s = f(x, s) }`. -/
def forList (l : List α) (s : σ) (f : α → σ → Res σ) : Res σ :=
  match l with
  | [] => ok s
  | x :: xs => f x s >>= fun s' => forList xs s' f

/-- What a loop body does next: go round again, or leave the loop. -/
inductive Ctl (σ : Type u) (ρ : Type v) where
  | next (s : σ)
  | done (r : ρ)

/-- `loop { … }` with `break`/`return` value, run with fuel. -/
def loop (fuel : Nat) (s : σ) (body : σ → Res (Ctl σ ρ)) : Res ρ :=
  match fuel with
  | 0 => diverge
  | fuel + 1 => body s >>= fun c =>
    match c with
    | .next s' => loop fuel s' body
    | .done r => ok r

/-- `while cond { body }`, run with fuel. -/
def whileLoop (fuel : Nat) (s : σ) (cond : σ → Res Bool) (body : σ → Res σ) : Res σ :=
  match fuel with
  | 0 => diverge
  | fuel + 1 => cond s >>= fun b =>
    if b then body s >>= fun s' => whileLoop fuel s' cond body else ok s

theorem forCount_sat {f : Nat → σ → Res σ} (I : Nat → σ → Prop) :
    ∀ (cnt i : Nat) (s : σ), I i s →
      (∀ j t, i ≤ j → j < i + cnt → I j t → Sat (f j t) (I (j + 1))) →
      Sat (forCount cnt i s f) (I (i + cnt)) := by
  intro cnt
  induction cnt with
  | zero => intro i s h _; simpa [forCount] using h
  | succ cnt ih =>
    intro i s h hs
    simp only [forCount, sat_bind]
    refine (hs i s (Nat.le_refl _) (by omega) h).mono fun t ht => ?_
    have := ih (i + 1) t ht (fun j u h1 h2 h3 => hs j u (by omega) (by omega) h3)
    simpa [Nat.add_assoc, Nat.add_comm 1 cnt] using this

/-- Invariant rule for `for i in lo..hi`. -/
theorem forRange_sat {f : Nat → σ → Res σ} (I : Nat → σ → Prop) {lo hi : Nat} {s : σ}
    (hle : lo ≤ hi) (h0 : I lo s)
    (hs : ∀ j t, lo ≤ j → j < hi → I j t → Sat (f j t) (I (j + 1))) :
    Sat (forRange lo hi s f) (I hi) := by
  have := forCount_sat I (hi - lo) lo s h0 (fun j t h1 h2 h3 => hs j t h1 (by omega) h3)
  rw [show lo + (hi - lo) = hi by omega] at this
  exact this

theorem forRange_empty {f : Nat → σ → Res σ} {lo hi : Nat} {s : σ} (h : hi ≤ lo) :
    forRange lo hi s f = ok s := by
  simp [forRange, Nat.sub_eq_zero_of_le h, forCount]

theorem forRange_succ {f : Nat → σ → Res σ} {lo hi : Nat} {s : σ} (h : lo < hi) :
    forRange lo hi s f = (f lo s >>= fun s' => forRange (lo + 1) hi s' f) := by
  unfold forRange
  rw [show hi - lo = (hi - (lo + 1)) + 1 by omega]
  rfl

/-- Invariant rule for `for i in (lo..hi).rev()`: `I i` holds once indices `≥ i` are done. -/
theorem forRangeRev_sat {f : Nat → σ → Res σ} (I : Nat → σ → Prop) {lo hi : Nat} {s : σ}
    (hle : lo ≤ hi) (h0 : I hi s)
    (hs : ∀ j t, lo ≤ j → j < hi → I (j + 1) t → Sat (f j t) (I j)) :
    Sat (forRangeRev lo hi s f) (I lo) := by
  unfold forRangeRev
  have : ∀ cnt t, cnt ≤ hi - lo → I (lo + cnt) t → Sat (forRevCount cnt lo t f) (I lo) := by
    intro cnt
    induction cnt with
    | zero => intro t _ h; simpa [forRevCount] using h
    | succ cnt ih =>
      intro t hc h
      simp only [forRevCount, sat_bind]
      exact (hs (lo + cnt) t (by omega) (by omega) h).mono fun u hu => ih u (by omega) hu
  exact this (hi - lo) s (Nat.le_refl _) (by rw [show lo + (hi - lo) = hi by omega]; exact h0)

/-- Invariant rule for `for x in list`: `I done` where `done` is the processed prefix. -/
theorem forList_sat {f : α → σ → Res σ} (I : List α → σ → Prop) :
    ∀ (l pre : List α) (s : σ), I pre s →
      (∀ p x r t, pre ++ l = p ++ x :: r → I p t → Sat (f x t) (I (p ++ [x]))) →
      Sat (forList l s f) (I (pre ++ l)) := by
  intro l
  induction l with
  | nil => intro pre s h _; simpa [forList] using h
  | cons x xs ih =>
    intro pre s h hs
    simp only [forList, sat_bind]
    refine (hs pre x xs s rfl h).mono fun t ht => ?_
    have := ih (pre ++ [x]) t ht (fun p y r u he hp => hs p y r u (by simpa using he) hp)
    simpa using this

@[simp] theorem forList_nil {f : α → σ → Res σ} {s : σ} : forList [] s f = ok s := rfl
@[simp] theorem forList_cons {f : α → σ → Res σ} {s : σ} {x : α} {xs : List α} :
    forList (x :: xs) s f = (f x s >>= fun s' => forList xs s' f) := rfl

theorem forList_append {f : α → σ → Res σ} {s : σ} {xs ys : List α} :
    forList (xs ++ ys) s f = (forList xs s f >>= fun s' => forList ys s' f) := by
  induction xs generalizing s with
  | nil => rfl
  | cons x xs ih => simp only [List.cons_append, forList_cons, bind_assoc, ih]

/-- Total-correctness rule for `while`: invariant `I`, variant `μ`. -/
theorem whileLoop_sat {cond : σ → Res Bool} {body : σ → Res σ} (I : σ → Prop) (μ : σ → Nat)
    (Q : σ → Prop)
    (hstep : ∀ s, I s → Sat (cond s) (fun b =>
      if b then Sat (body s) (fun s' => I s' ∧ μ s' < μ s) else Q s)) :
    ∀ (fuel : Nat) (s : σ), I s → μ s < fuel → Sat (whileLoop fuel s cond body) Q := by
  intro fuel
  induction fuel with
  | zero => intro s _ h; omega
  | succ fuel ih =>
    intro s hI hμ
    simp only [whileLoop, sat_bind]
    refine (hstep s hI).mono fun b hb => ?_
    cases b
    · simpa using hb
    · simp only [if_true, sat_bind] at hb ⊢
      exact hb.mono fun s' hs' => ih s' hs'.1 (by omega)

/-- Total-correctness rule for `loop`. -/
theorem loop_sat {body : σ → Res (Ctl σ ρ)} (I : σ → Prop) (μ : σ → Nat) (Q : ρ → Prop)
    (hstep : ∀ s, I s → Sat (body s) (fun c => match c with
      | .next s' => I s' ∧ μ s' < μ s
      | .done r => Q r)) :
    ∀ (fuel : Nat) (s : σ), I s → μ s < fuel → Sat (loop fuel s body) Q := by
  intro fuel
  induction fuel with
  | zero => intro s _ h; omega
  | succ fuel ih =>
    intro s hI hμ
    simp only [loop, sat_bind]
    refine (hstep s hI).mono fun c hc => ?_
    cases c with
    | next s' => exact ih s' hc.1 (by have := hc.2; omega)
    | done r => simpa using hc

/-- `whileLoop_sat` with the variant given by the invariant (`I s k`: state `s` needs at most `k`
further rounds). -/
theorem whileLoop_satG {cond : σ → Res Bool} {body : σ → Res σ} (I : σ → Nat → Prop)
    (Q : σ → Prop)
    (hstep : ∀ s k, I s k → Sat (cond s) (fun b =>
      if b then Sat (body s) (fun s' => ∃ k' < k, I s' k') else Q s)) :
    ∀ (fuel : Nat) (s : σ) (k : Nat), I s k → k < fuel → Sat (whileLoop fuel s cond body) Q := by
  intro fuel
  induction fuel with
  | zero => intro s k _ h; omega
  | succ fuel ih =>
    intro s k hI hμ
    simp only [whileLoop, sat_bind]
    refine (hstep s k hI).mono fun b hb => ?_
    cases b
    · simpa using hb
    · simp only [if_true, sat_bind] at hb ⊢
      refine hb.mono fun s' hs' => ?_
      obtain ⟨k', h1, h2⟩ := hs'
      exact ih s' k' h2 (by omega)

/-- `loop_sat` with the variant given by the invariant. -/
theorem loop_satG {body : σ → Res (Ctl σ ρ)} (I : σ → Nat → Prop) (Q : ρ → Prop)
    (hstep : ∀ s k, I s k → Sat (body s) (fun c => match c with
      | .next s' => ∃ k' < k, I s' k'
      | .done r => Q r)) :
    ∀ (fuel : Nat) (s : σ) (k : Nat), I s k → k < fuel → Sat (loop fuel s body) Q := by
  intro fuel
  induction fuel with
  | zero => intro s k _ h; omega
  | succ fuel ih =>
    intro s k hI hμ
    simp only [loop, sat_bind]
    refine (hstep s k hI).mono fun c hc => ?_
    cases c with
    | next s' => obtain ⟨k', h1, h2⟩ := hc; exact ih s' k' h2 (by omega)
    | done r => simpa using hc

/-- The call returns normally with a value satisfying `P`, or it panics and `b` holds. With
`b := False` this is `Sat`. -/
def SatOr (b : Prop) (r : Res α) (P : α → Prop) : Prop := Sat r P ∨ (b ∧ r = panic)

@[simp] theorem satOr_ok {b : Prop} {a : α} {P : α → Prop} : SatOr b (ok a) P ↔ P a := by
  simp [SatOr]
theorem Sat.toOr {b : Prop} {r : Res α} {P : α → Prop} (h : Sat r P) : SatOr b r P := .inl h
theorem satOr_panic {b : Prop} (h : b) {P : α → Prop} : SatOr b (panic : Res α) P := .inr ⟨h, rfl⟩
theorem SatOr.mono {b : Prop} {r : Res α} {P Q : α → Prop} (h : SatOr b r P)
    (hpq : ∀ a, P a → Q a) : SatOr b r Q := h.imp (fun h => h.mono hpq) id
theorem satOr_bind {b : Prop} {r : Res α} {f : α → Res β} {P : β → Prop}
    (h : SatOr b r (fun a => SatOr b (f a) P)) : SatOr b (r >>= f) P := by
  rcases h with ⟨a, rfl, h⟩ | ⟨hb, rfl⟩
  · exact h
  · exact .inr ⟨hb, rfl⟩
theorem SatOr.sat {b : Prop} {r : Res α} {P : α → Prop} (h : SatOr b r P) (hb : ¬ b) : Sat r P :=
  h.resolve_right fun h => hb h.1
theorem SatOr.panic {b : Prop} {r : Res α} {P : α → Prop} (h : SatOr b r P) (hP : ∀ a, ¬ P a) :
    r = .panic := by
  rcases h with ⟨a, _, h⟩ | h
  · exact absurd h (hP a)
  · exact h.2

theorem forList_satOr {b : Prop} {f : α → σ → Res σ} (I : List α → σ → Prop) :
    ∀ (l pre : List α) (s : σ), I pre s →
      (∀ p x r t, pre ++ l = p ++ x :: r → I p t → SatOr b (f x t) (I (p ++ [x]))) →
      SatOr b (forList l s f) (I (pre ++ l)) := by
  intro l
  induction l with
  | nil => intro pre s h _; simpa [forList] using h
  | cons x xs ih =>
    intro pre s h hs
    simp only [forList]
    refine satOr_bind ((hs pre x xs s rfl h).mono fun t ht => ?_)
    have := ih (pre ++ [x]) t ht (fun p y r u he hp => hs p y r u (by simpa using he) hp)
    simpa using this

theorem loop_satOrG {b : Prop} {body : σ → Res (Ctl σ ρ)} (I : σ → Nat → Prop) (Q : ρ → Prop)
    (hstep : ∀ s k, I s k → SatOr b (body s) (fun c => match c with
      | .next s' => ∃ k' < k, I s' k'
      | .done r => Q r)) :
    ∀ (fuel : Nat) (s : σ) (k : Nat), I s k → k < fuel → SatOr b (loop fuel s body) Q := by
  intro fuel
  induction fuel with
  | zero => intro s k _ h; omega
  | succ fuel ih =>
    intro s k hI hμ
    simp only [loop]
    refine satOr_bind ((hstep s k hI).mono fun c hc => ?_)
    cases c with
    | next s' => obtain ⟨k', h1, h2⟩ := hc; exact ih s' k' h2 (by omega)
    | done r => simpa using hc

end Res
end Verif
