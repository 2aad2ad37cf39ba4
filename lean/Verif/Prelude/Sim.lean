import Verif.Prelude.Loop
/-! Two runs of the same program with related data. -/
namespace Verif
namespace Res

/-- Two calls behave alike: both return related values, both panic, or both run out of fuel; where `p`
holds the first alone may panic, where `q` holds the second alone may. -/
def Sim (p q : Prop) (Q : α → β → Prop) (x : Res α) (y : Res β) : Prop :=
  (p ∧ x = panic) ∨ (q ∧ y = panic) ∨ (x = panic ∧ y = panic) ∨ (x = diverge ∧ y = diverge) ∨
    ∃ a b, x = ok a ∧ y = ok b ∧ Q a b

/-- Lists of the same length with related entries. -/
def ListRel (R : α → β → Prop) (l : List α) (m : List β) : Prop :=
  l.length = m.length ∧ ∀ (i : Nat) (a : α) (b : β), l[i]? = some a → m[i]? = some b → R a b

variable {p q : Prop}

theorem sim_ok {Q : α → β → Prop} {a : α} {b : β} (h : Q a b) : Sim p q Q (ok a) (ok b) :=
  .inr (.inr (.inr (.inr ⟨a, b, rfl, rfl, h⟩)))

theorem sim_panic {Q : α → β → Prop} : Sim p q Q panic panic := .inr (.inr (.inl ⟨rfl, rfl⟩))

theorem sim_diverge {Q : α → β → Prop} : Sim p q Q diverge diverge :=
  .inr (.inr (.inr (.inl ⟨rfl, rfl⟩)))

theorem sim_bind {Q : α → β → Prop} {P : γ → δ → Prop} {x : Res α} {y : Res β} {f : α → Res γ}
    {g : β → Res δ} (h : Sim p q Q x y) (hf : ∀ a b, Q a b → Sim p q P (f a) (g b)) :
    Sim p q P (x >>= f) (y >>= g) := by
  rcases h with ⟨h, e⟩ | ⟨h, e⟩ | ⟨e1, e2⟩ | ⟨e1, e2⟩ | ⟨a, b, e1, e2, h⟩
  · exact .inl ⟨h, by rw [e]; rfl⟩
  · exact .inr (.inl ⟨h, by rw [e]; rfl⟩)
  · rw [e1, e2]; exact sim_panic
  · rw [e1, e2]; exact sim_diverge
  · rw [e1, e2]; exact hf a b h

theorem Sim.mono {Q P : α → β → Prop} {x : Res α} {y : Res β} (h : Sim p q Q x y)
    (hQ : ∀ a b, Q a b → P a b) : Sim p q P x y := by
  rcases h with h | h | h | h | ⟨a, b, e1, e2, h⟩
  · exact .inl h
  · exact .inr (.inl h)
  · exact .inr (.inr (.inl h))
  · exact .inr (.inr (.inr (.inl h)))
  · exact .inr (.inr (.inr (.inr ⟨a, b, e1, e2, hQ a b h⟩)))

theorem sim_refl {x : Res α} : Sim p q Eq x x := by
  cases x
  · exact sim_ok rfl
  · exact sim_panic
  · exact sim_diverge

theorem sim_assert {c : Prop} [Decidable c] {P : γ → δ → Prop} {f : Unit → Res γ} {g : Unit → Res δ}
    (h : c → Sim p q P (f ()) (g ())) : Sim p q P (assert c >>= f) (assert c >>= g) := by
  by_cases hc : c
  · rw [assert_true hc]; exact h hc
  · rw [assert_false hc]; exact sim_panic

theorem sim_ite {c : Prop} [Decidable c] {Q : α → β → Prop} {x x' : Res α} {y y' : Res β}
    (h : Sim p q Q x y) (h' : Sim p q Q x' y') : Sim p q Q (if c then x else x') (if c then y else y') := by
  split
  · exact h
  · exact h'

theorem sim_idx {R : α → β → Prop} {l : List α} {m : List β} (h : ListRel R l m) (i : Nat) :
    Sim p q R (idx l i) (idx m i) := by
  by_cases hi : i < l.length
  · have hi' : i < m.length := h.1 ▸ hi
    rw [idx_of_lt hi, idx_of_lt hi']
    exact sim_ok (h.2 i _ _ (List.getElem?_eq_getElem hi) (List.getElem?_eq_getElem hi'))
  · rw [idx_panic (Nat.le_of_not_lt hi), idx_panic (h.1 ▸ Nat.le_of_not_lt hi)]
    exact sim_panic

theorem ListRel.set {R : α → β → Prop} {l : List α} {m : List β} (h : ListRel R l m) (i : Nat) {a : α} {b : β}
    (hab : R a b) : ListRel R (l.set i a) (m.set i b) := by
  refine ⟨by simp [h.1], ?_⟩
  intro j c d hc hd
  rw [List.getElem?_set] at hc hd
  by_cases e : i = j
  · subst e
    simp only [if_true] at hc hd
    split at hc
    · rw [if_pos (h.1 ▸ ‹_›)] at hd
      cases hc; cases hd; exact hab
    · cases hc
  · rw [if_neg e] at hc hd
    exact h.2 j c d hc hd

theorem sim_upd {R : α → β → Prop} {l : List α} {m : List β} (h : ListRel R l m) (i : Nat) {a : α} {b : β}
    (hab : R a b) : Sim p q (ListRel R) (upd l i a) (upd m i b) := by
  by_cases hi : i < l.length
  · rw [upd_of_lt hi, upd_of_lt (h.1 ▸ hi)]
    exact sim_ok (h.set i hab)
  · rw [upd_panic (Nat.le_of_not_lt hi), upd_panic (h.1 ▸ Nat.le_of_not_lt hi)]
    exact sim_panic

theorem ListRel.replicate {R : α → β → Prop} {a : α} {b : β} (h : R a b) (n : Nat) :
    ListRel R (List.replicate n a) (List.replicate n b) := by
  refine ⟨by simp, ?_⟩
  intro i c d hc hd
  rw [List.getElem?_replicate] at hc hd
  split at hc
  · rw [if_pos ‹_›] at hd; cases hc; cases hd; exact h
  · cases hc

theorem sim_forCount {Q : σ → τ → Prop} {f : Nat → σ → Res σ} {g : Nat → τ → Res τ}
    (hf : ∀ i s t, Q s t → Sim p q Q (f i s) (g i t)) :
    ∀ (cnt i : Nat) (s : σ) (t : τ), Q s t → Sim p q Q (forCount cnt i s f) (forCount cnt i t g) := by
  intro cnt
  induction cnt with
  | zero => intro i s t h; exact sim_ok h
  | succ cnt ih => intro i s t h; exact sim_bind (hf i s t h) fun a b hab => ih (i + 1) a b hab

theorem sim_forRange {Q : σ → τ → Prop} {f : Nat → σ → Res σ} {g : Nat → τ → Res τ} {lo hi : Nat} {s : σ}
    {t : τ} (h : Q s t) (hf : ∀ i s t, Q s t → Sim p q Q (f i s) (g i t)) :
    Sim p q Q (forRange lo hi s f) (forRange lo hi t g) := sim_forCount hf _ _ _ _ h

theorem sim_forRangeRev {Q : σ → τ → Prop} {f : Nat → σ → Res σ} {g : Nat → τ → Res τ} {lo hi : Nat} {s : σ}
    {t : τ} (h : Q s t) (hf : ∀ i s t, Q s t → Sim p q Q (f i s) (g i t)) :
    Sim p q Q (forRangeRev lo hi s f) (forRangeRev lo hi t g) := by
  unfold forRangeRev
  generalize hi - lo = cnt
  induction cnt generalizing s t with
  | zero => exact sim_ok h
  | succ cnt ih => exact sim_bind (hf _ s t h) fun a b hab => ih hab

theorem sim_while {Q : σ → τ → Prop} {c : σ → Res Bool} {d : τ → Res Bool} {f : σ → Res σ} {g : τ → Res τ}
    {fuel : Nat} {s : σ} {t : τ} (h : Q s t) (hc : ∀ s t, Q s t → Sim p q Eq (c s) (d t))
    (hf : ∀ s t, Q s t → Sim p q Q (f s) (g t)) :
    Sim p q Q (whileLoop fuel s c f) (whileLoop fuel t d g) := by
  induction fuel generalizing s t with
  | zero => exact sim_diverge
  | succ n ih =>
    refine sim_bind (hc s t h) ?_
    rintro b _ rfl
    cases b
    · exact sim_ok h
    · exact sim_bind (hf s t h) fun a b hab => ih hab

/-- What a loop body decides, related. -/
def CtlRel (Q : σ → τ → Prop) (P : α → β → Prop) : Ctl σ α → Ctl τ β → Prop
  | .next s, .next t => Q s t
  | .done a, .done b => P a b
  | _, _ => False

theorem sim_loop {Q : σ → τ → Prop} {P : α → β → Prop} {f : σ → Res (Ctl σ α)} {g : τ → Res (Ctl τ β)}
    {fuel : Nat} {s : σ} {t : τ} (h : Q s t) (hf : ∀ s t, Q s t → Sim p q (CtlRel Q P) (f s) (g t)) :
    Sim p q P (loop fuel s f) (loop fuel t g) := by
  induction fuel generalizing s t with
  | zero => exact sim_diverge
  | succ n ih =>
    refine sim_bind (hf s t h) ?_
    intro c d hcd
    cases c <;> cases d
    · exact ih hcd
    · exact hcd.elim
    · exact hcd.elim
    · exact sim_ok hcd

theorem sim_idx' {R : α → β → Prop} {l : List α} {m : List β} (h : ListRel R l m) (i : Nat) :
    Sim p q (fun a b => R a b ∧ l[i]? = some a) (idx l i) (idx m i) := by
  by_cases hi : i < l.length
  · have hi' : i < m.length := h.1 ▸ hi
    rw [idx_of_lt hi, idx_of_lt hi']
    exact sim_ok ⟨h.2 i _ _ (List.getElem?_eq_getElem hi) (List.getElem?_eq_getElem hi'), List.getElem?_eq_getElem hi⟩
  · rw [idx_panic (Nat.le_of_not_lt hi), idx_panic (h.1 ▸ Nat.le_of_not_lt hi)]
    exact sim_panic

theorem sim_upd' {R : α → β → Prop} {l : List α} {m : List β} (h : ListRel R l m) (i : Nat) {a : α} {b : β}
    (hab : R a b) : Sim p q (fun l' m' => ListRel R l' m' ∧ l' = l.set i a) (upd l i a) (upd m i b) := by
  by_cases hi : i < l.length
  · rw [upd_of_lt hi, upd_of_lt (h.1 ▸ hi)]
    exact sim_ok ⟨h.set i hab, rfl⟩
  · rw [upd_panic (Nat.le_of_not_lt hi), upd_panic (h.1 ▸ Nat.le_of_not_lt hi)]
    exact sim_panic

theorem sim_forRangeI {Q : Nat → σ → τ → Prop} {f : Nat → σ → Res σ} {g : Nat → τ → Res τ} {lo hi : Nat} {s : σ}
    {t : τ} (hle : lo ≤ hi) (h : Q lo s t)
    (hf : ∀ i s t, lo ≤ i → i < hi → Q i s t → Sim p q (Q (i + 1)) (f i s) (g i t)) :
    Sim p q (Q hi) (forRange lo hi s f) (forRange lo hi t g) := by
  unfold forRange
  have : ∀ cnt i s t, i + cnt = hi → lo ≤ i → Q i s t → Sim p q (Q hi) (forCount cnt i s f) (forCount cnt i t g) := by
    intro cnt
    induction cnt with
    | zero => intro i s t e _ h; cases e; exact sim_ok h
    | succ cnt ih =>
      intro i s t e hi h
      exact sim_bind (hf i s t hi (by omega) h) fun a b hab => ih (i + 1) a b (by omega) (by omega) hab
  exact this _ lo s t (by omega) (Nat.le_refl _) h

theorem sim_forRangeRevI {Q : Nat → σ → τ → Prop} {f : Nat → σ → Res σ} {g : Nat → τ → Res τ} {lo hi : Nat} {s : σ}
    {t : τ} (hle : lo ≤ hi) (h : Q hi s t)
    (hf : ∀ i s t, lo ≤ i → i < hi → Q (i + 1) s t → Sim p q (Q i) (f i s) (g i t)) :
    Sim p q (Q lo) (forRangeRev lo hi s f) (forRangeRev lo hi t g) := by
  unfold forRangeRev
  have : ∀ cnt s t, cnt ≤ hi - lo → Q (lo + cnt) s t → Sim p q (Q lo) (forRevCount cnt lo s f) (forRevCount cnt lo t g) := by
    intro cnt
    induction cnt with
    | zero => intro s t _ h; exact sim_ok h
    | succ cnt ih =>
      intro s t hc h
      exact sim_bind (hf _ s t (by omega) (by omega) h) fun a b hab => ih a b (by omega) hab
  exact this _ s t (Nat.le_refl _) (by rw [show lo + (hi - lo) = hi by omega]; exact h)

/-- The condition is known in the body and after the loop. -/
theorem sim_whileC {Q P : σ → τ → Prop} {c : σ → Res Bool} {d : τ → Res Bool} {f : σ → Res σ} {g : τ → Res τ}
    {fuel : Nat} {s : σ} {t : τ} (h : Q s t)
    (hs : ∀ s t, Q s t → Sim p q (fun b b' => b = b' ∧ (if b then Sim p q Q (f s) (g t) else P s t)) (c s) (d t)) :
    Sim p q P (whileLoop fuel s c f) (whileLoop fuel t d g) := by
  induction fuel generalizing s t with
  | zero => exact sim_diverge
  | succ n ih =>
    refine sim_bind (hs s t h) ?_
    rintro b _ ⟨rfl, hb⟩
    cases b
    · exact sim_ok hb
    · exact sim_bind hb fun a b hab => ih hab

end Res
end Verif
