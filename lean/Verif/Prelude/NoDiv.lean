import Verif.Prelude.Int
/-! Rules for "does not run forever". -/
namespace Verif.Res

theorem nd_ok {α : Type} {a : α} : (ok a : Res α) ≠ .diverge := fun h => by cases h
theorem nd_panic {α : Type} : (.panic : Res α) ≠ .diverge := fun h => by cases h

theorem nd_bind {α β : Type} {x : Res α} {f : α → Res β} (h : x ≠ .diverge) (h' : ∀ v, f v ≠ .diverge) :
    x >>= f ≠ .diverge := by
  rcases x with v | _ | _
  · exact h' v
  · exact fun h => by cases h
  · exact absurd rfl h

theorem nd_idx {α : Type} {l : List α} {i : Nat} : idx l i ≠ .diverge := by
  unfold idx; split
  · exact nd_ok
  · exact nd_panic

theorem nd_upd {α : Type} {l : List α} {i : Nat} {a : α} : upd l i a ≠ .diverge := by
  unfold upd; split
  · exact nd_ok
  · exact nd_panic

theorem nd_addU {w a b : Nat} : addU w a b ≠ .diverge := by
  unfold addU; split
  · exact nd_ok
  · exact nd_panic

theorem nd_subU {a b : Nat} : subU a b ≠ .diverge := by
  unfold subU; split
  · exact nd_ok
  · exact nd_panic

theorem nd_forRange {σ : Type} {f : Nat → σ → Res σ} {lo hi : Nat} {s : σ} (h : ∀ i s, f i s ≠ .diverge) :
    forRange lo hi s f ≠ .diverge := by
  unfold forRange
  generalize hi - lo = c
  induction c generalizing lo s with
  | zero => exact nd_ok
  | succ c ih => exact nd_bind (h _ _) fun _ => ih

theorem nd_forList {α σ : Type} {f : α → σ → Res σ} {l : List α} {s : σ} (h : ∀ x ∈ l, ∀ s, f x s ≠ .diverge) :
    forList l s f ≠ .diverge := by
  induction l generalizing s with
  | nil => exact nd_ok
  | cons x l ih =>
    exact nd_bind (h x (by simp) _) fun _ => ih fun y hy s => h y (List.mem_cons_of_mem _ hy) s

theorem bind_ok_inv {α β : Type} {x : Res α} {f : α → Res β} {r : β} (h : x >>= f = ok r) :
    ∃ a, x = ok a ∧ f a = ok r := by
  rcases x with a | _ | _
  · exact ⟨a, rfl, h⟩
  · cases h
  · cases h

/-- If a loop over a list returns, its body has returned for every element. -/
theorem forList_ok_mem {α σ : Type} {f : α → σ → Res σ} {l : List α} {s r : σ} (h : forList l s f = ok r) {x : α}
    (hx : x ∈ l) : ∃ s' r', f x s' = ok r' := by
  induction l generalizing s with
  | nil => simp at hx
  | cons y l ih =>
    obtain ⟨s', h1, h2⟩ := bind_ok_inv h
    rcases List.mem_cons.1 hx with rfl | hx
    · exact ⟨_, _, h1⟩
    · exact ih h2 hx

theorem forList_congr {α σ : Type} {f f' : α → σ → Res σ} {l : List α} {s : σ} (h : ∀ x ∈ l, ∀ s, f x s = f' x s) :
    forList l s f = forList l s f' := by
  induction l generalizing s with
  | nil => rfl
  | cons y l ih =>
    show f y s >>= _ = f' y s >>= _
    rw [h y (by simp)]
    congr 1
    funext s'
    exact ih fun x hx s => h x (List.mem_cons_of_mem _ hx) s

end Verif.Res
