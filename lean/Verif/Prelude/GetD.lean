import Mathlib.Data.List.Basic
/-! Lists read as functions with a default value. -/
namespace Verif

theorem getD_set {α : Type} {l : List α} {u x : Nat} {a d : α} (hu : u < l.length) :
    (l.set u a).getD x d = if x = u then a else l.getD x d := by
  rw [List.getD_eq_getElem?_getD, List.getD_eq_getElem?_getD, List.getElem?_set]
  by_cases h : u = x
  · subst h; simp [hu]
  · simp [h, Ne.symm h]

theorem some_getD {α : Type} {l : List α} {x : Nat} (d : α) (hx : x < l.length) :
    l[x]? = some (l.getD x d) := by
  rw [List.getD_eq_getElem?_getD]; simp [hx]

theorem getD_of_le {α : Type} {l : List α} {x : Nat} {d : α} (hx : l.length ≤ x) :
    l.getD x d = d := by
  rw [List.getD_eq_getElem?_getD, List.getElem?_eq_none hx]; rfl

theorem lt_of_getD_ne {α : Type} {l : List α} {x : Nat} {d : α} (h : l.getD x d ≠ d) :
    x < l.length := by
  apply Nat.lt_of_not_le
  exact fun hl => h (getD_of_le hl)

theorem getD_replicate {α : Type} {n x : Nat} {d : α} : (List.replicate n d).getD x d = d := by
  rw [List.getD_eq_getElem?_getD, List.getElem?_replicate]
  split <;> rfl

theorem mem_getD_lt {α : Type} {l : List (List α)} {x : Nat} {v : α} (h : v ∈ l.getD x []) :
    x < l.length := by
  apply lt_of_getD_ne (d := [])
  intro e; rw [e] at h; simp at h

theorem countP_visit {l : List Int} {u : Nat} {a : Int} (hu : u < l.length)
    (h : l.getD u (-1) = -1) (ha : a ≠ -1) :
    (l.set u a).countP (fun o => decide (o ≠ -1)) = l.countP (fun o => decide (o ≠ -1)) + 1 := by
  rw [List.countP_set hu]
  have : l[u] = -1 := by
    rw [List.getD_eq_getElem?_getD] at h; simpa [hu] using h
  simp [this, ha]

end Verif
