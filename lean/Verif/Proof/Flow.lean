import Verif.Spec.Flow
import Verif.Prelude.GetD
import Mathlib.Tactic.Ring
import Mathlib.Tactic.Linarith
/-! Flow theory: weak duality. -/
namespace Verif.FlowP
open Spec Finset

/-- Edge number `k`. -/
def ed (N : List NEdge) (k : Nat) : NEdge := N.getD k ⟨0, 0, 0, 0⟩

theorem ed_eq {N : List NEdge} (k : Fin N.length) : ed N k = N[k] := by
  unfold ed
  rw [List.getD_eq_getElem?_getD]; simp

theorem netOut_range (N : List NEdge) (x : Nat → Int) (y : Nat) :
    netOut N x y = ∑ k ∈ range N.length,
      ((if (ed N k).u = y then x k else 0) - (if (ed N k).v = y then x k else 0)) := by
  rw [netOut, Finset.sum_range]
  exact Finset.sum_congr rfl fun k _ => by rw [ed_eq]

theorem cutCap_range (N : List NEdge) (S : Finset Nat) :
    cutCap N S = ∑ k ∈ range N.length, (if (ed N k).u ∈ S ∧ (ed N k).v ∉ S then (ed N k).a
      else if (ed N k).u ∉ S ∧ (ed N k).v ∈ S then (ed N k).b else 0) := by
  rw [cutCap, Finset.sum_range]
  exact Finset.sum_congr rfl fun k _ => by rw [ed_eq]

theorem bounds_range {N : List NEdge} {s t : Nat} {x : Nat → Int} (h : IsFlow N s t x) {k : Nat}
    (hk : k < N.length) : -(ed N k).b ≤ x k ∧ x k ≤ (ed N k).a := by
  have := h.bounds ⟨k, hk⟩
  rw [← ed_eq] at this; exact this

theorem sum_netOut (N : List NEdge) (x : Nat → Int) (S : Finset Nat) :
    ∑ y ∈ S, netOut N x y = ∑ k ∈ range N.length,
      ((if (ed N k).u ∈ S then x k else 0) - (if (ed N k).v ∈ S then x k else 0)) := by
  simp only [netOut_range]
  rw [Finset.sum_comm]
  refine Finset.sum_congr rfl fun k _ => ?_
  rw [Finset.sum_sub_distrib]
  simp [Finset.sum_ite_eq]

theorem value_cut {N : List NEdge} {s t : Nat} {x : Nat → Int} (h : IsFlow N s t x)
    {S : Finset Nat} (hs : s ∈ S) (ht : t ∉ S) :
    netOut N x s = ∑ k ∈ range N.length,
      ((if (ed N k).u ∈ S then x k else 0) - (if (ed N k).v ∈ S then x k else 0)) := by
  rw [← sum_netOut]
  symm
  apply Finset.sum_eq_single s
  · intro y hy hys
    exact h.cons y hys (by rintro rfl; exact ht hy)
  · intro h'; exact absurd hs h'

/-- Weak duality. -/
theorem value_le_cut {N : List NEdge} {s t : Nat} {x : Nat → Int} (h : IsFlow N s t x)
    {S : Finset Nat} (hs : s ∈ S) (ht : t ∉ S) : netOut N x s ≤ cutCap N S := by
  rw [value_cut h hs ht, cutCap_range]
  refine Finset.sum_le_sum fun k hk => ?_
  obtain ⟨h1, h2⟩ := bounds_range h (Finset.mem_range.1 hk)
  by_cases hu : (ed N k).u ∈ S <;> by_cases hv : (ed N k).v ∈ S <;> simp [hu, hv] <;> omega

/-- A flow from a vertex to itself has value zero. -/
theorem value_self {N : List NEdge} {s : Nat} {x : Nat → Int} (h : IsFlow N s s x) :
    netOut N x s = 0 := by
  let S : Finset Nat := insert s
    ((range N.length).image (fun k => (ed N k).u) ∪ (range N.length).image (fun k => (ed N k).v))
  have h1 : ∑ y ∈ S, netOut N x y = netOut N x s := by
    apply Finset.sum_eq_single s
    · intro y _ hys; exact h.cons y hys hys
    · intro h'; exact absurd (Finset.mem_insert_self _ _) h'
  rw [← h1, sum_netOut]
  apply Finset.sum_eq_zero
  intro k hk
  have hu : (ed N k).u ∈ S := by
    apply Finset.mem_insert_of_mem; apply Finset.mem_union_left
    exact Finset.mem_image_of_mem (fun k => (ed N k).u) hk
  have hv : (ed N k).v ∈ S := by
    apply Finset.mem_insert_of_mem; apply Finset.mem_union_right
    exact Finset.mem_image_of_mem (fun k => (ed N k).v) hk
  rw [if_pos hu, if_pos hv]; ring

/-- Total capacity, both directions. -/
def total (N : List NEdge) : Int := ∑ k ∈ range N.length, ((ed N k).a + (ed N k).b)

theorem value_le_total {N : List NEdge} {s t : Nat} {x : Nat → Int} (h : IsFlow N s t x)
    (hn : ∀ k < N.length, 0 ≤ (ed N k).a ∧ 0 ≤ (ed N k).b) : netOut N x s ≤ total N := by
  rw [netOut_range, total]
  refine Finset.sum_le_sum fun k hk => ?_
  have hk := Finset.mem_range.1 hk
  obtain ⟨h1, h2⟩ := bounds_range h hk
  obtain ⟨h3, h4⟩ := hn k hk
  split <;> split <;> omega

end Verif.FlowP
