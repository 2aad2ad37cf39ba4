import Verif.Proof.SparseTable
/-! C09: the sparse table. -/
namespace Verif.Props
open Res Model SparseP

/-- C09: for an associative idempotent `op`, the table of a non-empty slice answers every
non-empty range by the left fold of that range. -/
theorem C09_range_fold {T : Type} (op : T → T → T) (ha : ∀ x y z, op (op x y) z = op x (op y z))
    (hi : ∀ x, op x x = x) (v : List T) (init : T) (hv : v ≠ []) (hn : v.length < 2 ^ 64) :
    ∃ t, SparseTable.from v init (fun x y => ok (op x y)) = .ok t ∧
      ∀ l r, l < r → r ≤ v.length → ∀ x xs, (v.drop l).take (r - l) = x :: xs →
        t.get (fun x y => ok (op x y)) l r = .ok (xs.foldl op x) := by
  obtain ⟨x0, hx0⟩ : ∃ x0, x0 ∈ v := List.exists_mem_of_ne_nil v hv
  have hf : ∀ i, i < v.length → v[i]? = some (v.getD i x0) := by
    intro i h; simp [h]
  obtain ⟨t, e, h⟩ := from_sat ha (init := init) hf hv hn
  refine ⟨t, e, fun l r h1 h2 x xs hx => ?_⟩
  obtain ⟨y, e2, rfl⟩ := get_sat ha hi h h1 h2 hn
  refine e2.trans ?_
  congr 1
  exact fold_list hf (by omega) (by rw [show r - l - 1 + 1 = r - l by omega]; exact hx)

/-- C09: an empty slice panics, and so does an empty or reversed query. -/
theorem C09_panics {T : Type} (op : T → T → Res T) (init : T) (t : SparseTable T) (l r : Nat)
    (h : r ≤ l) : SparseTable.from [] init op = .panic ∧ t.get op l r = .panic := by
  refine ⟨rfl, ?_⟩
  unfold SparseTable.get
  rw [assert_false (by omega)]; rfl

/-- The "left projection" operation is associative and idempotent but not commutative. -/
example : (do
    let t ← SparseTable.from [3, 1, 4, 1, 5] 0 (fun x _ => ok x)
    t.get (fun x _ => ok x) 1 4) = .ok 1 := by decide +kernel

example : (do
    let t ← SparseTable.from [1, 9, 9, 1, 0, 7, 1, 7] 0 (fun x y => ok (min x y))
    t.get (fun x y => ok (min x y)) 1 3) = .ok 9 := by decide +kernel

/-- A query that ends beyond the slice (`r > n`) is not rejected: it may return a value computed
from the filler `init` instead of panicking. -/
theorem C09_out_of_range_not_rejected : ∃ t : SparseTable Nat,
    SparseTable.from [5, 6, 7] 0 (fun x y => ok (min x y)) = .ok t ∧ t.get (fun x y => ok (min x y)) 2 4 = .ok 0 :=
  ⟨⟨[[5, 6, 7], [5, 6, 0]]⟩, by decide +kernel, by decide +kernel⟩

end Verif.Props
