import Verif.Model.SparseTable
/-! The unit test of `/repo/src/data_structure/sparse_table.rs:41-59`, run on the model, and runs with an
operation that is not commutative. The random test (`:61-74`) has no fixed data. -/
namespace Verif.Tests.SparseTable
open Res Model

/-- All queries `l < r ≤ n` of the table for `v` against a fold from the left; empty ranges panic. -/
def check (v : List Nat) (init : Nat) (op : Nat → Nat → Nat) : Bool :=
  (do
    let t ← SparseTable.from v init (fun x y => ok (op x y))
    ok ((List.range v.length).all fun l =>
      (t.get (fun x y => ok (op x y)) l l = panic) &&
      (List.range' (l + 1) (v.length - l)).all fun r =>
        t.get (fun x y => ok (op x y)) l r = ok (((v.take r).drop (l + 1)).foldl op (v.getD l 0)))) = ok true

/-- `test_small` (`/repo/src/data_structure/sparse_table.rs:47-59`). -/
example : check [1, 9, 9, 1, 0, 7, 1, 7] 0 min = true := by decide +kernel

example : (List.range' 1 9).all (fun n => check (List.range n) 77 fun x _ => x) = true := by decide +kernel
example : (List.range' 1 9).all (fun n => check (List.range n) 77 fun _ y => y) = true := by decide +kernel
example : SparseTable.from ([] : List Nat) 0 (fun x y => ok (min x y)) = panic := by decide +kernel

end Verif.Tests.SparseTable
