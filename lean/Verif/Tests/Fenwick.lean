import Verif.Model.Fenwick
/-! The unit test of `/repo/src/data_structure/fenwick_tree.rs:131-145`, run on the model, and runs over all
queries on short arrays. -/
namespace Verif.Tests.Fenwick
open Res Model

/-- Checked `i64` addition and subtraction. -/
def add (a b : Int) : Res Int := ckI 64 (a + b)
/-- Checked `i64` subtraction. -/
def sub (a b : Int) : Res Int := ckI 64 (a - b)

/-- `fenwick_tree_workds` (`/repo/src/data_structure/fenwick_tree.rs:135-144`). -/
example : (do
    let t ← forRange 0 5 (Fenwick.new (0 : Int) 5) fun i t => t.addAt add i (i + 1)
    let a ← t.sum add sub 0 0 5
    let b ← t.sum add sub 0 0 4
    let c ← t.sum add sub 0 1 3
    ok (a, b, c)) = ok (15, 10, 5) := by decide +kernel

/-- From `a`, after adding `v` at `p`: every query, and every search. -/
def check (a : List Int) (p : Nat) (v : Int) : Bool :=
  let b := a.modify p (· + v)
  let n := a.length
  (do
    let t ← Fenwick.from add 0 a
    let t ← t.addAt add p v
    ok (((List.range (n + 1)).all fun i => t.pref add 0 i = ok (b.take i).sum) &&
      (t.pref add 0 (n + 1) = panic) &&
      ((List.range (n + 1)).all fun l => (List.range' l (n + 1 - l)).all fun r =>
        t.sum add sub 0 l r = ok ((b.take r).drop l).sum) &&
      ((List.range 30).all fun (k : Nat) =>
        t.search add 0 (fun x y => decide (x < y)) (k : Int) =
          (if n = 0 then panic
           else ok ((List.range n).filter fun i => decide ((b.take (i + 1)).sum < (k : Int))).length)))) = ok true

example : check [] 0 5 = true := by decide +kernel
example : check [7] 0 5 = true := by decide +kernel
example : check [7, 0] 5 1 = true := by decide +kernel
example : check [3, 1, 4] 1 5 = true := by decide +kernel
example : check [3, 0, 4, 1] 3 5 = true := by decide +kernel
example : check [3, 1, 4, 1, 5, 0, 2] 2 6 = true := by decide +kernel
example : check [3, 1, 4, 1, 5, 0, 2, 6, 5] 4 2 = true := by decide +kernel

end Verif.Tests.Fenwick
