import Verif.Model.Segtree
import Verif.Model.Monoids
import Verif.Model.InternalMath
/-! The unit test of `/repo/src/data_structure/segtree.rs:184-260` (`test_max_segtree`), run on the model, and
further runs with an operation that is not commutative. -/
namespace Verif.Tests.Segtree
open Res Model

theorem in0 : i32.In 0 := by decide
/-- An `i32` value. -/
def mk (x : Int) : Val i32 := if h : i32.In x then ⟨x, h⟩ else ⟨0, in0⟩
/-- `base[i..j].iter().max().copied().unwrap_or(i32::min_value())`. -/
def maxOf (base : List Int) (i j : Nat) : Int := ((base.take j).drop i).foldl max (-2 ^ 31)

/-- `check_segtree` (`/repo/src/data_structure/segtree.rs:214-259`). -/
def check (base : List Int) (t : Segtree (Val i32)) : Bool :=
  let n := base.length
  let M := maxOps i32
  ((List.range n).all fun i => t.get i = ok (mk (base.getD i 0))) &&
  ((List.range (n + 1)).all fun i => (List.range' i (n + 1 - i)).all fun j =>
    t.prod M i j = ok (mk (maxOf base i j))) &&
  t.allProd = ok (mk (maxOf base 0 n)) &&
  ((List.range 11).all fun k =>
    ((List.range (n + 1)).all fun i =>
      some <$> t.maxRight M i (fun x => decide (x.1 < (k : Int))) =
        ok (((List.range' i (n + 1 - i)).filter fun j => decide (maxOf base i j < (k : Int))).max?)) &&
    ((List.range (n + 1)).all fun j =>
      some <$> t.minLeft M j (fun x => decide (x.1 < (k : Int))) =
        ok (((List.range (j + 1)).filter fun i => decide (maxOf base i j < (k : Int))).min?)))

/-- `base` of the test. -/
def base : List Int := [3, 1, 4, 1, 5, 9, 2, 6, 5, 3]

/-- `test_max_segtree`: from a vector. -/
example : check base <$> Segtree.from (maxOps i32) (base.map mk) = ok true := by decide +kernel

/-- `test_max_segtree`: the sets one by one, each followed by a check. -/
def sets (t : Segtree (Val i32)) (internal : List Int) : List (Nat × Int) → Res Bool
  | [] => ok true
  | (i, x) :: l => do
    let t ← t.set (maxOps i32) i (mk x)
    let internal := internal.set i x
    if check internal t then sets t internal l else ok false

example : (do
    let t ← Segtree.new (maxOps i32) 10
    sets t (List.replicate 10 (-2 ^ 31)) ((base.zipIdx.map fun p => (p.2, p.1)) ++ [(6, 5), (6, 0)])) =
    ok true := by decide +kernel

/-- Concatenation of lists: not commutative. -/
def cat : MonoidOps (List Nat) := ⟨[], fun a b => ok (a ++ b)⟩

/-- All queries on the tree for `[[0], [1], …]` of length `n`, after replacing element `p` by `[9]`. -/
def checkCat (n p : Nat) : Bool :=
  let v := (List.range n).map fun i => [i]
  let w := (v.set p [9]).flatten
  (do
    let t ← Segtree.from cat v
    let t ← t.set cat p [9]
    ok (decide (t.allProd = ok w) &&
      (t.get n = panic) && (t.set cat n [] = panic) && (t.prod cat 0 (n + 1) = panic) &&
      (t.prod cat 1 0 = panic) && (t.maxRight cat (n + 1) (fun _ => true) = panic) &&
      (t.minLeft cat (n + 1) (fun _ => true) = panic) && (t.maxRight cat 0 (fun _ => false) = panic) &&
      (t.minLeft cat n (fun _ => false) = panic) &&
      (List.range (n + 1)).all fun i => (List.range' i (n + 1 - i)).all fun j =>
        (t.prod cat i j = ok ((w.take j).drop i)) &&
        (t.maxRight cat i (fun x => decide (x.length ≤ j - i)) = ok j) &&
        (t.minLeft cat j (fun x => decide (x.length ≤ j - i)) = ok i) &&
        (t.minLeft cat j (fun x => decide (x = (w.take j).drop (j - x.length) ∧ x.length ≤ j - i)) = ok i) &&
        (t.maxRight cat i (fun x => decide (x = (w.drop i).take x.length ∧ x.length ≤ j - i)) = ok j))) = ok true

example : ([(1, 0), (2, 1), (3, 1), (4, 3), (5, 4), (6, 2)].all fun (n, p) => checkCat n p) = true := by decide +kernel

end Verif.Tests.Segtree
