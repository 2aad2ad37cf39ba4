import Verif.Model.LazySegtree
/-! The unit test of `/repo/src/data_structure/lazy_segtree.rs:307-409` (`test_max_add_lazy_segtree`), run on the
model, and runs with operations that do not commute. -/
namespace Verif.Tests.LazySegtree
open Res Model

/-- `MaxAdd` (`/repo/src/data_structure/lazy_segtree.rs:312-328`). -/
def maxAdd : MapOps Int Int := ⟨-2 ^ 31, max, 0, fun f x => f + x, fun f g => f + g⟩

/-- `base[i..j].iter().max().copied().unwrap_or(i32::min_value())`. -/
def maxOf (base : List Int) (i j : Nat) : Int := ((base.take j).drop i).foldl max (-2 ^ 31)

/-- `check_segtree` (`/repo/src/data_structure/lazy_segtree.rs:363-408`). Here every query is made on the same
tree; in the test each query works on the tree left by the one before. -/
def check (base : List Int) (t : LazySegtree Int Int) : Bool :=
  let n := base.length
  let M := maxAdd
  ((List.range n).all fun i => Prod.snd <$> t.get M i = ok (base.getD i 0)) &&
  ((List.range (n + 1)).all fun i => (List.range' i (n + 1 - i)).all fun j =>
    Prod.snd <$> t.prod M i j = ok (maxOf base i j)) &&
  t.allProd = ok (maxOf base 0 n) &&
  ((List.range 11).all fun k =>
    ((List.range (n + 1)).all fun i =>
      (fun r => some r.2) <$> t.maxRight M i (fun x => decide (x < (k : Int))) =
        ok (((List.range' i (n + 1 - i)).filter fun j => decide (maxOf base i j < (k : Int))).max?)) &&
    ((List.range (n + 1)).all fun j =>
      (fun r => some r.2) <$> t.minLeft M j (fun x => decide (x < (k : Int))) =
        ok (((List.range (j + 1)).filter fun i => decide (maxOf base i j < (k : Int))).min?)))

/-- `base` of the test. -/
def base : List Int := [3, 1, 4, 1, 5, 9, 2, 6, 5, 3]

/-- The changes made in the test: `set`, `apply`, `apply_range`. -/
inductive Op where
  | set (i : Nat) (x : Int)
  | apply (i : Nat) (f : Int)
  | range (l r : Nat) (f : Int)

/-- Each change followed by a check. -/
def run (t : LazySegtree Int Int) (internal : List Int) : List Op → Res Bool
  | [] => ok true
  | o :: l => do
    let t ← (match o with
      | .set i x => t.set maxAdd i x
      | .apply i f => t.apply maxAdd i f
      | .range l r f => t.applyRange maxAdd l r f)
    let internal := match o with
      | .set i x => internal.set i x
      | .apply i f => internal.modify i (f + ·)
      | .range l r f => internal.mapIdx fun i x => if l ≤ i ∧ i < r then f + x else x
    if check internal t then run t internal l else ok false

/-- `test_max_add_lazy_segtree`: from a vector. -/
example : check base <$> LazySegtree.from maxAdd base = ok true := by decide +kernel

/-- `test_max_add_lazy_segtree`: a new tree filled by `set`, with a check at the end only. -/
example : (do
    let t ← LazySegtree.new maxAdd 10
    let t ← forList base.zipIdx t fun (x, i) t => t.set maxAdd i x
    ok (check base t)) = ok true := by decide +kernel

/-- `test_max_add_lazy_segtree`: the changes at the end of the test. -/
example : (do
    let t ← LazySegtree.from maxAdd base
    run t base [.set 6 5, .apply 5 1, .set 6 0, .range 3 8 2]) = ok true := by decide +kernel

/-- Lists under concatenation; a map replaces every entry by a fixed one, if there is one. The maps do not
commute. -/
def assign : MapOps (List Nat) (Option Nat) :=
  ⟨[], (· ++ ·), none, fun f x => match f with | none => x | some a => x.map fun _ => a,
    fun f g => match f with | none => g | some a => some a⟩

/-- Assignments to ranges, then all answers. -/
def checkAssign (n : Nat) (ops : List (Nat × Nat × Nat)) : Bool :=
  let t := ops.foldl (fun (t : Res (LazySegtree (List Nat) (Option Nat))) (l, r, a) =>
    t >>= fun t => t.applyRange assign l r (some a)) (LazySegtree.from assign ((List.range n).map fun i => [i]))
  let w := ops.foldl (fun (w : List Nat) (l, r, a) => w.mapIdx fun i x => if l ≤ i ∧ i < r then a else x)
    (List.range n)
  (do
    let t ← t
    ok (decide (t.allProd = ok w) &&
      ((List.range n).all fun i => Prod.snd <$> t.get assign i = ok [w.getD i 0]) &&
      ((List.range n).all fun i => (do
        let t ← t.set assign i [77]
        let t ← t.apply assign (n - 1 - i) (some 78)
        t.allProd) = ok ((w.set i 77).set (n - 1 - i) 78)) &&
      (Prod.snd <$> t.get assign n = panic) && (t.set assign n [] = panic) && (t.apply assign n none = panic) &&
      (t.applyRange assign 0 (n + 1) none = panic) && (t.applyRange assign 1 0 none = panic) &&
      (Prod.snd <$> t.prod assign 0 (n + 1) = panic) && (Prod.snd <$> t.prod assign 1 0 = panic) &&
      (Prod.snd <$> t.maxRight assign (n + 1) (fun _ => true) = panic) &&
      (Prod.snd <$> t.minLeft assign (n + 1) (fun _ => true) = panic) &&
      (Prod.snd <$> t.maxRight assign 0 (fun _ => false) = panic) &&
      (Prod.snd <$> t.minLeft assign n (fun _ => false) = panic) &&
      (List.range (n + 1)).all fun i => (List.range' i (n + 1 - i)).all fun j =>
        (Prod.snd <$> t.prod assign i j = ok ((w.take j).drop i)) &&
        (Prod.snd <$> t.maxRight assign i
          (fun x => decide (x = (w.drop i).take x.length ∧ x.length ≤ j - i)) = ok j) &&
        (Prod.snd <$> t.minLeft assign j
          (fun x => decide (x = (w.take j).drop (j - x.length) ∧ x.length ≤ j - i)) = ok i))) = ok true

example : checkAssign 1 [(0, 1, 5)] = true := by decide +kernel
example : checkAssign 5 [(0, 5, 10), (1, 4, 11), (2, 3, 12)] = true := by decide +kernel
example : checkAssign 6 [(0, 6, 10), (3, 5, 11), (0, 4, 12), (5, 6, 13)] = true := by decide +kernel
example : checkAssign 8 [(0, 8, 10), (1, 8, 11), (0, 4, 12), (3, 7, 13)] = true := by decide +kernel

end Verif.Tests.LazySegtree
