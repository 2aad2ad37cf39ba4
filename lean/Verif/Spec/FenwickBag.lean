import Mathlib.Data.Multiset.Count
import Mathlib.Data.Multiset.Filter
/-! Specification vocabulary for programs that keep numbers `< n` in a Fenwick tree of counts. -/
namespace Verif.Spec

/-- Put a number in, or take one out. -/
inductive BagOp where
  | ins (x : Nat)
  | del (x : Nat)

/-- What the bag holds after a history. -/
def bagOf : Multiset Nat → List BagOp → Multiset Nat
  | M, [] => M
  | M, .ins x :: ops => bagOf (x ::ₘ M) ops
  | M, .del x :: ops => bagOf (M.erase x) ops

/-- Only numbers `< n` are put in, and only numbers that are there are taken out. -/
def BagOk (n : Nat) : Multiset Nat → List BagOp → Prop
  | _, [] => True
  | M, .ins x :: ops => x < n ∧ BagOk n (x ::ₘ M) ops
  | M, .del x :: ops => x ∈ M ∧ BagOk n (M.erase x) ops

/-- How many numbers of the bag are below `x`. -/
def below (M : Multiset Nat) (x : Nat) : Nat := Multiset.card (M.filter (· < x))

/-- The number of pairs of positions `i < j` with `p[i] > p[j]`: for every position `j`, the larger elements before
it. -/
def invCount (p : List Nat) : Nat :=
  ((List.range p.length).map fun j => ((p.take j).filter fun y => decide (p.getD j 0 < y)).length).sum

end Verif.Spec
