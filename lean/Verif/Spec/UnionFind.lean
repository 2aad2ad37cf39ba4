import Mathlib.Logic.Relation
import Verif.Model.UnionFind
/-! Specification for union-find: connectivity through a list of pairs. -/
namespace Verif.Spec
open Verif.Model

/-- `x` and `y` are connected through the pairs in `ps` (reflexive, symmetric, transitive
closure). -/
def Conn (ps : List (Nat × Nat)) : Nat → Nat → Prop :=
  Relation.EqvGen (fun a b => (a, b) ∈ ps)

/-- The pairs joined in a history. -/
def joinsOf : List UF.Op → List (Nat × Nat)
  | [] => []
  | .join x y :: os => (x, y) :: joinsOf os
  | _ :: os => joinsOf os

/-- All arguments of an operation are below `n`. -/
def OpInRange (n : Nat) : UF.Op → Prop
  | .find x => x < n
  | .join x y => x < n ∧ y < n
  | .isSame x y => x < n ∧ y < n
  | .size x => x < n
  | .groups => True

/-- Every operation of the history has in-range arguments. -/
def InRange (n : Nat) (ops : List UF.Op) : Prop := ∀ o ∈ ops, OpInRange n o

/-- Every join in the history is made on a first argument that, at that moment, is its own
representative (`find(x) = x`), or joins two elements already reported the same. -/
def JoinsFirstRep (n : Nat) (ops : List UF.Op) : Prop :=
  ∀ pre x y post, ops = pre ++ UF.Op.join x y :: post →
    ∀ u, UF.run (UF.new n) pre = .ok u →
      (∃ u', u.find x = .ok (x, u')) ∨ (∃ u', u.isSame x y = .ok (true, u'))

/-- Every join in the history is made on two representatives, or joins two elements already
reported the same. -/
def JoinsReps (n : Nat) (ops : List UF.Op) : Prop :=
  ∀ pre x y post, ops = pre ++ UF.Op.join x y :: post →
    ∀ u, UF.run (UF.new n) pre = .ok u →
      ((∃ u', u.find x = .ok (x, u')) ∧ (∃ u', u.find y = .ok (y, u'))) ∨
      (∃ u', u.isSame x y = .ok (true, u'))

end Verif.Spec
