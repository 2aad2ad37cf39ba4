import Verif.Spec.Flow
import Mathlib.Logic.Relation
/-! Specification vocabulary for walks, edge separators and residual reachability. -/
namespace Verif.Spec

/-- The edges with the numbers in the list lead one after the other from `x` to `y`. -/
def EWalk (N : List NEdge) : Nat → List Nat → Nat → Prop
  | x, [], y => x = y
  | x, k :: p, y => ∃ e, N[k]? = some e ∧ e.u = x ∧ EWalk N e.v p y

/-- Walks from `s` to `t` that together use no edge more often than its capacity. -/
structure IsPacking (N : List NEdge) (s t : Nat) (ps : List (List Nat)) : Prop where
  walk : ∀ p ∈ ps, EWalk N s p t
  cap : ∀ k e, N[k]? = some e → (ps.flatten.count k : Int) ≤ e.a

/-- `k` is the largest number of walks in a packing. -/
def IsMaxPacking (N : List NEdge) (s t k : Nat) : Prop :=
  (∃ ps, IsPacking N s t ps ∧ ps.length = k) ∧ ∀ ps, IsPacking N s t ps → ps.length ≤ k

/-- Every walk from `s` to `t` uses an edge of `F`. -/
def Separates (N : List NEdge) (s t : Nat) (F : Finset (Fin N.length)) : Prop :=
  ∀ p, EWalk N s p t → ∃ k ∈ F, (k : Nat) ∈ p

/-- `c` is the least total capacity of edges that every walk from `s` to `t` has to use. -/
def IsMinSeparator (N : List NEdge) (s t : Nat) (c : Int) : Prop :=
  (∃ F, Separates N s t F ∧ ∑ k ∈ F, N[k].a = c) ∧ ∀ F, Separates N s t F → c ≤ ∑ k ∈ F, N[k].a

/-- When `x` is carried, some edge between `y` and `z` can carry more from `y` to `z`. -/
def RStep (N : List NEdge) (x : Nat → Int) (y z : Nat) : Prop :=
  ∃ k : Fin N.length, (N[k].u = y ∧ N[k].v = z ∧ x k < N[k].a) ∨ (N[k].v = y ∧ N[k].u = z ∧ -N[k].b < x k)

/-- When `x` is carried, more can be carried from `y` to `z`. -/
def RReach (N : List NEdge) (x : Nat → Int) : Nat → Nat → Prop := Relation.ReflTransGen (RStep N x)

end Verif.Spec
