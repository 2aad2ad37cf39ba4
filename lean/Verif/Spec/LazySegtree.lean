import Verif.Spec.Segtree
/-! Specification vocabulary for the lazy segment tree. -/
namespace Verif.Spec
open Verif.Model

/-- The documented laws of a `MapMonoid` implementation: `S` is a monoid, the identity map acts
trivially, composition is composition of actions, and maps distribute over the operation. (A map is
not required to fix the identity element.) -/
structure LawfulMap {S F : Type} [Monoid S] (M : MapOps S F) : Prop where
  e_eq : M.e = 1
  op_eq : ∀ a b, M.op a b = a * b
  id_map : ∀ x, M.mapping M.idMap x = x
  comp_map : ∀ f g x, M.mapping (M.comp f g) x = M.mapping f (M.mapping g x)
  map_op : ∀ f x y, M.mapping f (x * y) = M.mapping f x * M.mapping f y

/-- Apply `f` to the positions `l ≤ i < r` of a plain list. -/
def mapRange {S : Type} (f : S → S) (a : List S) (l r : Nat) : List S :=
  a.mapIdx fun i x => if l ≤ i ∧ i < r then f x else x

/-- The calls of the public interface. -/
inductive LOp (S F : Type) where
  | set (p : Nat) (x : S)
  | get (p : Nat)
  | prod (l r : Nat)
  | allProd
  | apply (p : Nat) (f : F)
  | applyRange (l r : Nat) (f : F)
  | maxRight (l : Nat) (g : S → Bool)
  | minLeft (r : Nat) (g : S → Bool)

/-- What a call returns. -/
inductive LOut (S : Type) where
  | unit
  | val (x : S)
  | num (k : Nat)

variable {S F : Type} [Monoid S]

/-- Documented preconditions on an array of length `n`. -/
def LOp.Pre (n : Nat) : LOp S F → Prop
  | .set p _ | .get p | .apply p _ => p < n
  | .prod l r | .applyRange l r _ => l ≤ r ∧ r ≤ n
  | .allProd => True
  | .maxRight l g => l ≤ n ∧ g 1 = true
  | .minLeft r g => r ≤ n ∧ g 1 = true

/-- Effect of a call on a plain list; queries have none. -/
def LOp.next (M : MapOps S F) (a : List S) : LOp S F → List S
  | .set p x => a.set p x
  | .apply p f => mapRange (M.mapping f) a p (p + 1)
  | .applyRange l r f => mapRange (M.mapping f) a l r
  | .get _ | .prod _ _ | .allProd | .maxRight _ _ | .minLeft _ _ => a

/-- Admissible result of a call on a plain list. -/
def LOp.OutOk (a : List S) : LOp S F → LOut S → Prop
  | .set _ _, o | .apply _ _, o | .applyRange _ _ _, o => o = .unit
  | .get p, o => ∃ x, a[p]? = some x ∧ o = .val x
  | .prod l r, o => o = .val (rangeProd a l r)
  | .allProd, o => o = .val a.prod
  | .maxRight l g, o => ∃ r, o = .num r ∧ l ≤ r ∧ r ≤ a.length ∧ g (rangeProd a l r) = true ∧
      (r = a.length ∨ g (rangeProd a l (r + 1)) = false)
  | .minLeft r g, o => ∃ l, o = .num l ∧ l ≤ r ∧ g (rangeProd a l r) = true ∧
      (l = 0 ∨ g (rangeProd a (l - 1) r) = false)

/-- Contents after a history. -/
def lContents (M : MapOps S F) (a : List S) : List (LOp S F) → List S
  | [] => a
  | op :: ops => lContents M (op.next M a) ops

/-- The results of a history are admissible, one by one. -/
def LRunOk (M : MapOps S F) : List S → List (LOp S F) → List (LOut S) → Prop
  | _, [], [] => True
  | a, op :: ops, o :: os => op.OutOk a o ∧ LRunOk M (op.next M a) ops os
  | _, _, _ => False

end Verif.Spec
