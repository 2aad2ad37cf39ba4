import Verif.Spec.HLD
/-! What is left of the lazy segment tree, and of the heavy-light decomposition on top of it, when nothing is known
about the binary operation. -/
namespace Verif.Spec
open Verif.Model

/-- The maps act on the elements by `act`: the identity map does nothing and a composition acts as the one map after
the other. Nothing is asked of the binary operation, except that it ends (it may panic). -/
structure ActsOnElements {S F : Type} (M : MapMonoidOps S F) (act : F → S → S) : Prop where
  mapping : ∀ f x, M.mapping f x = .ok (act f x)
  idMap : ∀ x, act M.idMap x = x
  comp : ∀ f g, ∃ h, M.comp f g = .ok h ∧ ∀ x, act h x = act f (act g x)
  op : ∀ x y, M.op x y ≠ .diverge

/-- The binary operation may panic. -/
def OpPanics {S F : Type} (M : MapMonoidOps S F) : Prop := ∃ x y, M.op x y = .panic

variable {S F : Type}

/-- Documented preconditions on an array of length `n`; `e` is the identity element. -/
def LOp.PreE (e : S) (n : Nat) : LOp S F → Prop
  | .set p _ | .get p | .apply p _ => p < n
  | .prod l r | .applyRange l r _ => l ≤ r ∧ r ≤ n
  | .allProd => True
  | .maxRight l g => l ≤ n ∧ g e = true
  | .minLeft r g => r ≤ n ∧ g e = true

/-- Effect of a call on a plain list; queries have none. -/
def LOp.actOn (act : F → S → S) (a : List S) : LOp S F → List S
  | .set p x => a.set p x
  | .apply p f => mapRange (act f) a p (p + 1)
  | .applyRange l r f => mapRange (act f) a l r
  | .get _ | .prod _ _ | .allProd | .maxRight _ _ | .minLeft _ _ => a

/-- Result of a call as far as it is determined: `get` returns the element; a product is any value; a search returns a
position on the right side of its argument. -/
def LOp.PointOk (a : List S) : LOp S F → LOut S → Prop
  | .set _ _, o | .apply _ _, o | .applyRange _ _ _, o => o = .unit
  | .get p, o => ∃ x, a[p]? = some x ∧ o = .val x
  | .prod _ _, o | .allProd, o => ∃ x, o = .val x
  | .maxRight l _, o => ∃ r, o = .num r ∧ l ≤ r
  | .minLeft r _, o => ∃ l, o = .num l ∧ l ≤ r

/-- The results of a history are as above, one by one. -/
def PointRunOk (act : F → S → S) : List S → List (LOp S F) → List (LOut S) → Prop
  | _, [], [] => True
  | a, op :: ops, o :: os => op.PointOk a o ∧ PointRunOk act (op.actOn act a) ops os
  | _, _, _ => False

/-- Node values `b` after a call on node values `a`. -/
def HldOp.ActNext (act : F → S → S) (g : List (List Nat)) (root : Nat) (a b : List S) : HldOp S F → Prop
  | .set u x => b = a.set u x
  | .applyPath u v f => ∃ p, IsPath g u v p ∧ b = mapNodes (act f) a p
  | .applySubtree u f => ∃ s, (∀ x, x ∈ s ↔ Ancestor g root u x) ∧ b = mapNodes (act f) a s
  | .get _ | .pathProd _ _ | .subtreeProd _ => b = a

/-- Result of a call as far as it is determined: `get` returns the value of the node, a product is any value. -/
def HldOp.PointOk (a : List S) : HldOp S F → HldOut S → Prop
  | .set _ _, o | .applyPath _ _ _, o | .applySubtree _ _, o => o = .unit
  | .get u, o => ∃ x, a[u]? = some x ∧ o = .val x
  | .pathProd _ _, o | .subtreeProd _, o => ∃ x, o = .val x

/-- The results of a history are as above, one by one. -/
def HldPointRunOk (act : F → S → S) (g : List (List Nat)) (root : Nat) :
    List S → List (HldOp S F) → List (HldOut S) → Prop
  | _, [], [] => True
  | a, op :: ops, o :: os => op.PointOk a o ∧ ∃ b, op.ActNext act g root a b ∧ HldPointRunOk act g root b ops os
  | _, _, _ => False

end Verif.Spec
