import Batteries.Data.List.Basic
import Verif.Spec.HLD
/-! Specification vocabulary for user-supplied operations that may panic: an implementation `R` of
`MapMonoid` computes on values that represent elements of a mathematical structure `M`. -/
namespace Verif.Spec
open Verif.Model

variable {S F A G : Type}

/-- A call returns a representative of `a`, or it panics. -/
def Gives (RS : S → A → Prop) (x : Res S) (a : A) : Prop := x = .panic ∨ ∃ s, x = .ok s ∧ RS s a

/-- `R` computes `M`: `RS x a` says that the value `x` represents the element `a`, and `RF` is the same
for maps. Each operation may panic; if it returns, its result is right. -/
structure Represents (RS : S → A → Prop) (RF : F → G → Prop) (R : MapMonoidOps S F) (M : MapOps A G) : Prop where
  e : RS R.e M.e
  idMap : RF R.idMap M.idMap
  op : ∀ x y a b, RS x a → RS y b → Gives RS (R.op x y) (M.op a b)
  mapping : ∀ f x φ a, RF f φ → RS x a → Gives RS (R.mapping f x) (M.mapping φ a)
  comp : ∀ f g φ γ, RF f φ → RF g γ → Gives RF (R.comp f g) (M.comp φ γ)

/-- The same call on represented arguments. -/
def LOp.Like (RS : S → A → Prop) (RF : F → G → Prop) : LOp S F → LOp A G → Prop
  | .set p x, .set p' a => p = p' ∧ RS x a
  | .get p, .get p' => p = p'
  | .prod l r, .prod l' r' => l = l' ∧ r = r'
  | .allProd, .allProd => True
  | .apply p f, .apply p' φ => p = p' ∧ RF f φ
  | .applyRange l r f, .applyRange l' r' φ => l = l' ∧ r = r' ∧ RF f φ
  | .maxRight l g, .maxRight l' γ => l = l' ∧ ∀ x a, RS x a → g x = γ a
  | .minLeft r g, .minLeft r' γ => r = r' ∧ ∀ x a, RS x a → g x = γ a
  | _, _ => False

/-- A result represents another. -/
def LOut.Like (RS : S → A → Prop) : LOut S → LOut A → Prop
  | .unit, .unit => True
  | .val x, .val a => RS x a
  | .num k, .num k' => k = k'
  | _, _ => False

/-- The same call on represented arguments. -/
def HldOp.Like (RS : S → A → Prop) (RF : F → G → Prop) : HldOp S F → HldOp A G → Prop
  | .get u, .get u' => u = u'
  | .set u x, .set u' a => u = u' ∧ RS x a
  | .applyPath u v f, .applyPath u' v' φ => u = u' ∧ v = v' ∧ RF f φ
  | .pathProd u v, .pathProd u' v' => u = u' ∧ v = v'
  | .applySubtree u f, .applySubtree u' φ => u = u' ∧ RF f φ
  | .subtreeProd u, .subtreeProd u' => u = u'
  | _, _ => False

/-- A result represents another. -/
def HldOut.Like (RS : S → A → Prop) : HldOut S → HldOut A → Prop
  | .unit, .unit => True
  | .val x, .val a => RS x a
  | _, _ => False

end Verif.Spec
