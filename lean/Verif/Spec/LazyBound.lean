import Verif.Spec.LazyRefine
/-! Specification vocabulary for bounds on the values: `norm` and `fnorm` measure values and maps. -/
namespace Verif.Spec
open Verif.Model

variable {S F : Type}

/-- No operation panics as long as the measures stay within `B`. The operation does not exceed the larger
measure, a map adds at most its own measure. -/
structure Bounded (norm : S → Nat) (fnorm : F → Nat) (B : Nat) (R : MapMonoidOps S F) : Prop where
  e : norm R.e = 0
  idMap : fnorm R.idMap = 0
  op : ∀ x y, norm x ≤ B → norm y ≤ B → ∃ z, R.op x y = .ok z ∧ norm z ≤ max (norm x) (norm y)
  mapping : ∀ f x, fnorm f + norm x ≤ B → ∃ y, R.mapping f x = .ok y ∧ norm y ≤ fnorm f + norm x
  comp : ∀ f g, fnorm f + fnorm g ≤ B → ∃ h, R.comp f g = .ok h ∧ fnorm h ≤ fnorm f + fnorm g

/-- Bounds of the elements after a call, from bounds before. -/
def LOp.load (norm : S → Nat) (fnorm : F → Nat) (b : List Nat) : LOp S F → List Nat
  | .set p x => b.set p (norm x)
  | .apply p f => mapRange (· + fnorm f) b p (p + 1)
  | .applyRange l r f => mapRange (· + fnorm f) b l r
  | .get _ | .prod _ _ | .allProd | .maxRight _ _ | .minLeft _ _ => b

/-- The bounds of the elements are at most `B` at all times. -/
def Within (norm : S → Nat) (fnorm : F → Nat) (B : Nat) : List Nat → List (LOp S F) → Prop
  | b, [] => ∀ x ∈ b, x ≤ B
  | b, op :: ops => (∀ x ∈ b, x ≤ B) ∧ Within norm fnorm B (op.load norm fnorm b) ops

end Verif.Spec
