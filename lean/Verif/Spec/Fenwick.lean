import Mathlib.Algebra.BigOperators.Group.List.Basic
import Verif.Prelude.Res
/-! Specification vocabulary for the Fenwick tree: a plain list receiving point additions. -/
namespace Verif.Spec

/-- `data[i] += v` on a plain list (nothing happens when `i` is out of range). -/
def addTo {A : Type} [Add A] (a : List A) (i : Nat) (v : A) : List A := a.modify i (· + v)

/-- A whole history of additions on the plain list. -/
def addAll {A : Type} [Add A] (a : List A) : List (Nat × A) → List A
  | [] => a
  | (i, v) :: ops => addAll (addTo a i v) ops

/-- The element type's checked operations agree with the mathematical ones on values that "fit"
(`Fits` is `True` for types that never overflow, and the type's range for machine integers). -/
structure CheckedAdd {A : Type} [AddCommMonoid A] (add sub : A → A → Res A) (Fits : A → Prop) :
    Prop where
  add_ok : ∀ a b, Fits (a + b) → add a b = .ok (a + b)
  sub_ok : ∀ a b, Fits (a + b) → Fits a → Fits b → sub (a + b) a = .ok b

/-- Every sum of consecutive elements of the list fits. -/
def RangesFit {A : Type} [AddCommMonoid A] (Fits : A → Prop) (a : List A) : Prop :=
  ∀ l r, Fits ((a.take r).drop l).sum

/-- The element type's checked operations return exactly when the result fits, and panic otherwise. -/
structure ExactAdd {A : Type} [AddCommMonoid A] (add sub : A → A → Res A) (Fits : A → Prop) : Prop
    extends CheckedAdd add sub Fits where
  zero_fits : Fits 0
  add_panic : ∀ a b, ¬ Fits (a + b) → add a b = .panic
  sub_panic : ∀ a b, Fits a → Fits b → (¬ ∃ c, Fits c ∧ b + c = a) → sub a b = .panic

/-- The sum `a[l] + … + a[r - 1]`. -/
def segSum {A : Type} [AddCommMonoid A] (a : List A) (l r : Nat) : A := ((a.take r).drop l).sum

end Verif.Spec
