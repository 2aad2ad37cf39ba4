import Mathlib.Algebra.BigOperators.Group.List.Basic
import Verif.Model.Monoid
/-! Specification vocabulary for the segment trees. -/
namespace Verif.Spec
open Verif.Model

/-- The trait implementation `M` computes the mathematical monoid on `S`, as long as the results
fit (`Fits` is `True` for operations that never panic, the type's range for checked addition). -/
structure LawfulOps {S : Type} [Monoid S] (M : MonoidOps S) (Fits : S → Prop) : Prop where
  e_eq : M.e = 1
  op_ok : ∀ a b, Fits (a * b) → M.op a b = .ok (a * b)

/-- The product `a[l] * … * a[r-1]`. -/
def rangeProd {S : Type} [Monoid S] (a : List S) (l r : Nat) : S := ((a.take r).drop l).prod

/-- Every product of consecutive elements fits. -/
def ProdsFit {S : Type} [Monoid S] (Fits : S → Prop) (a : List S) : Prop :=
  ∀ l r, Fits (rangeProd a l r)

end Verif.Spec
