import Verif.Model.Monoid
import Verif.Prelude.IntTy
/-! # Model of `/repo/src/misc/monoids.rs`, for `S` a primitive integer type -/
namespace Verif.Model
open Res

/-- The values of a primitive integer type. -/
structure Val (ty : IntTy) where
  val : Int
  isLt : ty.In val
deriving DecidableEq

theorem IntTy.in_mn (ty : IntTy) : ty.In ty.mn := ⟨Int.le_refl _, Int.le_trans ty.mn_nonpos ty.mx_nonneg⟩
theorem IntTy.in_mx (ty : IntTy) : ty.In ty.mx := ⟨Int.le_trans ty.mn_nonpos ty.mx_nonneg, Int.le_refl _⟩

/-- Checked arithmetic: the value, or a panic on overflow. -/
def Val.ck (ty : IntTy) (x : Int) : Res (Val ty) := if h : ty.In x then ok ⟨x, h⟩ else panic

/-- `/repo/src/misc/monoids.rs:7-20`, `Max`; `min_value` is `MIN` (`/repo/src/traits/numeric.rs:38-43`), and
`std::cmp::max` returns its second argument unless the first is larger. -/
def maxOps (ty : IntTy) : MonoidOps (Val ty) := ⟨⟨ty.mn, IntTy.in_mn ty⟩, fun a b => ok (if b.1 < a.1 then a else b)⟩

/-- `/repo/src/misc/monoids.rs:22-35`, `Min`; `max_value` is `MAX` (`/repo/src/traits/numeric.rs:45-50`), and
`std::cmp::min` returns its first argument unless the second is smaller. -/
def minOps (ty : IntTy) : MonoidOps (Val ty) := ⟨⟨ty.mx, IntTy.in_mx ty⟩, fun a b => ok (if b.1 < a.1 then b else a)⟩

/-- `/repo/src/misc/monoids.rs:37-49`, `Additive`; `zero` is `0` (`/repo/src/traits/numeric.rs:24-29`). -/
def additiveOps (ty : IntTy) : MonoidOps (Val ty) :=
  ⟨⟨0, IntTy.in_of_nonneg (Int.le_refl _) ty.mx_nonneg⟩, fun a b => Val.ck ty (a.1 + b.1)⟩

/-- `/repo/src/misc/monoids.rs:50-62`, `Multiplicative`; `one` is `1` (`/repo/src/traits/numeric.rs:31-36`). The
argument `h` says that `1` is a value of the type, which it is for all primitive types. -/
def multiplicativeOps (ty : IntTy) (h : ty.In 1) : MonoidOps (Val ty) := ⟨⟨1, h⟩, fun a b => Val.ck ty (a.1 * b.1)⟩

end Verif.Model
