import Verif.Prelude.Int
/-! Primitive integer types as a parameter, for code generic over `Integral`. -/
namespace Verif
open Res

/-- A primitive integer type: signedness and width. `i32` is `⟨true, 32⟩`, `usize` is `⟨false, 64⟩`. -/
structure IntTy where
  signed : Bool
  bits : Nat
deriving DecidableEq

namespace IntTy

/-- `MIN` of the type (`/repo/src/traits/numeric.rs`, `BoundedBelow`). -/
def mn (ty : IntTy) : Int := if ty.signed then -2 ^ (ty.bits - 1) else 0
/-- `MAX` of the type (`/repo/src/traits/numeric.rs`, `BoundedAbove`). -/
def mx (ty : IntTy) : Int := if ty.signed then 2 ^ (ty.bits - 1) - 1 else 2 ^ ty.bits - 1

/-- `x` is a value of the type. -/
def In (ty : IntTy) (x : Int) : Prop := ty.mn ≤ x ∧ x ≤ ty.mx
instance (ty : IntTy) (x : Int) : Decidable (ty.In x) := by unfold In; infer_instance

/-- Result of a checked arithmetic operation: panic on overflow. -/
def ck (ty : IntTy) (x : Int) : Res Int := if ty.In x then ok x else panic

theorem ck_of {ty : IntTy} {x : Int} (h : ty.In x) : ty.ck x = ok x := by simp [ck, h]
theorem ck_panic {ty : IntTy} {x : Int} (h : ¬ ty.In x) : ty.ck x = panic := by simp [ck, h]

theorem mn_nonpos (ty : IntTy) : ty.mn ≤ 0 := by
  unfold mn
  have := Int.pow_pos (n := 2) (m := ty.bits - 1) (by decide)
  split <;> omega

theorem mx_nonneg (ty : IntTy) : 0 ≤ ty.mx := by
  unfold mx
  have := Int.pow_pos (n := 2) (m := ty.bits - 1) (by decide)
  have := Int.pow_pos (n := 2) (m := ty.bits) (by decide)
  split <;> omega

theorem in_of_nonneg {ty : IntTy} {x : Int} (h0 : 0 ≤ x) (h : x ≤ ty.mx) : ty.In x :=
  ⟨Int.le_trans ty.mn_nonpos h0, h⟩

/-- The twelve primitive types for which the crate implements `Integral`
(`/repo/src/traits/numeric.rs`, `impl_integral!`). -/
def all : List IntTy :=
  [⟨true, 8⟩, ⟨true, 16⟩, ⟨true, 32⟩, ⟨true, 64⟩, ⟨true, 128⟩, ⟨true, 64⟩,
   ⟨false, 8⟩, ⟨false, 16⟩, ⟨false, 32⟩, ⟨false, 64⟩, ⟨false, 128⟩, ⟨false, 64⟩]

theorem all_mx : ∀ ty ∈ all, 0 < ty.mx := by decide

end IntTy
end Verif
