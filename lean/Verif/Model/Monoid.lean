import Verif.Prelude.Res
/-! Model of the traits in `/repo/src/traits/monoid.rs`. -/
namespace Verif.Model

/-- `/repo/src/traits/monoid.rs:1-5`, `trait Monoid`: the identity and the binary operation. The
operation may panic (e.g. an overflow check). -/
structure MonoidOps (S : Type) where
  e : S
  op : S → S → Res S

/-- `/repo/src/traits/monoid.rs:7-23`, `trait MapMonoid`. The three operations may panic. -/
structure MapMonoidOps (S F : Type) where
  e : S
  op : S → S → Res S
  idMap : F
  mapping : F → S → Res S
  comp : F → F → Res F

/-- An implementation of `trait MapMonoid` (`/repo/src/traits/monoid.rs:7-23`) whose operations
never panic. -/
structure MapOps (S F : Type) where
  e : S
  op : S → S → S
  idMap : F
  mapping : F → S → S
  comp : F → F → F

/-- An implementation that never panics, as an implementation of the trait. -/
@[reducible] def MapOps.ops {S F : Type} (M : MapOps S F) : MapMonoidOps S F where
  e := M.e
  op a b := .ok (M.op a b)
  idMap := M.idMap
  mapping f x := .ok (M.mapping f x)
  comp f g := .ok (M.comp f g)

section
variable {S F : Type} {M : MapOps S F} {a b : S} {f g : F}
@[simp] theorem MapOps.ops_e : M.ops.e = M.e := rfl
@[simp] theorem MapOps.ops_op : M.ops.op a b = .ok (M.op a b) := rfl
@[simp] theorem MapOps.ops_idMap : M.ops.idMap = M.idMap := rfl
@[simp] theorem MapOps.ops_mapping : M.ops.mapping f a = .ok (M.mapping f a) := rfl
@[simp] theorem MapOps.ops_comp : M.ops.comp f g = .ok (M.comp f g) := rfl
end

instance {S F : Type} : Coe (MapOps S F) (MapMonoidOps S F) := ⟨MapOps.ops⟩

end Verif.Model
