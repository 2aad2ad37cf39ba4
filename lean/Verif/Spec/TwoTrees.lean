import Verif.Spec.LazySegtree
/-! The segment tree and the lazy segment tree side by side. -/
namespace Verif.Spec
open Verif.Model

variable {S F : Type}

/-- The identity map does nothing, and composed with itself is the identity map. Nothing is asked of the binary
operation or of the other maps. -/
structure IdentityMap (M : MapMonoidOps S F) : Prop where
  mapping : ∀ x, M.mapping M.idMap x = .ok x
  comp : M.comp M.idMap M.idMap = .ok M.idMap

/-- Calls that map at most one position. -/
def LOp.NoRangeMap : LOp S F → Prop
  | .applyRange _ _ _ => False
  | _ => True

/-- A product of an empty range is asked for. -/
def LOp.EmptyProd : LOp S F → Prop
  | .prod l r => l = r
  | _ => False

end Verif.Spec
