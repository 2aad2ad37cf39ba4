import Verif.Spec.LazyRefine
/-! Specification vocabulary for the overflow freedom of a lazy segment tree in terms of the plain list:
which values and which maps a history makes the tree compute. -/
namespace Verif.Spec
open Verif.Model

variable {S F A G : Type}

/-- Composition of maps is associative with the identity map as unit. -/
structure LawfulComp (M : MapOps A G) : Prop where
  assoc : ∀ f g k, M.comp (M.comp f g) k = M.comp f (M.comp g k)
  id_left : ∀ f, M.comp M.idMap f = f
  id_right : ∀ f, M.comp f M.idMap = f

/-- The composition of a list of maps, the last one to be applied first. -/
def compAll (M : MapOps A G) (fs : List G) : G := fs.foldr M.comp M.idMap

/-- For each position the maps applied to it since it was last written, the latest first. -/
def LOp.log (h : List (List G)) : LOp A G → List (List G)
  | .set p _ => h.set p []
  | .apply p f => mapRange (f :: ·) h p (p + 1)
  | .applyRange l r f => mapRange (f :: ·) h l r
  | .get _ | .prod _ _ | .allProd | .maxRight _ _ | .minLeft _ _ => h

/-- Every product of a range of the list fits, and so does, for each position, the composition of the
latest maps applied to it, however many are taken. -/
structure Fine [Monoid A] (M : MapOps A G) (Fits : A → Prop) (FitsF : G → Prop) (a : List A) (h : List (List G)) :
    Prop where
  ident : FitsF M.idMap
  prods : ∀ l r, l ≤ r → r ≤ a.length → Fits (rangeProd a l r)
  maps : ∀ fs ∈ h, ∀ k, FitsF (compAll M (fs.take k))

/-- This holds before and after each call of a history. -/
def FineRun [Monoid A] (M : MapOps A G) (Fits : A → Prop) (FitsF : G → Prop) :
    List A → List (List G) → List (LOp A G) → Prop
  | a, h, [] => Fine M Fits FitsF a h
  | a, h, op :: ops => Fine M Fits FitsF a h ∧ FineRun M Fits FitsF (op.next M a) (op.log h) ops

/-- The operations return whenever their arguments and the true result fit. -/
structure ReturnsIf (RS : S → A → Prop) (RF : F → G → Prop) (R : MapMonoidOps S F) (M : MapOps A G)
    (Fits : A → Prop) (FitsF : G → Prop) : Prop where
  op : ∀ x y a b, RS x a → RS y b → Fits a → Fits b → Fits (M.op a b) → ∃ z, R.op x y = .ok z
  mapping : ∀ f x φ a, RF f φ → RS x a → FitsF φ → Fits a → Fits (M.mapping φ a) → ∃ y, R.mapping f x = .ok y
  comp : ∀ f g φ γ, RF f φ → RF g γ → FitsF φ → FitsF γ → FitsF (M.comp φ γ) → ∃ k, R.comp f g = .ok k

end Verif.Spec
