import Verif.Model.Eff
/-! User operations with side effects: when they compute the same values as operations without, and the instrument
that counts the calls. -/
namespace Verif.Spec
open Res Model

variable {σ S F T U : Type}

/-- `add` computes what `add₀` computes, whatever the state. -/
def SameValues (add : T → U → σ → Res (S × σ)) (add₀ : T → U → Res S) : Prop :=
  ∀ x y w, (add x y w >>= fun o => ok o.1) = add₀ x y

/-- `g` answers as `g₀`, whatever the state. -/
def SameAnswers (g : S → σ → Res (Bool × σ)) (g₀ : S → Bool) : Prop :=
  ∀ x w, (g x w >>= fun o => ok o.1) = ok (g₀ x)

/-- The operations `E` compute what `M` computes, whatever the state. -/
structure SameMonoid (E : MonoidEff σ S) (M : MonoidOps S) : Prop where
  e : E.e = M.e
  op : SameValues E.op M.op

/-- The operations `E` compute what `M` computes, whatever the state. -/
structure SameMaps (E : MapEff σ S F) (M : MapMonoidOps S F) : Prop where
  e : E.e = M.e
  idMap : E.idMap = M.idMap
  op : SameValues E.op M.op
  mapping : SameValues E.mapping M.mapping
  comp : SameValues E.comp M.comp

/-- Numbers of calls of the user's functions. -/
structure Calls where
  /-- of `binary_operation` (of `+`, `+=` for a Fenwick tree) -/
  op : Nat := 0
  /-- of `mapping` -/
  map : Nat := 0
  /-- of `composition` -/
  comp : Nat := 0
  /-- of the predicate of a search -/
  pred : Nat := 0
deriving DecidableEq, Repr

/-- The operation `add₀`, counting its calls. -/
def countAdd (add₀ : T → U → Res S) (x : T) (y : U) (w : Calls) : Res (S × Calls) := do
  let z ← add₀ x y
  ok (z, { w with op := w.op + 1 })

/-- The predicate `g₀`, counting its calls. -/
def countPred (g₀ : S → Bool) (x : S) (w : Calls) : Res (Bool × Calls) := ok (g₀ x, { w with pred := w.pred + 1 })

/-- The operations `M`, counting their calls. -/
def countMonoid (M : MonoidOps S) : MonoidEff Calls S := ⟨M.e, countAdd M.op⟩

/-- The operations `M`, counting their calls. -/
def countMaps (M : MapMonoidOps S F) : MapEff Calls S F where
  e := M.e
  op := countAdd M.op
  idMap := M.idMap
  mapping f x w := do
    let y ← M.mapping f x
    ok (y, { w with map := w.map + 1 })
  comp f g w := do
    let h ← M.comp f g
    ok (h, { w with comp := w.comp + 1 })

/-- The shape of a tree over `n` elements: `size` is the least power of two that is at least `n`. -/
structure Balanced (n log size : Nat) : Prop where
  pow : size = 2 ^ log
  le : n ≤ size
  least : ∀ k, n ≤ 2 ^ k → log ≤ k
  small : log ≤ 32

end Verif.Spec
