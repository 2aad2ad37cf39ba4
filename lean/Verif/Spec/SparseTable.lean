import Verif.Prelude.Res
/-! Specification vocabulary for sparse tables. -/
namespace Verif.Spec
open Res

/-- The product of the `2 ^ c` elements from `i` on, formed by halves. -/
def block (op : T → T → Res T) (v : List T) : Nat → Nat → Res T
  | 0, i => idx v i
  | c + 1, i => do
    let x ← block op v c i
    let y ← block op v c (i + 2 ^ c)
    op x y

/-- The same, or the filler where it would end beyond the slice. -/
def cell (op : T → T → Res T) (v : List T) (init : T) (c i : Nat) : Res T :=
  if i + 2 ^ c ≤ v.length then block op v c i else ok init

end Verif.Spec
