import Verif.Spec.LazySegtree
/-! What the `Debug` text of a lazy segment tree shows. -/
namespace Verif.Spec
open Verif.Model

/-- The text of a table: level `i < L` is a line with `2^i` entries `D i j [Z i j]`, each followed by a tab; level `L`
has `2^L` entries without a map and no end of line. -/
def tableText {S F : Type} (showS : S → List Char) (showF : F → List Char) (L : Nat) (D : Nat → Nat → S)
    (Z : Nat → Nat → F) : List Char :=
  ((List.range L).flatMap fun i =>
    ((List.range (2 ^ i)).flatMap fun j => showS (D i j) ++ '[' :: (showF (Z i j) ++ [']', '\t'])) ++ ['\n']) ++
  (List.range (2 ^ L)).flatMap fun j => showS (D L j) ++ ['\t']

/-- The maps shown at the strict ancestors of entry `j` of level `i`, applied to `x` from the parent up to the root. -/
def throughAncestors {S F : Type} (M : MapOps S F) (Z : Nat → Nat → F) : Nat → Nat → S → S
  | 0, _, x => x
  | i + 1, j, x => throughAncestors M Z i (j / 2) (M.mapping (Z i (j / 2)) x)

end Verif.Spec
