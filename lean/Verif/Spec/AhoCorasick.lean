import Mathlib.Data.List.Basic
/-! Independent specification of multi-pattern search. -/
namespace Verif.Spec

/-- The number attached to `w` by the last entry for `w`. -/
def lookupLast (E : List (List Nat × Nat)) (w : List Nat) : Option Nat :=
  (E.reverse.find? (fun e => e.1 = w)).map Prod.snd

/-- All non-empty suffixes of `w` and the empty one, longest first. -/
def suffixes : List Nat → List (List Nat)
  | [] => [[]]
  | c :: w => (c :: w) :: suffixes w

/-- The numbers of the suffixes of `w` that are patterns, longest first. -/
def matchesAt (E : List (List Nat × Nat)) (w : List Nat) : List Nat :=
  (suffixes w).filterMap (lookupLast E)

/-- `j` is the last index of its pattern, and that pattern ends `w`. -/
def EndsWith (P : List (List Nat)) (w : List Nat) (j : Nat) : Prop :=
  ∃ p, P[j]? = some p ∧ p <:+ w ∧ ∀ k, j < k → P[k]? ≠ some p

/-- Every byte is one of the `N` from `off` on. -/
def InAlphabet (off N : Nat) (w : List Nat) : Prop := ∀ c ∈ w, off ≤ c ∧ c < off + N

end Verif.Spec

namespace Verif.Spec

/-- `w` is the longest suffix of `t` that is a prefix of some pattern (or empty). -/
structure LongestPrefixSuffix (P : List (List Nat)) (t w : List Nat) : Prop where
  suffix : w <:+ t
  isPrefix : w = [] ∨ ∃ p ∈ P, w <+: p
  longest : ∀ x, x <:+ t → (∃ p ∈ P, x <+: p) → x.length ≤ w.length

/-- Number of positions of `text` where `p` ends. -/
def occurrences (p text : List Nat) : Nat :=
  (List.range text.length).countP fun i => p.isSuffixOf (text.take (i + 1))

end Verif.Spec

namespace Verif.Spec

/-- The longest prefix of a pattern that a search ends in when it starts again from nothing at every byte that does not
continue the current prefix. -/
def trieWalk (P : List (List Nat)) (t : List Nat) : List Nat :=
  t.foldl (fun w c => if P.any fun p => (w ++ [c]).isPrefixOf p then w ++ [c] else []) []

/-- The numbers below `n`, each with how often it occurs in `l`. -/
def tally (n : Nat) (l : List Nat) : List Nat := (List.range n).map fun j => l.count j

end Verif.Spec
