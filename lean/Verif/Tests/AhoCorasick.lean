import Verif.Model.AhoCorasick
/-! The three searches on all texts over two letters up to length four and some longer ones, against definitions by
suffixes. -/
namespace Verif.Tests.AhoCorasick
open Res Model

/-- All words over `97`, `98` of length `k`. -/
def words : Nat → List (List Nat)
  | 0 => [[]]
  | k + 1 => (words k).flatMap fun w => [97 :: w, 98 :: w]

/-- The last index of `p`. -/
def lastIdx (P : List (List Nat)) (p : List Nat) : Option Nat :=
  ((List.range P.length).filter fun j => P[j]? = some p).getLast?

/-- The indices of the patterns ending at position `i`, longest first; of equal patterns the last. -/
def endsAt (P : List (List Nat)) (text : List Nat) (i : Nat) : List Nat :=
  (List.range (i + 1)).filterMap fun k => lastIdx P ((text.take (i + 1)).drop k)

/-- The longest suffix of the text up to position `i` that is a prefix of a pattern, if it is a pattern. -/
def longest (P : List (List Nat)) (text : List Nat) (i : Nat) : Option Nat :=
  (((List.range (i + 1)).map fun k => (text.take (i + 1)).drop k).find? fun w =>
    P.any fun p => decide (p.take w.length = w)).bind (lastIdx P)

/-- The three searches on one text. -/
def check (N : Nat) (P : List (List Nat)) (texts : List (List Nat)) : Bool :=
  match AhoCorasick.from 97 N P with
  | ok a => texts.all fun text =>
    let I := List.range text.length
    decide (a.findAll 97 text = ok (I.map (endsAt P text))) && decide (a.find 97 text = ok (I.map (longest P text))) &&
      decide (a.findCnt 97 text = ok ((List.range P.length).map fun j =>
        (I.filter fun i => j ∈ endsAt P text i).length))
  | _ => false

example : check 2 [[97], [97, 98], [98, 98], [97, 97, 98], [98]] (words 3 ++ words 4) = true ∧
    check 2 [[97, 98, 97], [97, 98], [98, 97, 98], [97, 98]] (words 2 ++ words 5) = true ∧ check 2 [] (words 2) = true := by
  decide +kernel

/-- `he`, `she`, `his`, `hers` on `ushers` and others; letters from `a`. -/
def lit (s : String) : List Nat := s.toList.map Char.toNat

example : check 26 [lit "he", lit "she", lit "his", lit "hers"] [lit "ushers", lit "hishershe", lit "", lit "xyz"] = true := by
  decide +kernel

example : AhoCorasick.from 97 2 [[]] = panic ∧ AhoCorasick.from 97 2 [[99]] = panic ∧ AhoCorasick.from 97 2 [[96]] = panic ∧
    (do let a ← AhoCorasick.from 97 2 [[97]]; a.find 97 [99]) = panic ∧
    (do let a ← AhoCorasick.from 97 2 [[97]]; a.find 97 [96]) = panic := by decide +kernel

end Verif.Tests.AhoCorasick
