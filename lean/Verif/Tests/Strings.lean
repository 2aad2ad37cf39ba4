import Verif.Model.Strings
/-! `kmp` and `z_function` on all short words over two letters, against direct definitions. -/
namespace Verif.Tests.Strings
open Res Model

/-- All words of length `n` over `{0, 1}`. -/
def words : Nat → List (List Nat)
  | 0 => [[]]
  | n + 1 => (words n).flatMap fun w => [0 :: w, 1 :: w]

/-- The largest `k ≤ i` such that the first `k` letters of `s[0..=i]` are its last `k`. -/
def naivePi (s : List Nat) (i : Nat) : Nat :=
  (((List.range (i + 1)).filter fun k => s.take k = (s.take (i + 1)).drop (i + 1 - k)).max?).getD 0

/-- The largest `k` such that `s` and `s[i..]` agree in `k` letters. -/
def naiveZ (s : List Nat) (i : Nat) : Nat :=
  if i = 0 then 0
  else (((List.range (s.length - i + 1)).filter fun k => s.take k = (s.drop i).take k).max?).getD 0

/-- Both functions on a word. -/
def check (s : List Nat) : Bool :=
  (kmp s = ok ((List.range s.length).map (naivePi s))) && (zFunction s = ok ((List.range s.length).map (naiveZ s)))

example : ((List.range 7).all fun n => (words n).all check) = true := by decide +kernel
example : check [0, 0, 1, 0, 0, 1, 0, 0, 0, 1, 0, 0] = true := by decide +kernel
example : check [0, 1, 2, 0, 1, 0, 1, 2, 0, 1, 2, 0, 1, 0] = true := by decide +kernel

end Verif.Tests.Strings
