import Verif.Model.Input
/-! The reader on some inputs. -/
namespace Verif.Tests.Input
open Res Model

/-- All tokens, with the reader asked twice more at the end. -/
def tokens : Nat → In → List (Option (List Char))
  | 0, _ => []
  | k + 1, i => i.next.1 :: tokens k i.next.2

example : tokens 4 (In.new "ab c".toList) = [some "ab".toList, some "c".toList, none, none] ∧
    tokens 3 (In.new "  \t\r\n x\n\n".toList) = [some "x".toList, none, none] ∧
    tokens 2 (In.new "".toList) = [none, none] ∧ tokens 2 (In.new " \n".toList) = [none, none] ∧
    tokens 3 (In.new "a b　".toList) = [some "a".toList, some "b".toList, none] ∧
    tokens 2 (In.new "a​b".toList) = [some "a​b".toList, none] := by decide +kernel

/-- The number. -/
def num (r : Res (Int × In)) : Res Int := Prod.fst <$> r

example : num (In.new "-12 7".toList).i32 = ok (-12) ∧ num (In.new "2147483647".toList).i32 = ok 2147483647 ∧
    num (In.new "2147483648".toList).i32 = panic ∧ num (In.new "2147483648".toList).i64 = ok 2147483648 ∧
    num (In.new "-1".toList).usize = panic ∧ num (In.new "18446744073709551615".toList).usize = ok 18446744073709551615 ∧
    num (In.new "18446744073709551616".toList).usize = panic ∧ num (In.new "".toList).i32 = panic ∧
    num (In.new "x".toList).i32 = panic ∧ num (In.new "+5".toList).i32 = ok 5 ∧ num (In.new "--5".toList).i32 = panic := by
  decide +kernel

example : (Prod.fst <$> (In.new "1 2 3 4".toList).vec (parseInt i32) 3) = ok [1, 2, 3] ∧
    (do let (_, i) ← (In.new "1 2 3 4".toList).vec (parseInt i32) 3; num i.i32) = ok 4 ∧
    (Prod.fst <$> (In.new "1 2".toList).vec (parseInt i32) 3) = panic ∧
    (Prod.fst <$> (In.new "1 2".toList).vec (parseInt i32) 0) = ok [] ∧
    (Prod.fst <$> (In.new "".toList).checkedRead (parseInt i32)) = ok none ∧
    (Prod.fst <$> (In.new "5".toList).checkedRead (parseInt i32)) = ok (some 5) ∧
    (Prod.fst <$> (In.new "q".toList).checkedRead (parseInt i32)) = panic ∧
    (Prod.fst <$> (In.new " aé b".toList).chars) = ok ['a', 'é'] ∧
    (Prod.fst <$> (In.new " aé b".toList).bytes) = ok [97, 195, 169] := by decide +kernel

end Verif.Tests.Input
