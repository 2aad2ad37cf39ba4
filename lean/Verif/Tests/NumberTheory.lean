import Verif.Model.NumberTheory
/-! `gcd`, `lcm`, `ex_gcd`, `ex_crt` on ranges of small arguments. -/
namespace Verif.Tests.NumberTheory
open Res Model

/-- `-12`, …, `12`. -/
def small : List Int := (List.range 25).map fun (i : Nat) => (i : Int) - 12

example : small.all (fun a => small.all fun b =>
    (match gcd i64 a b with
      | ok g => decide (g.natAbs = Nat.gcd a.natAbs b.natAbs) && (decide (a < 0 ∨ b < 0) || decide (0 ≤ g))
      | _ => false) &&
    (match lcm i64 a b with
      | ok l => decide (l.natAbs = Nat.lcm a.natAbs b.natAbs) && decide (¬ (a = 0 ∧ b = 0))
      | _ => decide (a = 0 ∧ b = 0)) &&
    (match exGcd i64 a b with
      | ok (x, y, g) => decide (a * x + b * y = g) && decide (g.natAbs = Nat.gcd a.natAbs b.natAbs)
      | _ => false)) = true := by decide +kernel

/-- The least solution below the least common multiple of the moduli, by search. -/
def solve (a b m : List Int) : Option Int :=
  let L : Nat := m.foldl (fun (l : Nat) (x : Int) => Nat.lcm l x.natAbs) 1
  ((List.range L).map fun (i : Nat) => (i : Int)).find? fun x =>
    (a.zip (b.zip m)).all fun (a, b, m) => decide ((a * x - b) % m = 0)

/-- Two congruences `x ≡ b₁ (m₁)`, `x ≡ b₂ (m₂)`. -/
example : [1, 2, 4, 6].all (fun m₁ => [3, 4, 6].all fun m₂ => [0, 1, 5].all fun b₁ => [0, 2, 3].all fun b₂ =>
    (Option.map Prod.fst) <$> exCrt [1, 1] [b₁, b₂] [m₁, m₂] = ok (solve [1, 1] [b₁, b₂] [m₁, m₂])) = true := by
  decide +kernel

/-- With coefficients. -/
example : exCrt [2, 3] [4, 6] [6, 9] = ok (some (2, 3)) ∧ exCrt [4, 1] [2, 3] [6, 5] = ok (some (8, 15)) ∧
    exCrt [2] [1] [4] = ok none ∧ exCrt [] [] [] = ok (some (0, 1)) ∧ exCrt [1, 1] [1] [2] = panic := by decide +kernel

end Verif.Tests.NumberTheory
