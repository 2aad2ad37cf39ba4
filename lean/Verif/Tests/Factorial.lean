import Verif.Model.Factorial
/-! Pascal's triangle and falling factorials modulo some numbers. -/
namespace Verif.Tests.Factorial
open Res Model

/-- Pascal's triangle. -/
def pascal : Nat → Nat → Nat
  | _, 0 => 1
  | 0, _ + 1 => 0
  | n + 1, r + 1 => pascal n r + pascal n (r + 1)

/-- `n (n - 1) … (n - r + 1)`. -/
def falling (n : Nat) : Nat → Nat
  | 0 => 1
  | r + 1 => falling n r * (n - r)

/-- All `r ≤ a ≤ n`, and the first arguments out of range. -/
def check (k : MKind) (m n : Nat) : Bool :=
  match factorialNew k n with
  | ok t => (List.range (n + 1)).all fun a => (List.range (a + 1)).all (fun r =>
      decide (t.choose k a r = ok (pascal a r % m)) && decide (t.perm k a r = ok (falling a r % m))) &&
      decide (t.choose k a (a + 1) = panic) && decide (t.perm k a (a + 1) = panic) &&
      decide (t.choose k (n + 1) a = panic) && decide (t.perm k (n + 1) a = panic)
  | _ => false

example : check (.stat 11 true) 11 10 = true ∧ check (.stat 998244353 true) 998244353 8 = true ∧
    check (.stat 25 false) 25 4 = true ∧ check (.stat 7 true) 7 0 = true ∧ factorialNew (.stat 11 true) 11 = panic ∧
    factorialNew (.stat 25 false) 5 = panic := by decide +kernel

end Verif.Tests.Factorial
