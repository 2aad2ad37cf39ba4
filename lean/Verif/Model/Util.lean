import Verif.Prelude.Int
/-! Model of `/repo/src/misc/util.rs`. -/
namespace Verif.Model

/-- `/repo/src/misc/util.rs:1-3`, `lg(i: usize) -> u32`: `64 - 1 - i.leading_zeros()` in checked
`u32` arithmetic (panics for `i = 0`). -/
def lg (i : Nat) : Res Nat := do
  let a ← subU 64 1
  subU a (leadingZeros 64 i)

/-- `/repo/src/misc/util.rs:5-7`, `ceil_lg(n: u32) -> u32`:
`32 - n.saturating_sub(1).leading_zeros()`. `saturating_sub` on unsigned is truncated `Nat`
subtraction. -/
def ceilLg (n : Nat) : Res Nat := subU 32 (leadingZeros 32 (n - 1))

end Verif.Model
