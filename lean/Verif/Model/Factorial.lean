import Verif.Model.Modint
/-! # Model of `/repo/src/math/factorial.rs` -/
namespace Verif.Model
open Res

/-- `usize` on a 64-bit target. -/
def usizeTy : IntTy := ⟨false, 64⟩

/-- `/repo/src/math/factorial.rs:3-6`; the type parameter is the kind passed to the functions. -/
structure Factorial where
  factorial : List Nat
  invFac : List Nat
deriving DecidableEq

/-- `/repo/src/math/factorial.rs:9-24`, `new`. -/
def factorialNew (k : MKind) (n : Nat) : Res Factorial := do
  let len ← addU 64 n 1
  let z ← miNew k i32 0
  let f := List.replicate len z
  let g := List.replicate len z
  let one ← miNew k i32 1
  let f ← upd f 0 one
  let f ← forRange 1 (n + 1) f fun i f => do
    let a ← idx f (i - 1)
    let b ← miNew k usizeTy i
    let v ← miMul k a b
    upd f i v
  let a ← idx f n
  let v ← miInv k a
  let g ← upd g n v
  let g ← forRangeRev 0 n g fun i g => do
    let a ← idx g (i + 1)
    let b ← miNew k usizeTy (i + 1)
    let v ← miMul k a b
    upd g i v
  ok ⟨f, g⟩

/-- `/repo/src/math/factorial.rs:26-30`, `choose`. -/
def Factorial.choose (t : Factorial) (k : MKind) (n r : Nat) : Res Nat := do
  assert (r ≤ n)
  assert (n < t.factorial.length)
  let a ← idx t.factorial n
  let d ← subU n r
  let b ← idx t.invFac d
  let ab ← miMul k a b
  let c ← idx t.invFac r
  miMul k ab c

/-- `/repo/src/math/factorial.rs:32-36`, `perm`. -/
def Factorial.perm (t : Factorial) (k : MKind) (n r : Nat) : Res Nat := do
  assert (r ≤ n)
  assert (n < t.factorial.length)
  let a ← idx t.factorial n
  let d ← subU n r
  let b ← idx t.invFac d
  miMul k a b

end Verif.Model
