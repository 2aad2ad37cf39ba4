import Verif.Model.Modint
import Verif.Model.ModintConc
/-! The modint types that `/repo/src/misc/modint.rs` provides, their `Default`, `Hash` and `Debug`, and several dynamic types
with a `Barrett` each. -/
namespace Verif.Model
open Res

/-- `/repo/src/misc/modint.rs:66`, `254-267`, `ModInt1000000007` (`butterfly_cache` is never used). -/
def modInt1000000007 : MKind := .stat 1000000007 true

/-- `/repo/src/misc/modint.rs:67`, `270-283`, `ModInt998244353`. -/
def modInt998244353 : MKind := .stat 998244353 true

/-- `/repo/src/misc/modint.rs:68`, `450-458`, `475-479`, `ModInt` before any `set_modulus`. -/
def modIntDefault : MKind := .dyn barrettDefault

/-- `/repo/src/misc/modint.rs:763-765`, `839-844`, `default`. -/
def miDefault : Nat := 0

/-- `/repo/src/misc/modint.rs:775-777`, `863-868`, `hash`: the `u32` handed to the hasher. -/
def miHash (a : Nat) : Nat := a

/-- `/repo/src/misc/modint.rs:785-787`, `877-882`, `Debug` of a `u32` without format options. -/
def miDebug (a : Nat) : List Char := Nat.toDigits 10 a

/-- `/repo/src/misc/modint.rs:469-474`, `Barrett::new`. A zero modulus panics (division by zero). -/
def barrettNew (m : Nat) : Res Barrett :=
  if m = 0 then panic else ok ⟨m, waddU 64 ((2 ^ 64 - 1) / m) 1⟩

/-- `/repo/src/misc/modint.rs:355-360`, `446-448`, `DynamicModInt::<I>::set_modulus` where there are several types `I`, numbered,
each with its own static `Barrett`. -/
def setModulusOf (st : Nat → Barrett) (i m : Nat) : Res (Nat → Barrett) := do
  let b ← setModulus m
  ok fun j => if j = i then b else st j

end Verif.Model
