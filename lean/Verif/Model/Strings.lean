import Verif.Prelude.Res
/-! Model of `/repo/src/string/kmp.rs` and `/repo/src/string/z_algorithm.rs`.

`T: PartialEq` is modelled as a type with decidable equality (so equality is the real one; a
`PartialEq` that is something else, such as the one of `f64`, is in `Verif.Model.StringsBy`). -/
namespace Verif.Model
open Res

/-- `/repo/src/string/kmp.rs:6-8`: the inner `while j > 0 && s[i] != s[j] { j = pi[j - 1]; }`. -/
def kmpFallback [DecidableEq α] (s : List α) (pi : List Nat) (i : Nat) (j : Nat) : Res Nat :=
  whileLoop (j + 1) j
    (fun j => if j > 0 then do
        let a ← idx s i
        let b ← idx s j
        ok (decide (a ≠ b))
      else ok false)
    (fun j => idx pi (j - 1))

/-- `/repo/src/string/kmp.rs:1-15`, `kmp`. -/
def kmp [DecidableEq α] (s : List α) : Res (List Nat) :=
  let n := s.length
  forRange 1 n (List.replicate n 0) fun i pi => do
    let j ← idx pi (i - 1)
    let j ← kmpFallback s pi i j
    let a ← idx s i
    let b ← idx s j
    let j := if a = b then j + 1 else j
    upd pi i j

/-- `/repo/src/string/z_algorithm.rs:9-11`: the inner
`while i + z[i] < n && s[z[i]] == s[i + z[i]] { z[i] += 1; }`. The state is the vector `z`. -/
def zExtend [DecidableEq α] (s : List α) (i : Nat) (z : List Nat) : Res (List Nat) :=
  whileLoop (s.length + 1) z
    (fun z => do
      let zi ← idx z i
      if i + zi < s.length then do
        let a ← idx s zi
        let b ← idx s (i + zi)
        ok (decide (a = b))
      else ok false)
    (fun z => do
      let zi ← idx z i
      upd z i (zi + 1))

/-- `/repo/src/string/z_algorithm.rs:1-18`, `z_function`. The loop state is `(z, l, r)`.
`i + z[i] - 1` cannot underflow since `i ≥ 1`. -/
def zFunction [DecidableEq α] (s : List α) : Res (List Nat) := do
  let n := s.length
  let st ← forRange 1 n ((List.replicate n 0, 0, 0) : List Nat × Nat × Nat) fun i (z, l, r) => do
    let z ← (if i ≤ r then do
        let zil ← idx z (i - l)
        upd z i (min (r - i + 1) zil)
      else ok z)
    let z ← zExtend s i z
    let zi ← idx z i
    if i + zi - 1 > r then ok (z, i, i + zi - 1) else ok (z, l, r)
  ok st.1

end Verif.Model
