import Verif.Prelude.Count
import Verif.Model.Strings
import Verif.Model.Fenwick
import Verif.Model.Segtree
import Verif.Model.NumberTheory
/-! Copies of some functions that also return the number of rounds of their inner loops. They are not
further models of the code: `Proof/Cost.lean` proves that forgetting the count gives the function
itself, panics included (`kmpCost_fst`, …). -/
namespace Verif.Model
open Res

/-- `/repo/src/string/kmp.rs:6-8`, with the number of rounds. -/
def kmpFallbackCost [DecidableEq α] (s : List α) (pi : List Nat) (i : Nat) (j : Nat) :
    Res (Nat × Nat) :=
  whileCount (j + 1) j
    (fun j => if j > 0 then do
        let a ← idx s i
        let b ← idx s j
        ok (decide (a ≠ b))
      else ok false)
    (fun j => idx pi (j - 1))

/-- `/repo/src/string/kmp.rs:1-15`, `kmp`, with the number of rounds of all inner loops together. -/
def kmpCost [DecidableEq α] (s : List α) : Res (List Nat × Nat) :=
  let n := s.length
  forRange 1 n (List.replicate n 0, 0) fun i (pi, c) => do
    let j ← idx pi (i - 1)
    let (j, k) ← kmpFallbackCost s pi i j
    let a ← idx s i
    let b ← idx s j
    let j := if a = b then j + 1 else j
    let pi ← upd pi i j
    ok (pi, c + k)

/-- `/repo/src/string/z_algorithm.rs:9-11`, with the number of rounds. -/
def zExtendCost [DecidableEq α] (s : List α) (i : Nat) (z : List Nat) : Res (List Nat × Nat) :=
  whileCount (s.length + 1) z
    (fun z => do
      let zi ← idx z i
      if i + zi < s.length then do
        let a ← idx s zi
        let b ← idx s (i + zi)
        ok (decide (a = b))
      else ok false)
    (fun z => do
      let zi ← idx z i
      upd z i (zi + 1))

/-- `/repo/src/string/z_algorithm.rs:1-18`, `z_function`, with the number of rounds of all inner loops
together. -/
def zCost [DecidableEq α] (s : List α) : Res (List Nat × Nat) := do
  let n := s.length
  let st ← forRange 1 n (((List.replicate n 0, 0, 0), 0) : (List Nat × Nat × Nat) × Nat)
    fun i ((z, l, r), c) => do
      let z ← (if i ≤ r then do
          let zil ← idx z (i - l)
          upd z i (min (r - i + 1) zil)
        else ok z)
      let (z, k) ← zExtendCost s i z
      let zi ← idx z i
      if i + zi - 1 > r then ok ((z, i, i + zi - 1), c + k) else ok ((z, l, r), c + k)
  ok (st.1.1, st.2)

/-- `/repo/src/data_structure/fenwick_tree.rs:39-46`, `pref`, with the number of rounds. -/
def Fenwick.prefCost {T : Type} (add : T → T → Res T) (zero : T) (t : Fenwick T) (i : Nat) :
    Res (T × Nat) := do
  let ((_, sum), k) ← whileCount (i + 1) ((i, zero) : Nat × T)
    (fun (i, _) => ok (decide (i > 0)))
    (fun (i, sum) => do
      let x ← idx t.ary (i - 1)
      let sum ← add sum x
      ok (i &&& (i - 1), sum))
  ok (sum, k)

/-- `/repo/src/data_structure/fenwick_tree.rs:49-59`, `add`, with the number of rounds. -/
def Fenwick.addAtCost {T : Type} (add : T → T → Res T) (t : Fenwick T) (i : Nat) (val : T) :
    Res (Fenwick T × Nat) := do
  let n := t.n
  let i ← addU 64 i 1
  let ((_, ary), k) ← whileCount (n + 1) ((i, t.ary) : Nat × List T)
    (fun (i, _) => ok (decide (i ≤ n)))
    (fun (i, ary) => do
      let x ← idx ary (i - 1)
      let s ← add x val
      let ary ← upd ary (i - 1) s
      let i ← addU 64 i (i &&& wnegU 64 i)
      ok (i, ary))
  ok ({ t with ary := ary }, k)

/-- `/repo/src/data_structure/segtree.rs:48-69`, `prod`, with the number of rounds. -/
def Segtree.prodCost {S : Type} (M : MonoidOps S) (t : Segtree S) (l r : Nat) : Res (S × Nat) := do
  assert (l ≤ r ∧ r ≤ t.n)
  let ((_, _, sml, smr), k) ← whileCount (r + t.size + 1)
    ((l + t.size, r + t.size, M.e, M.e) : Nat × Nat × S × S)
    (fun (l, r, _, _) => ok (decide (l < r)))
    (fun (l, r, sml, smr) => do
      let (l, sml) ← (if l &&& 1 ≠ 0 then do
          let x ← idx t.d l
          let sml ← M.op sml x
          ok (l + 1, sml)
        else ok (l, sml) : Res (Nat × S))
      let (r, smr) ← (if r &&& 1 ≠ 0 then do
          let x ← idx t.d (r - 1)
          let smr ← M.op x smr
          ok (r - 1, smr)
        else ok (r, smr) : Res (Nat × S))
      ok (l >>> 1, r >>> 1, sml, smr))
  let x ← M.op sml smr
  ok (x, k)

/-- `/repo/src/math/number_theory.rs:3-10`, `gcd`, with the number of divisions. -/
def gcdCost (ty : IntTy) (a b : Int) : Res (Int × Nat) :=
  loopCount (b.natAbs + 2) ((a, b) : Int × Int) fun (a, b) =>
    if b ≠ 0 then do
      let r ← ty.rem a b
      ok (.next (b, r))
    else ok (.done a)

end Verif.Model
