import Verif.Prelude.Count
import Verif.Model.HLD
/-! Copies of the two path operations of the heavy-light decomposition that also return the number of
rounds of their loops (see `Model/Cost.lean`). Each round makes one segment tree call, and one more
follows the loop. -/
namespace Verif.Model
open Res

namespace HLD
variable {S F : Type}

/-- `/repo/src/graph/heavy_light_decomp.rs:83-95`, `apply_path`, with the number of rounds. -/
def applyPathCost (M : MapMonoidOps S F) (h : HLD S F) (u v : Nat) (f : F) : Res (HLD S F × Nat) := do
  let ((data, u, v), k) ← whileCount (2 * h.arr.head.length + 1)
    ((h.data, u, v) : LazySegtree S F × Nat × Nat)
    (fun (_, u, v) => do
      let hu ← idx h.arr.head u
      let hv ← idx h.arr.head v
      ok (decide (hu ≠ hv)))
    (fun (data, u, v) => do
      let hu ← idx h.arr.head u
      let du ← idx h.arr.dep hu
      let hv ← idx h.arr.head v
      let dv ← idx h.arr.dep hv
      let (u, v) := if du < dv then (v, u) else (u, v)
      let hu ← idx h.arr.head u
      let l ← idx h.arr.pos hu
      let r ← idx h.arr.pos u
      let data ← data.applyRange M l (r + 1) f
      let u ← idx h.arr.parent hu
      ok (data, u, v))
  let pu ← idx h.arr.pos u
  let pv ← idx h.arr.pos v
  let (u, v) := if pu > pv then (v, u) else (u, v)
  let l ← idx h.arr.pos u
  let r ← idx h.arr.pos v
  let data ← data.applyRange M l (r + 1) f
  ok ({ h with data := data }, k)

/-- `/repo/src/graph/heavy_light_decomp.rs:97-111`, `path_prod`, with the number of rounds. -/
def pathProdCost (M : MapMonoidOps S F) (h : HLD S F) (u v : Nat) : Res ((HLD S F × S) × Nat) := do
  let ((data, res, u, v), k) ← whileCount (2 * h.arr.head.length + 1)
    ((h.data, M.e, u, v) : LazySegtree S F × S × Nat × Nat)
    (fun (_, _, u, v) => do
      let hu ← idx h.arr.head u
      let hv ← idx h.arr.head v
      ok (decide (hu ≠ hv)))
    (fun (data, res, u, v) => do
      let hu ← idx h.arr.head u
      let du ← idx h.arr.dep hu
      let hv ← idx h.arr.head v
      let dv ← idx h.arr.dep hv
      let (u, v) := if du < dv then (v, u) else (u, v)
      let hu ← idx h.arr.head u
      let l ← idx h.arr.pos hu
      let r ← idx h.arr.pos u
      let (data, x) ← data.prod M l (r + 1)
      let res ← M.op res x
      let u ← idx h.arr.parent hu
      ok (data, res, u, v))
  let pu ← idx h.arr.pos u
  let pv ← idx h.arr.pos v
  let (u, v) := if pu > pv then (v, u) else (u, v)
  let l ← idx h.arr.pos u
  let r ← idx h.arr.pos v
  let (data, x) ← data.prod M l (r + 1)
  let res ← M.op res x
  ok (({ h with data := data }, res), k)

end HLD
end Verif.Model
