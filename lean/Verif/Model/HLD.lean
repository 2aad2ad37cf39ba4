import Verif.Model.LazySegtree
/-! Model of `/repo/src/graph/heavy_light_decomp.rs`. The index `pos + 1` is computed in `Nat`: it is
at most a `Vec` length. -/
namespace Verif.Model
open Res

/-- `/repo/src/graph/heavy_light_decomp.rs:10-15`: the fields of `HLD` other than `data`, grouped
because the two searches never touch `data`. -/
structure HArr where
  parent : List Nat
  dep : List Nat
  heavyChild : List (Option Nat)
  head : List Nat
  pos : List Nat
  posR : List Nat
deriving DecidableEq

/-- `/repo/src/graph/heavy_light_decomp.rs:8-16`, `struct HLD`. -/
structure HLD (S F : Type) where
  data : LazySegtree S F
  arr : HArr
deriving DecidableEq

namespace HArr

/-- `/repo/src/graph/heavy_light_decomp.rs:49-64`, `dfs1`: returns `self` and the size. Fuel bounds
the recursion depth. -/
def dfs1 : Nat → List (List Nat) → Nat → HArr → Res (HArr × Nat)
  | 0, _, _, _ => .diverge
  | fuel + 1, g, u, t => do
    let gu ← idx g u
    let (t, size, _) ← forList gu ((t, 1, 0) : HArr × Nat × Nat) fun v (t, size, maxSize) => do
      let pu ← idx t.parent u
      if v ≠ pu then do
        let parent ← upd t.parent v u
        let t : HArr := { t with parent := parent }
        let du ← idx t.dep u
        let d ← addU 64 du 1
        let dep ← upd t.dep v d
        let t : HArr := { t with dep := dep }
        let (t, childSize) ← dfs1 fuel g v t
        let size ← addU 64 size childSize
        if childSize > maxSize then do
          let heavyChild ← upd t.heavyChild u (some v)
          ok ({ t with heavyChild := heavyChild }, size, childSize)
        else ok (t, size, maxSize)
      else ok (t, size, maxSize)
    ok (t, size)

/-- `/repo/src/graph/heavy_light_decomp.rs:66-81`, `dfs2`: returns `self` and `*timer`. -/
def dfs2 : Nat → List (List Nat) → Nat → Nat → HArr → Nat → Res (HArr × Nat)
  | 0, _, _, _, _, _ => .diverge
  | fuel + 1, g, u, hd, t, timer => do
    let head ← upd t.head u hd
    let pos ← upd t.pos u timer
    let t : HArr := { t with head := head, pos := pos }
    let timer ← addU 64 timer 1
    let v ← idx t.heavyChild u
    let (t, timer) ← (if v.isSome then do
        let v ← unwrap v
        dfs2 fuel g v hd t timer
      else ok (t, timer) : Res (HArr × Nat))
    let gu ← idx g u
    let (t, timer) ← forList gu ((t, timer) : HArr × Nat) fun v (t, timer) => do
      let pu ← idx t.parent u
      if v ≠ pu then do
        let hc ← idx t.heavyChild u
        if some v ≠ hc then dfs2 fuel g v v t timer else ok (t, timer)
      else ok (t, timer)
    let posR ← upd t.posR u timer
    ok ({ t with posR := posR }, timer)

end HArr

namespace HLD
variable {S F : Type}

/-- `/repo/src/graph/heavy_light_decomp.rs:19-36`, `new`. -/
def new (M : MapMonoidOps S F) (g : List (List Nat)) (root : Nat) : Res (HLD S F) := do
  let n := g.length
  assert (root < n)
  let data ← LazySegtree.new M n
  let t : HArr :=
    { parent := List.replicate n 0
      dep := List.replicate n 0
      heavyChild := List.replicate n none
      head := List.replicate n 0
      pos := List.replicate n 0
      posR := List.replicate n 0 }
  let parent ← upd t.parent root root
  let t : HArr := { t with parent := parent }
  let (t, _) ← HArr.dfs1 (n + 1) g root t
  let (t, _) ← HArr.dfs2 (n + 1) g root root t 0
  ok { data := data, arr := t }

/-- `/repo/src/graph/heavy_light_decomp.rs:38-47`, `with_init_value`. -/
def withInitValue (M : MapMonoidOps S F) (g : List (List Nat)) (root : Nat) (v : List S) :
    Res (HLD S F) := do
  assert (g.length = v.length)
  let res ← HLD.new M g root
  let a ← forRange 0 v.length v fun i a => do
    let x ← idx v i
    let p ← idx res.arr.pos i
    upd a p x
  let data ← LazySegtree.from M a
  ok { res with data := data }

/-- `/repo/src/graph/heavy_light_decomp.rs:83-95`, `apply_path`. Fuel: each round climbs to a
strictly higher chain on one of the two sides. -/
def applyPath (M : MapMonoidOps S F) (h : HLD S F) (u v : Nat) (f : F) : Res (HLD S F) := do
  let (data, u, v) ← whileLoop (2 * h.arr.head.length + 1)
    ((h.data, u, v) : LazySegtree S F × Nat × Nat)
    (fun (_, u, v) => do
      let hu ← idx h.arr.head u
      let hv ← idx h.arr.head v
      ok (decide (hu ≠ hv)))
    (fun (data, u, v) => do
      let hu ← idx h.arr.head u
      let du ← idx h.arr.dep hu
      let hv ← idx h.arr.head v
      let dv ← idx h.arr.dep hv
      let (u, v) := if du < dv then (v, u) else (u, v)
      let hu ← idx h.arr.head u
      let l ← idx h.arr.pos hu
      let r ← idx h.arr.pos u
      let data ← data.applyRange M l (r + 1) f
      let u ← idx h.arr.parent hu
      ok (data, u, v))
  let pu ← idx h.arr.pos u
  let pv ← idx h.arr.pos v
  let (u, v) := if pu > pv then (v, u) else (u, v)
  let l ← idx h.arr.pos u
  let r ← idx h.arr.pos v
  let data ← data.applyRange M l (r + 1) f
  ok { h with data := data }

/-- `/repo/src/graph/heavy_light_decomp.rs:97-111`, `path_prod`. -/
def pathProd (M : MapMonoidOps S F) (h : HLD S F) (u v : Nat) : Res (HLD S F × S) := do
  let (data, res, u, v) ← whileLoop (2 * h.arr.head.length + 1)
    ((h.data, M.e, u, v) : LazySegtree S F × S × Nat × Nat)
    (fun (_, _, u, v) => do
      let hu ← idx h.arr.head u
      let hv ← idx h.arr.head v
      ok (decide (hu ≠ hv)))
    (fun (data, res, u, v) => do
      let hu ← idx h.arr.head u
      let du ← idx h.arr.dep hu
      let hv ← idx h.arr.head v
      let dv ← idx h.arr.dep hv
      let (u, v) := if du < dv then (v, u) else (u, v)
      let hu ← idx h.arr.head u
      let l ← idx h.arr.pos hu
      let r ← idx h.arr.pos u
      let (data, x) ← data.prod M l (r + 1)
      let res ← M.op res x
      let u ← idx h.arr.parent hu
      ok (data, res, u, v))
  let pu ← idx h.arr.pos u
  let pv ← idx h.arr.pos v
  let (u, v) := if pu > pv then (v, u) else (u, v)
  let l ← idx h.arr.pos u
  let r ← idx h.arr.pos v
  let (data, x) ← data.prod M l (r + 1)
  let res ← M.op res x
  ok ({ h with data := data }, res)

/-- `/repo/src/graph/heavy_light_decomp.rs:113-115`, `apply_subtree`. -/
def applySubtree (M : MapMonoidOps S F) (h : HLD S F) (u : Nat) (f : F) : Res (HLD S F) := do
  let l ← idx h.arr.pos u
  let r ← idx h.arr.posR u
  let data ← h.data.applyRange M l r f
  ok { h with data := data }

/-- `/repo/src/graph/heavy_light_decomp.rs:117-119`, `subtree_prod`. -/
def subtreeProd (M : MapMonoidOps S F) (h : HLD S F) (u : Nat) : Res (HLD S F × S) := do
  let l ← idx h.arr.pos u
  let r ← idx h.arr.posR u
  let (data, x) ← h.data.prod M l r
  ok ({ h with data := data }, x)

/-- `/repo/src/graph/heavy_light_decomp.rs:122-124`, `get`. -/
def get (M : MapMonoidOps S F) (h : HLD S F) (u : Nat) : Res (HLD S F × S) := do
  let p ← idx h.arr.pos u
  let (data, x) ← h.data.get M p
  ok ({ h with data := data }, x)

/-- `/repo/src/graph/heavy_light_decomp.rs:127-129`, `set`. -/
def set (M : MapMonoidOps S F) (h : HLD S F) (u : Nat) (x : S) : Res (HLD S F) := do
  let p ← idx h.arr.pos u
  let data ← h.data.set M p x
  ok { h with data := data }

end HLD
end Verif.Model
