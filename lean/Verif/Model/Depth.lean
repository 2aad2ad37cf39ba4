import Verif.Model.Tarjan
import Verif.Model.BinaryLifting
import Verif.Model.HLD
import Verif.Model.Bipartite
import Verif.Model.Dinic
/-! The recursive searches with at most `k` calls nested in each other, counting the outermost: a call nested deeper
does not return. Everything else is as in the models of the same functions. -/
namespace Verif.Model
open Res

/-- `/repo/src/graph/tarjan.rs:49-68`, `scc`, with at most `k` nested calls of `dfs`. -/
def sccDepth (k : Nat) (g : List (List Nat)) : Res (Nat × List Nat) := do
  let n := g.length
  let s ← forRange 0 n (SCC.new n) fun i s => do
    let o ← idx s.order i
    if o = -1 then SCC.dfs k i g s else ok s
  let color := List.replicate n 0
  let cnt := s.component.length
  let color ← forList s.component.zipIdx color fun (v, i) color =>
    forList v color fun x color => upd color x i
  ok (cnt, color)

/-- `/repo/src/graph/binary_lifting.rs:12-25`, `from`, with at most `k` nested calls of `dfs`. -/
def BinaryLifting.fromDepth (k : Nat) (g : List (List Nat)) (root : Nat) : Res BinaryLifting := do
  let n := g.length
  let level ← lg n
  let level ← addU 64 level 1
  let t : BinaryLifting :=
    { level := level
      pa := List.replicate n (List.replicate level 0)
      dep := List.replicate n 0
      tin := List.replicate n 0
      tout := List.replicate n 0 }
  let (t, _) ← BinaryLifting.dfs k g root root t 0
  ok t

/-- `/repo/src/graph/heavy_light_decomp.rs:19-36`, `new`, with at most `k` nested calls of `dfs1` and of `dfs2`. -/
def HLD.newDepth {S F : Type} (k : Nat) (M : MapMonoidOps S F) (g : List (List Nat)) (root : Nat) : Res (HLD S F) := do
  let n := g.length
  assert (root < n)
  let data ← LazySegtree.new M n
  let t : HArr :=
    { parent := List.replicate n 0
      dep := List.replicate n 0
      heavyChild := List.replicate n none
      head := List.replicate n 0
      pos := List.replicate n 0
      posR := List.replicate n 0 }
  let parent ← upd t.parent root root
  let t : HArr := { t with parent := parent }
  let (t, _) ← HArr.dfs1 k g root t
  let (t, _) ← HArr.dfs2 k g root root t 0
  ok { data := data, arr := t }

/-- `/repo/src/graph/bipartite_matching.rs:48-54`, one round of `solve`, with at most `k` nested calls of `dfs`. -/
def AugmentedPath.phaseDepth (k n : Nat) (g : List (List Nat)) (s : BState) : Res (BState × Bool) := do
  let s : BState := { s with vis := List.replicate s.vis.length false }
  forRange 0 n ((s, false) : BState × Bool) fun i (s, found) => do
    let li ← idx s.l i
    if li.isNone then do
      let (s, b) ← AugmentedPath.dfs k i g s
      ok (s, found || b)
    else ok (s, found)

/-- `/repo/src/graph/bipartite_matching.rs:46-66`, `solve`, with at most `k` nested calls of `dfs`. -/
def AugmentedPath.solveDepth (k : Nat) (t : AugmentedPath) : Res (AugmentedPath × Nat) := do
  let n := t.l.length
  let s ← loop (n + 1) ({ vis := t.vis, l := t.l, r := t.r } : BState) fun s => do
    let (s, found) ← AugmentedPath.phaseDepth k n t.g s
    if !found then ok (.done s) else ok (.next s)
  let ret ← forRange 0 n 0 fun i ret => do
    let li ← idx s.l i
    if li.isSome then ok (ret + 1) else ok ret
  ok ({ t with vis := s.vis, l := s.l, r := s.r }, ret)

/-- `/repo/src/graph/max_flow.rs:79-88`, `get_max_flow`, with at most `k` nested calls of `dfs`. -/
def Dinic.getMaxFlowDepth (ty : IntTy) (k : Nat) (d : Dinic) (s t : Nat) : Res (Dinic × Int) := do
  assert (s < d.n)
  assert (t < d.n)
  loop ((d.e.map fun e => e.cap.toNat).sum + 2) ((d, 0) : Dinic × Int) fun (d, ans) => do
    let (d, b) ← d.bfs s t
    if b then do
      let d := { d with cur := List.replicate d.cur.length 0 }
      let (d, a) ← Dinic.dfs ty k d s t ty.mx
      let ans ← ty.ck (ans + a)
      ok (.next (d, ans))
    else ok (.done (d, ans))

end Verif.Model
