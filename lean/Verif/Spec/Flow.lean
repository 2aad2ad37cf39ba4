import Mathlib.Algebra.BigOperators.Fin
import Mathlib.Algebra.Order.BigOperators.Group.Finset
import Mathlib.Algebra.Order.Ring.Int
/-! Specification vocabulary for maximum flow. -/
namespace Verif.Spec

/-- An edge that can carry any amount between `-b` and `a` from `u` to `v`. A plain directed edge of
capacity `c` is `⟨u, v, c, 0⟩`; what remains of it when it carries `x` is `⟨u, v, c - x, x⟩`. -/
structure NEdge where
  u : Nat
  v : Nat
  a : Int
  b : Int
deriving DecidableEq

/-- Net amount leaving vertex `y` when edge number `k` carries `x k`. -/
def netOut (N : List NEdge) (x : Nat → Int) (y : Nat) : Int :=
  ∑ k : Fin N.length, ((if N[k].u = y then x k else 0) - (if N[k].v = y then x k else 0))

/-- `x` is a flow from `s` to `t`: bounds on every edge, conservation at every other vertex. -/
structure IsFlow (N : List NEdge) (s t : Nat) (x : Nat → Int) : Prop where
  bounds : ∀ k : Fin N.length, -N[k].b ≤ x k ∧ x k ≤ N[k].a
  cons : ∀ y, y ≠ s → y ≠ t → netOut N x y = 0

/-- `v` is the largest value of a flow from `s` to `t`. -/
def IsMaxFlow (N : List NEdge) (s t : Nat) (v : Int) : Prop :=
  (∃ x, IsFlow N s t x ∧ netOut N x s = v) ∧ ∀ x, IsFlow N s t x → netOut N x s ≤ v

/-- Capacity of the cut around `S`: what edges can carry out of `S`. -/
def cutCap (N : List NEdge) (S : Finset Nat) : Int :=
  ∑ k : Fin N.length, (if N[k].u ∈ S ∧ N[k].v ∉ S then N[k].a
    else if N[k].u ∉ S ∧ N[k].v ∈ S then N[k].b else 0)

/-- `v` is the least capacity of a cut that separates `t` from `s`. -/
def IsMinCut (N : List NEdge) (s t : Nat) (v : Int) : Prop :=
  (∃ S, s ∈ S ∧ t ∉ S ∧ cutCap N S = v) ∧ ∀ S, s ∈ S → t ∉ S → v ≤ cutCap N S

/-- What remains of the network when `x` is carried. -/
def residual (N : List NEdge) (x : Nat → Int) : List NEdge :=
  N.mapIdx fun k e => { e with a := e.a - x k, b := e.b + x k }

/-- Calls of the public interface. -/
inductive FlowOp where
  | addEdge (u v : Nat) (c : Int)
  | maxFlow (s t : Nat)

/-- Vertices exist and capacities are not negative. -/
def FlowOp.Pre (n : Nat) : FlowOp → Prop
  | .addEdge u v c => u < n ∧ v < n ∧ 0 ≤ c
  | .maxFlow s t => s < n ∧ t < n

/-- The capacity a call adds. -/
def FlowOp.cap : FlowOp → Int
  | .addEdge _ _ c => c
  | .maxFlow _ _ => 0

/-- Answers of a history: every `maxFlow s t` answers the maximum flow of what the earlier calls left,
and leaves what remains after some flow of that value. -/
def FlowRunOk : List NEdge → List FlowOp → List Int → Prop
  | _, [], [] => True
  | N, .addEdge u v c :: ops, outs => FlowRunOk (N ++ [⟨u, v, c, 0⟩]) ops outs
  | N, .maxFlow s t :: ops, val :: outs => IsMaxFlow N s t val ∧
      ∃ x, IsFlow N s t x ∧ netOut N x s = val ∧ FlowRunOk (residual N x) ops outs
  | _, _, _ => False

end Verif.Spec
