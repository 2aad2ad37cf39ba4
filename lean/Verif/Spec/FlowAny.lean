import Verif.Spec.Flow
/-! Specification vocabulary for histories with arbitrary arguments. -/
namespace Verif.Spec

/-- The same call, with a negative capacity replaced by zero. -/
def FlowOp.clip : FlowOp → FlowOp
  | .addEdge u v c => .addEdge u v (max 0 c)
  | .maxFlow s t => .maxFlow s t

/-- All vertices exist. -/
def FlowOp.InRange (n : Nat) : FlowOp → Prop
  | .addEdge u v _ => u < n ∧ v < n
  | .maxFlow s t => s < n ∧ t < n

/-- `FlowRunTo N ops outs M`: answers of a history that begins with the network `N` and leaves `M`. -/
inductive FlowRunTo : List NEdge → List FlowOp → List Int → List NEdge → Prop
  | nil (N) : FlowRunTo N [] [] N
  | add {N u v c ops outs M} (h : FlowRunTo (N ++ [⟨u, v, c, 0⟩]) ops outs M) : FlowRunTo N (.addEdge u v c :: ops) outs M
  | flow {N s t val x ops outs M} (h1 : IsMaxFlow N s t val) (h2 : IsFlow N s t x) (h3 : netOut N x s = val)
      (h : FlowRunTo (residual N x) ops outs M) : FlowRunTo N (.maxFlow s t :: ops) (val :: outs) M

end Verif.Spec
