import Mathlib.Data.List.Basic
/-! Specification vocabulary for bipartite matching. -/
namespace Verif.Spec

/-- `M` is a set of pairwise disjoint edges of `E` (edges are pairs left, right). -/
structure IsMatching (E M : List (Nat × Nat)) : Prop where
  sub : ∀ e ∈ M, e ∈ E
  left : (M.map Prod.fst).Nodup
  right : (M.map Prod.snd).Nodup

/-- `k` is the largest size of a matching of `E`. -/
def IsMaxMatching (E : List (Nat × Nat)) (k : Nat) : Prop :=
  (∃ M, IsMatching E M ∧ M.length = k) ∧ ∀ M, IsMatching E M → M.length ≤ k

/-- The calls of the public interface. -/
inductive MatchOp where
  | addEdge (u v : Nat)
  | solve

/-- Vertices named by a call exist (`n` on the left, `m` on the right). -/
def MatchOp.Pre (n m : Nat) : MatchOp → Prop
  | .addEdge u v => u < n ∧ v < m
  | .solve => True

/-- Results of a history: every `solve` returns the maximum for the edges added so far. -/
def MatchRunOk : List (Nat × Nat) → List MatchOp → List Nat → Prop
  | _, [], [] => True
  | E, .addEdge u v :: ops, outs => MatchRunOk (E ++ [(u, v)]) ops outs
  | E, .solve :: ops, k :: outs => IsMaxMatching E k ∧ MatchRunOk E ops outs
  | _, _, _ => False

/-- The left vertex named by a call exists (the right one may not). -/
def MatchOp.LeftPre (n : Nat) : MatchOp → Prop
  | .addEdge u _ => u < n
  | .solve => True

/-- Results of a history in which right vertices may be out of range: every `solve` that returns gives
the maximum for all the edges added so far, and the same for the edges inside the graph. -/
def MatchRunOk' (m : Nat) : List (Nat × Nat) → List MatchOp → List Nat → Prop
  | _, [], [] => True
  | E, .addEdge u v :: ops, outs => MatchRunOk' m (E ++ [(u, v)]) ops outs
  | E, .solve :: ops, k :: outs =>
      (IsMaxMatching E k ∧ IsMaxMatching (E.filter fun e => e.2 < m) k) ∧ MatchRunOk' m E ops outs
  | _, _, _ => False

end Verif.Spec
