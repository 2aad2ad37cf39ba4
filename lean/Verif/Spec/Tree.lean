import Mathlib.Data.List.Chain
/-! Specification vocabulary for trees given by adjacency lists. -/
namespace Verif.Spec

/-- `p` is a simple path from `u` to `v` in the adjacency list `g`: it starts at `u`, ends at `v`,
consecutive vertices are adjacent and no vertex repeats. -/
structure IsPath (g : List (List Nat)) (u v : Nat) (p : List Nat) : Prop where
  head : p.head? = some u
  last : p.getLast? = some v
  chain : p.IsChain (fun a b => b ∈ g.getD a [])
  nodup : p.Nodup

/-- `g` is the adjacency list of a tree: an undirected simple graph with exactly one simple path
between any two vertices. -/
structure IsTree (g : List (List Nat)) : Prop where
  inRange : ∀ u v, v ∈ g.getD u [] → v < g.length
  symm : ∀ u v, v ∈ g.getD u [] → u ∈ g.getD v []
  irrefl : ∀ u, u ∉ g.getD u []
  nodup : ∀ u, (g.getD u []).Nodup
  path : ∀ u v, u < g.length → v < g.length → ∃! p, IsPath g u v p

/-- `u` lies on the path from the root to `v`. -/
def Ancestor (g : List (List Nat)) (root u v : Nat) : Prop := ∃ p, IsPath g root v p ∧ u ∈ p

/-- `l` is a common ancestor of `u` and `v` below every other one. -/
def IsLca (g : List (List Nat)) (root u v l : Nat) : Prop :=
  Ancestor g root l u ∧ Ancestor g root l v ∧
    ∀ x, Ancestor g root x u → Ancestor g root x v → Ancestor g root x l

/-- `w` is a walk from `u` to `v` (vertices may repeat). -/
structure IsWalk (g : List (List Nat)) (u v : Nat) (w : List Nat) : Prop where
  head : w.head? = some u
  last : w.getLast? = some v
  chain : w.IsChain (fun a b => b ∈ g.getD a [])

/-- `d` is the least number of edges of a walk from `u` to `v`. -/
def IsTreeDist (g : List (List Nat)) (u v d : Nat) : Prop :=
  (∃ w, IsWalk g u v w ∧ w.length = d + 1) ∧ ∀ w, IsWalk g u v w → d + 1 ≤ w.length

end Verif.Spec
