import Verif.Spec.LazySegtree
import Verif.Spec.Tree
/-! Specification vocabulary for the heavy-light decomposition: a value at every node. -/
namespace Verif.Spec
open Verif.Model

/-- Apply `f` to the values of the nodes listed in `p`. -/
def mapNodes {S : Type} (f : S → S) (a : List S) (p : List Nat) : List S :=
  a.mapIdx fun i x => if i ∈ p then f x else x

/-- Product of the node values in the order of `q`. -/
def nodeProd {S : Type} [Monoid S] (a : List S) (q : List Nat) : S :=
  (q.map fun x => a.getD x 1).prod

/-- The calls of the public interface. -/
inductive HldOp (S F : Type) where
  | get (u : Nat)
  | set (u : Nat) (x : S)
  | applyPath (u v : Nat) (f : F)
  | pathProd (u v : Nat)
  | applySubtree (u : Nat) (f : F)
  | subtreeProd (u : Nat)

/-- What a call returns. -/
inductive HldOut (S : Type) where
  | unit
  | val (x : S)

variable {S F : Type} [Monoid S]

/-- All nodes named by a call exist. -/
def HldOp.Pre (n : Nat) : HldOp S F → Prop
  | .get u | .set u _ | .applySubtree u _ | .subtreeProd u => u < n
  | .applyPath u v _ | .pathProd u v => u < n ∧ v < n

/-- All nodes named by a call have the property `V`. -/
def HldOp.On (V : Nat → Prop) : HldOp S F → Prop
  | .get u | .set u _ | .applySubtree u _ | .subtreeProd u => V u
  | .applyPath u v _ | .pathProd u v => V u ∧ V v

/-- Node values `b` after a call on node values `a`. -/
def HldOp.Next (M : MapOps S F) (g : List (List Nat)) (root : Nat) (a b : List S) : HldOp S F → Prop
  | .set u x => b = a.set u x
  | .applyPath u v f => ∃ p, IsPath g u v p ∧ b = mapNodes (M.mapping f) a p
  | .applySubtree u f => ∃ s, (∀ x, x ∈ s ↔ Ancestor g root u x) ∧ b = mapNodes (M.mapping f) a s
  | .get _ | .pathProd _ _ | .subtreeProd _ => b = a

/-- Admissible result of a call on node values `a`; `ord` lists the nodes by position. A path
product is only determined up to the order of its factors. -/
def HldOp.OutOk (g : List (List Nat)) (root : Nat) (ord : List Nat) (a : List S) :
    HldOp S F → HldOut S → Prop
  | .set _ _, o | .applyPath _ _ _, o | .applySubtree _ _, o => o = .unit
  | .get u, o => ∃ x, a[u]? = some x ∧ o = .val x
  | .pathProd u v, o => ∃ p q, IsPath g u v p ∧ q.Perm p ∧ o = .val (nodeProd a q)
  | .subtreeProd u, o => ∃ q, q <:+: ord ∧ (∀ x, x ∈ q ↔ Ancestor g root u x) ∧
      o = .val (nodeProd a q)

/-- The results of a history are admissible, one by one. -/
def HldRunOk (M : MapOps S F) (g : List (List Nat)) (root : Nat) (ord : List Nat) :
    List S → List (HldOp S F) → List (HldOut S) → Prop
  | _, [], [] => True
  | a, op :: ops, o :: os => op.OutOk g root ord a o ∧
      ∃ b, op.Next M g root a b ∧ HldRunOk M g root ord b ops os
  | _, _, _ => False

end Verif.Spec
