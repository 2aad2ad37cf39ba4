import Mathlib.Data.Multiset.AddSub
/-! Specification of optimal binary codes: binary trees with weighted leaves. -/
namespace Verif.Spec

/-- A binary tree with weights at the leaves. -/
inductive BinTree where
  | leaf (w : Nat)
  | node (l r : BinTree)

namespace BinTree

/-- The weights of the leaves. -/
def leaves : BinTree → Multiset Nat
  | leaf w => {w}
  | node l r => l.leaves + r.leaves

/-- The sum of weight times depth over the leaves of a tree whose root has depth `d`. -/
def pathCost (d : Nat) : BinTree → Nat
  | leaf w => w * d
  | node l r => l.pathCost (d + 1) + r.pathCost (d + 1)

end BinTree
end Verif.Spec
