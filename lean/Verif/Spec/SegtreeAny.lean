import Verif.Spec.LazyRefine
/-! Specification vocabulary for the segment tree with an operation that need not satisfy any law. -/
namespace Verif.Spec
open Res Verif.Model
variable {S : Type}

/-- The product of the elements `q * 2 ^ j` up to `(q + 1) * 2 ^ j`, formed by halves; missing elements are `e`. -/
def aligned (op : S → S → Res S) (e : S) (a : List S) : Nat → Nat → Res S
  | 0, q => ok (a.getD q e)
  | j + 1, q => do
    let x ← aligned op e a j (2 * q)
    let y ← aligned op e a j (2 * q + 1)
    op x y

/-- `L` is the least number with `n ≤ 2 ^ L`. -/
def CeilLog (n L : Nat) : Prop := ∀ k, n ≤ 2 ^ k ↔ L ≤ k

/-- First block of size `2 ^ j` that begins at or after `l`. -/
def firstBlk (l j : Nat) : Nat := (l + 2 ^ j - 1) / 2 ^ j

/-- First block of size `2 ^ j` that does not end at or before `r`. -/
def endBlk (r j : Nat) : Nat := r / 2 ^ j

/-- Of the sizes `1, 2, …, 2 ^ (k - 1)`: the blocks between `l` and `r` that are combined from the left, starting from
`e`. One of each size, if it is the right half of a pair (or everything). -/
def leftPart (op : S → S → Res S) (e : S) (a : List S) (L l r : Nat) : Nat → Res S
  | 0 => ok e
  | j + 1 => do
    let x ← leftPart op e a L l r j
    if firstBlk l j < endBlk r j ∧ (firstBlk l j % 2 = 1 ∨ j = L) then do
      let y ← aligned op e a j (firstBlk l j)
      op x y
    else ok x

/-- The blocks that are combined from the right. One of each size, if it is the left half of a pair. -/
def rightPart (op : S → S → Res S) (e : S) (a : List S) (L l r : Nat) : Nat → Res S
  | 0 => ok e
  | j + 1 => do
    let x ← rightPart op e a L l r j
    if firstBlk l j < endBlk r j ∧ endBlk r j % 2 = 1 ∧ j ≠ L then do
      let y ← aligned op e a j (endBlk r j - 1)
      op y x
    else ok x

/-- What a query for the range `l..r` of `a` computes. -/
def treeProd (op : S → S → Res S) (e : S) (a : List S) (L l r : Nat) : Res S := do
  let x ← leftPart op e a L l r (L + 1)
  let y ← rightPart op e a L l r (L + 1)
  op x y

/-- A list after some writes. -/
def written (a : List S) (ops : List (Nat × S)) : List S := ops.foldl (fun a o => a.set o.1 o.2) a

/-- Checked arithmetic in a monoid: the operation returns the product if it fits and panics otherwise. -/
structure CheckedOps [Monoid S] (M : MonoidOps S) (Fits : S → Prop) : Prop where
  e_eq : M.e = 1
  one_fits : Fits 1
  op_ok : ∀ a b, Fits (a * b) → M.op a b = .ok (a * b)
  op_panic : ∀ a b, ¬ Fits (a * b) → M.op a b = .panic

/-- The calls of the public interface of the segment tree. -/
inductive SOp (S : Type) where
  | set (p : Nat) (x : S)
  | get (p : Nat)
  | prod (l r : Nat)
  | allProd
  | maxRight (l : Nat) (g : S → Bool)
  | minLeft (r : Nat) (g : S → Bool)

/-- Documented preconditions on an array of length `n`. -/
def SOp.Pre [Monoid S] (n : Nat) : SOp S → Prop
  | .set p _ | .get p => p < n
  | .prod l r => l ≤ r ∧ r ≤ n
  | .allProd => True
  | .maxRight l g => l ≤ n ∧ g 1 = true
  | .minLeft r g => r ≤ n ∧ g 1 = true

/-- Effect of a call on a plain list. -/
def SOp.next (a : List S) : SOp S → List S
  | .set p x => a.set p x
  | .get _ | .prod _ _ | .allProd | .maxRight _ _ | .minLeft _ _ => a

/-- Admissible result of a call on a plain list. -/
def SOp.OutOk [Monoid S] (a : List S) : SOp S → LOut S → Prop
  | .set _ _, o => o = .unit
  | .get p, o => ∃ x, a[p]? = some x ∧ o = .val x
  | .prod l r, o => o = .val (rangeProd a l r)
  | .allProd, o => o = .val a.prod
  | .maxRight l g, o => ∃ r, o = .num r ∧ l ≤ r ∧ r ≤ a.length ∧ g (rangeProd a l r) = true ∧
      (r = a.length ∨ g (rangeProd a l (r + 1)) = false)
  | .minLeft r g, o => ∃ l, o = .num l ∧ l ≤ r ∧ g (rangeProd a l r) = true ∧
      (l = 0 ∨ g (rangeProd a (l - 1) r) = false)

/-- The results of a history are admissible, one by one. -/
def SRunOk [Monoid S] : List S → List (SOp S) → List (LOut S) → Prop
  | _, [], [] => True
  | a, op :: ops, o :: os => op.OutOk a o ∧ SRunOk (op.next a) ops os
  | _, _, _ => False

/-- `R` computes in the monoid `A`, or panics. -/
structure RepresentsOp {A : Type} [Monoid A] (RS : S → A → Prop) (R : MonoidOps S) : Prop where
  e : RS R.e 1
  op : ∀ x y a b, RS x a → RS y b → Gives RS (R.op x y) (a * b)

/-- The same call on represented arguments. -/
def SOp.Like {A : Type} (RS : S → A → Prop) : SOp S → SOp A → Prop
  | .set p x, .set p' a => p = p' ∧ RS x a
  | .get p, .get p' => p = p'
  | .prod l r, .prod l' r' => l = l' ∧ r = r'
  | .allProd, .allProd => True
  | .maxRight l g, .maxRight l' γ => l = l' ∧ ∀ x a, RS x a → g x = γ a
  | .minLeft r g, .minLeft r' γ => r = r' ∧ ∀ x a, RS x a → g x = γ a
  | _, _ => False

end Verif.Spec
