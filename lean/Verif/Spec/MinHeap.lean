import Mathlib.Data.Multiset.AddSub
import Mathlib.Order.Defs.PartialOrder
/-! Specification vocabulary for `MinHeap`: named multisets, and what each call may answer. -/
namespace Verif.Spec

/-- One call on a pool of heap variables (a variable is a number; all start empty). -/
inductive HOp (T : Type) where
  | new (i : Nat)
  | withCapacity (i c : Nat)
  | push (i : Nat) (x : T)
  | pop (i : Nat)
  | peek (i : Nat)
  | len (i : Nat)
  | isEmpty (i : Nat)
  | append (i j : Nat)
  | clear (i : Nat)
  | intoSortedVec (i : Nat)

/-- What a call returned. -/
inductive HOut (T : Type) where
  | unit
  | item (x : Option T)
  | num (n : Nat)
  | bool (b : Bool)
  | vec (v : List T)

/-- `x` is a least element of the multiset `s`, or `none` and `s` is empty. -/
def IsMinOf {T : Type} [LE T] (s : Multiset T) : Option T → Prop
  | none => s = 0
  | some x => x ∈ s ∧ ∀ y ∈ s, x ≤ y

/-- Multiset semantics of one call: contents before, call, answer, contents after. -/
def HStep {T : Type} [LE T] (s : Nat → Multiset T) :
    HOp T → HOut T → (Nat → Multiset T) → Prop
  | .new i, o, s' => o = .unit ∧ s' = Function.update s i 0
  | .withCapacity i _, o, s' => o = .unit ∧ s' = Function.update s i 0
  | .push i x, o, s' => o = .unit ∧ s' = Function.update s i (x ::ₘ s i)
  | .pop i, o, s' => ∃ x m, o = .item x ∧ IsMinOf (s i) x ∧ s' = Function.update s i m ∧
      (match x with | some y => s i = y ::ₘ m | none => m = 0)
  | .peek i, o, s' => ∃ x, o = .item x ∧ IsMinOf (s i) x ∧ s' = s
  | .len i, o, s' => o = .num (s i).card ∧ s' = s
  | .isEmpty i, o, s' => ∃ b, o = .bool b ∧ (b = true ↔ s i = 0) ∧ s' = s
  | .append i j, o, s' => o = .unit ∧ s' = Function.update (Function.update s i (s i + s j)) j 0
  | .clear i, o, s' => o = .unit ∧ s' = Function.update s i 0
  | .intoSortedVec i, o, s' => ∃ v : List T, o = .vec v ∧ (v : Multiset T) = s i ∧
      v.Pairwise (· ≥ ·) ∧ s' = Function.update s i 0

/-- Multiset semantics of a whole history. -/
inductive HRun {T : Type} [LE T] :
    (Nat → Multiset T) → List (HOp T) → List (HOut T) → (Nat → Multiset T) → Prop where
  | nil (s) : HRun s [] [] s
  | cons {s op o s1 ops os s2} : HStep s op o s1 → HRun s1 ops os s2 →
      HRun s (op :: ops) (o :: os) s2

/-- `append` takes two distinct `&mut` references. -/
def HOp.Wf {T : Type} : HOp T → Prop
  | .append i j => i ≠ j
  | _ => True

end Verif.Spec
