import Verif.Model.RecursiveFunction
/-! Meaning of a recursive closure, without a bound on the depth. -/
namespace Verif.Spec
open Model

/-- `Runs f b s o s'`: the body `b`, started with captured variables `s`, returns `o` and leaves `s'`; each recursive
call on `a` runs `f a` on the variables as they are at that moment and hands them back as it leaves them. -/
inductive Runs {σ A O : Type} (f : A → Body σ A O) : Body σ A O → σ → O → σ → Prop where
  | ret {o s} : Runs f (.ret o) s o s
  | get {k s o s'} : Runs f (k s) s o s' → Runs f (.get k) s o s'
  | put {k s₀ s o s'} : Runs f k s o s' → Runs f (.put s k) s₀ o s'
  | call {a k s o₁ s₁ o s'} : Runs f (f a) s o₁ s₁ → Runs f (k o₁) s₁ o s' → Runs f (.call a k) s o s'

/-- `Panics f b s`: the run of `b` on `s` panics, in the body itself or inside a recursive call. -/
inductive Panics {σ A O : Type} (f : A → Body σ A O) : Body σ A O → σ → Prop where
  | here {s} : Panics f .panic s
  | get {k s} : Panics f (k s) s → Panics f (.get k) s
  | put {k s₀ s} : Panics f k s → Panics f (.put s k) s₀
  | inside {a k s} : Panics f (f a) s → Panics f (.call a k) s
  | after {a k s o₁ s₁} : Runs f (f a) s o₁ s₁ → Panics f (k o₁) s₁ → Panics f (.call a k) s

/-- The value of a body that does not use captured variables, its recursive calls being answered by `g`. -/
def bodyValue {A O : Type} (g : A → O) : Body Unit A O → Option O
  | .ret o => some o
  | .get k => bodyValue g (k ())
  | .put _ k => bodyValue g k
  | .call a k => bodyValue g (k (g a))
  | .panic => none

/-- Every recursive call of the body is on an argument of measure below `n`, its calls being answered by `g`. -/
def CallsBelow {A O : Type} (g : A → O) (μ : A → Nat) (n : Nat) : Body Unit A O → Prop
  | .ret _ => True
  | .get k => CallsBelow g μ n (k ())
  | .put _ k => CallsBelow g μ n k
  | .call a k => μ a < n ∧ CallsBelow g μ n (k (g a))
  | .panic => True

end Verif.Spec
