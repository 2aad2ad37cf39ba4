import Verif.Prelude.Res
/-!
# Model of `/repo/src/misc/recursive_function.rs`

The closure given to `RecursiveFunction::new` is a `FnMut`: it has captured variables, which it may read and
write, and it may call `call` of the object passed to it. A run of its body on an argument is therefore a tree
of such actions. The captured variables are one value of type `σ`. The macro generates ten variants which
differ only in the number of arguments; here the arguments are one value of type `A`.
Not modelled: the aliasing rules of Rust (`call` makes a second `&mut` to the closure while the first is live,
`/repo/src/misc/recursive_function.rs:37-39`).
-/
namespace Verif.Model
open Res

/-- The body of a closure on some argument: what it does next. -/
inductive Body (σ A O : Type) where
  /-- return `o` -/
  | ret (o : O)
  /-- read the captured variables -/
  | get (k : σ → Body σ A O)
  /-- write the captured variables -/
  | put (s : σ) (k : Body σ A O)
  /-- `c.call(a)`, going on with the result -/
  | call (a : A) (k : O → Body σ A O)
  /-- panic -/
  | panic

variable {σ A O : Type}

/-- Run a body; `rec` answers its recursive calls. -/
def Body.run (rec : A → σ → Res (O × σ)) : Body σ A O → σ → Res (O × σ)
  | .ret o, s => ok (o, s)
  | .get k, s => (k s).run rec s
  | .put s' k, _ => k.run rec s'
  | .call a k, s => rec a s >>= fun r => (k r.1).run rec r.2
  | .panic, _ => .panic

/-- `/repo/src/misc/recursive_function.rs:8-19`, `RecursiveFunction`: the closure and its captured variables
(the `UnsafeCell`). -/
structure RecFun (σ A O : Type) where
  f : A → Body σ A O
  state : σ

/-- `/repo/src/misc/recursive_function.rs:25-32`, `new`. -/
def RecFun.new (f : A → Body σ A O) (s : σ) : RecFun σ A O := ⟨f, s⟩

/-- `call` on the captured variables, with a bound on the recursion depth. -/
def RecFun.callState (f : A → Body σ A O) : Nat → A → σ → Res (O × σ)
  | 0, _, _ => diverge
  | depth + 1, a, s => (f a).run (RecFun.callState f depth) s

/-- `/repo/src/misc/recursive_function.rs:37-39`, `call`: run the closure on the argument, passing it `self`. With
a bound on the recursion depth, beyond which the result is `diverge`. -/
def RecFun.call (r : RecFun σ A O) (depth : Nat) (a : A) : Res (O × RecFun σ A O) := do
  let (o, s) ← RecFun.callState r.f depth a r.state
  ok (o, ⟨r.f, s⟩)

end Verif.Model
