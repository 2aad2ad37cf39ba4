import Verif.Prelude.Res
/-! Model of `/repo/src/misc/debug.rs`.

A macro call is modelled by what its expansion does. The expressions given to it are arbitrary Rust
expressions of the caller: an `DExpr σ` has its source text (`stringify!`) and its evaluation, which may
change the caller's state `σ`, panic, or not terminate, and yields a value. Only the `{:?}` text of the
value is kept, because the expansion drops the values.

Text written to stderr stays written when a later expression panics, so a run is a pair: the text
written, and the outcome. Simplifications: an expression writes nothing to stderr itself; `{:?}` of a
value does not panic; stderr is not closed; a non-`Copy` variable given to the macro is moved into it
(a compile-time matter). -/
namespace Verif.Model
open Res

/-- An expression of the caller: `stringify!($val)` and its evaluation. -/
structure DExpr (σ : Type) where
  src : String
  eval : σ → Res (σ × String)

/-- A run: the text written to stderr, and the outcome. -/
structure DRun (α : Type) where
  text : String
  res : Res α
  deriving DecidableEq, Repr

namespace DRun

/-- Sequencing `a; b`: nothing of `b` happens unless `a` returned. -/
def andThen {α β : Type} (a : DRun α) (f : α → DRun β) : DRun β :=
  match a.res with
  | .ok x => ⟨a.text ++ (f x).text, (f x).res⟩
  | .panic => ⟨a.text, .panic⟩
  | .diverge => ⟨a.text, .diverge⟩

/-- `eprint!`. -/
def eprint {σ : Type} (s : String) (st : σ) : DRun σ := ⟨s, .ok st⟩

end DRun

/-- `/repo/src/misc/debug.rs:2-11`, `debug_single!($val)`: evaluates, prints ` src = value`. -/
def debugSingle {σ : Type} (e : DExpr σ) (st : σ) : DRun σ :=
  DRun.andThen ⟨"", e.eval st⟩ fun (st, v) => DRun.eprint (" " ++ e.src ++ " = " ++ v) st

/-- `/repo/src/misc/debug.rs:21`, the tuple `(debug_single!(v1), …, debug_single!(vk),)`: operands left
to right. -/
def debugTuple {σ : Type} : List (DExpr σ) → σ → DRun σ
  | [], st => ⟨"", .ok st⟩
  | e :: es, st => DRun.andThen (debugSingle e st) (debugTuple es)

/-- `/repo/src/misc/debug.rs:15-24`, `de!(es)` on line `line` with `debug_assertions`. -/
def deDebug {σ : Type} (line : Nat) (es : List (DExpr σ)) (st : σ) : DRun σ :=
  match es with
  | [] => DRun.eprint ("#" ++ toString line ++ "\n") st
  | es => DRun.andThen (DRun.eprint ("#" ++ toString line) st) fun st =>
      DRun.andThen (debugTuple es st) fun st => DRun.eprint "\n" st

/-- `/repo/src/misc/debug.rs:28-30`, `de!(es)` without `debug_assertions`: the only rule wants at least
one expression and expands to nothing; `none` is a call no rule matches (a compile error). -/
def deRelease {σ : Type} (es : List (DExpr σ)) (st : σ) : Option (DRun σ) :=
  match es with
  | [] => none
  | _ => some ⟨"", .ok st⟩

end Verif.Model
