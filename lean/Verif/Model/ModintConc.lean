import Verif.Model.Modint
/-!
# `DynamicModInt` under threads

The two cells of a `Barrett` (`/repo/src/misc/modint.rs:461-464`) are `SeqCst` atomics, so an execution is an
interleaving of single loads and stores. A thread runs a list of calls; one step of a thread is one load or
store together with the thread-local work up to the next one. A schedule is the list of the threads that step.
Only `set_modulus` and `mul` are modelled here: they are the operations with two accesses to the cells.
-/
namespace Verif.Model
open Res

/-- A call made by a thread. -/
inductive MOp where
  /-- `DynamicModInt::set_modulus(m)` -/
  | set (m : Nat)
  /-- `raw(a) * raw(b)` -/
  | mul (a b : Nat)
deriving DecidableEq

/-- Where a thread is. -/
inductive MPc where
  /-- between two calls -/
  | idle
  /-- in `update(m)`, between the stores to `m` and to `im` -/
  | stored (m : Nat)
  /-- in `mul(a, b)`, after loading `m` and before loading `im` -/
  | loaded (a b m : Nat)
deriving DecidableEq

structure MThread where
  pc : MPc
  todo : List MOp
deriving DecidableEq

/-- A finished call; `log` is not part of the program, it records what the threads did. -/
inductive MEvent where
  | set (m : Nat)
  | mul (a b : Nat) (out : Res Nat)
deriving DecidableEq

structure MSys where
  mem : Barrett
  threads : List MThread
  /-- finished calls, the last one first -/
  log : List MEvent

/-- One step of thread `i`. A thread which is not there or has finished does nothing; `set_modulus(0)` panics,
which ends the thread. `/repo/src/misc/modint.rs:355-360` (`set_modulus`), `482-486` (`update`), `494-498` (`mul`). -/
def MSys.step (s : MSys) (i : Nat) : MSys :=
  match s.threads[i]? with
  | none => s
  | some t =>
    match t.pc with
    | .stored m =>
      { s with mem := { s.mem with im := waddU 64 ((2 ^ 64 - 1) / m) 1 },
               threads := s.threads.set i ⟨.idle, t.todo⟩, log := .set m :: s.log }
    | .loaded a b m =>
      { s with threads := s.threads.set i ⟨.idle, t.todo⟩, log := .mul a b (mulMod a b m s.mem.im) :: s.log }
    | .idle =>
      match t.todo with
      | [] => s
      | .set m :: ops =>
        if m = 0 then { s with threads := s.threads.set i ⟨.idle, []⟩ }
        else { s with mem := { s.mem with m := m }, threads := s.threads.set i ⟨.stored m, ops⟩ }
      | .mul a b :: ops => { s with threads := s.threads.set i ⟨.loaded a b s.mem.m, ops⟩ }

/-- The run of a schedule. -/
def MSys.run (s : MSys) (sched : List Nat) : MSys := sched.foldl MSys.step s

/-- Threads at the start: nothing has begun. `Barrett::default()` is the initial memory
(`/repo/src/misc/modint.rs:453`, `475-479`). -/
def MSys.start (mem : Barrett) (progs : List (List MOp)) : MSys := ⟨mem, progs.map (⟨.idle, ·⟩), []⟩

/-- `/repo/src/misc/modint.rs:475-479`, `Barrett::default`. -/
def barrettDefault : Barrett := ⟨998244353, waddU 64 ((2 ^ 64 - 1) / 998244353) 1⟩

end Verif.Model
