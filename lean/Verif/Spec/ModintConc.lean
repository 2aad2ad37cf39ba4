import Verif.Model.ModintConc
/-! What it means for `set_modulus` calls to be kept apart from other calls, and the modulus in force. -/
namespace Verif.Spec
open Model

/-- No thread is inside `set_modulus`. -/
def NoSetRunning (s : MSys) : Prop := ∀ t ∈ s.threads, ∀ m, t.pc ≠ .stored m

/-- No thread is inside a call. -/
def AllIdle (s : MSys) : Prop := ∀ t ∈ s.threads, t.pc = .idle

/-- The schedule respects the constraint: `set_modulus` begins only when no call is running, and a
multiplication begins only when no `set_modulus` is running. -/
def SetsApart : MSys → List Nat → Prop
  | _, [] => True
  | s, i :: sched =>
    (∀ t, s.threads[i]? = some t → t.pc = .idle →
      (∀ m ops, t.todo = .set m :: ops → AllIdle s) ∧ (∀ a b ops, t.todo = .mul a b :: ops → NoSetRunning s)) ∧
    SetsApart (s.step i) sched

/-- The modulus in force after the calls in the log (last one first), `m₀` being the initial one. -/
def modulusInForce (m₀ : Nat) : List MEvent → Nat
  | [] => m₀
  | .set m :: _ => m
  | .mul _ _ _ :: l => modulusInForce m₀ l

/-- Every product in the log is exact for the modulus that was in force. -/
def ProductsExact (m₀ : Nat) (log : List MEvent) : Prop :=
  ∀ l₁ a b out l₂, log = l₁ ++ .mul a b out :: l₂ → modulusInForce m₀ l₂ ≤ 2 ^ 31 →
    a < modulusInForce m₀ l₂ → b < modulusInForce m₀ l₂ → out = .ok (a * b % modulusInForce m₀ l₂)

/-- Every `set_modulus` call of the run has ended before any multiplication begins: in the log no
`set_modulus` comes after a product, and no step of the schedule begins a product while a `set_modulus` is running. -/
def SetsBeforeProducts : MSys → List Nat → Prop
  | _, [] => True
  | s, i :: sched =>
    (∀ t, s.threads[i]? = some t → t.pc = .idle → ∀ a b ops, t.todo = .mul a b :: ops →
      NoSetRunning s ∧ ∀ t ∈ s.threads, ∀ m, MOp.set m ∉ t.todo) ∧
    SetsBeforeProducts (s.step i) sched

/-- What one thread alone does, call after call: the finished calls in order and the final contents of the cells.
A call that panics ends the thread. -/
def aloneRun (mem : Barrett) : List MOp → List MEvent × Barrett
  | [] => ([], mem)
  | .set m :: ops =>
    match setModulus m with
    | .ok mem' => (.set m :: (aloneRun mem' ops).1, (aloneRun mem' ops).2)
    | _ => ([], mem)
  | .mul a b :: ops => (.mul a b (miMul (.dyn mem) a b) :: (aloneRun mem ops).1, (aloneRun mem ops).2)

end Verif.Spec
