import Verif.Model.Debug
/-! C55: the debugging macro `de!` in the two build profiles. -/
namespace Verif.Props
open Res Model

variable {σ : Type}

/-- Evaluating the expressions one after another, each exactly once, from state `s` leads to state `s'`
with the printed values `vs`. -/
inductive EvalsTo : List (DExpr σ) → σ → List String → σ → Prop
  | nil (s) : EvalsTo [] s [] s
  | cons {e es s s1 s2 v vs} : e.eval s = .ok (s1, v) → EvalsTo es s1 vs s2 →
      EvalsTo (e :: es) s (v :: vs) s2

/-- The text for some expressions and their values. -/
def shown : List (DExpr σ) → List String → String
  | e :: es, v :: vs => " " ++ e.src ++ " = " ++ v ++ shown es vs
  | _, _ => ""

theorem debugTuple_ok {es : List (DExpr σ)} {s s' : σ} {vs : List String} (h : EvalsTo es s vs s') :
    debugTuple es s = ⟨shown es vs, .ok s'⟩ := by
  induction h with
  | nil s => rfl
  | @cons e es s s1 s2 v vs he _ ih =>
    simp [debugTuple, debugSingle, DRun.andThen, DRun.eprint, he, ih, shown, String.append_assoc]

theorem debugTuple_append {es fs : List (DExpr σ)} {s s' : σ} {vs : List String}
    (h : EvalsTo es s vs s') :
    debugTuple (es ++ fs) s = ⟨shown es vs ++ (debugTuple fs s').text, (debugTuple fs s').res⟩ := by
  induction h with
  | nil s => simp [shown]
  | @cons e es s s1 s2 v vs he _ ih =>
    simp [debugTuple, debugSingle, DRun.andThen, DRun.eprint, he, ih, shown, String.append_assoc]

/-- C55: in a debug build `de!(e1, …, ek)` evaluates every expression once, left to right, and writes
one line: the line number and each source text with its value. -/
theorem C55_debug_line (line : Nat) (es : List (DExpr σ)) (s s' : σ) (vs : List String)
    (h : EvalsTo es s vs s') :
    deDebug line es s = ⟨"#" ++ toString line ++ shown es vs ++ "\n", .ok s'⟩ := by
  cases es with
  | nil => cases h; simp [deDebug, DRun.eprint, shown]
  | cons e es =>
    simp [deDebug, DRun.andThen, DRun.eprint, debugTuple_ok h, String.append_assoc]

/-- C55: when an expression panics (or never returns), the macro does too; the line number and the
expressions before it have been written, without a line end, and nothing after it is evaluated. -/
theorem C55_debug_stops (line : Nat) (es fs : List (DExpr σ)) (e : DExpr σ) (s s' : σ)
    (vs : List String) (h : EvalsTo es s vs s') :
    (e.eval s' = .panic →
      deDebug line (es ++ e :: fs) s = ⟨"#" ++ toString line ++ shown es vs, .panic⟩) ∧
    (e.eval s' = .diverge →
      deDebug line (es ++ e :: fs) s = ⟨"#" ++ toString line ++ shown es vs, .diverge⟩) := by
  have hd : deDebug line (es ++ e :: fs) s = DRun.andThen (DRun.eprint ("#" ++ toString line) s)
      fun st => DRun.andThen (debugTuple (es ++ e :: fs) st) fun st => DRun.eprint "\n" st := by
    cases es <;> rfl
  constructor <;> intro he <;>
    simp [hd, DRun.andThen, DRun.eprint, debugTuple_append h, debugTuple, debugSingle, he]

/-- The two cases above are all there is: evaluation from left to right returns or stops at some
expression. -/
theorem C55_cases (es : List (DExpr σ)) (s : σ) :
    (∃ vs s', EvalsTo es s vs s') ∨
    ∃ pre e post vs s', es = pre ++ e :: post ∧ EvalsTo pre s vs s' ∧
      (e.eval s' = .panic ∨ e.eval s' = .diverge) := by
  induction es generalizing s with
  | nil => exact Or.inl ⟨[], s, .nil s⟩
  | cons e es ih =>
    rcases he : e.eval s with ⟨s1, v⟩ | _ | _
    · rcases ih s1 with ⟨vs, s', h⟩ | ⟨pre, e', post, vs, s', rfl, h, h'⟩
      · exact Or.inl ⟨v :: vs, s', .cons he h⟩
      · exact Or.inr ⟨e :: pre, e', post, v :: vs, s', rfl, .cons he h, h'⟩
    · exact Or.inr ⟨[], e, es, [], s, rfl, .nil s, Or.inl he⟩
    · exact Or.inr ⟨[], e, es, [], s, rfl, .nil s, Or.inr he⟩

/-- C55: in a release build no expression is evaluated and nothing is written; a call without
expressions, fine in a debug build, is not accepted. -/
theorem C55_release (es : List (DExpr σ)) (s : σ) :
    (es ≠ [] → deRelease es s = some ⟨"", .ok s⟩) ∧ (es = [] → deRelease es s = none) := by
  constructor
  · intro h; cases es with
    | nil => exact absurd rfl h
    | cons e es => rfl
  · rintro rfl; rfl

/-- C55: the program goes on the same way in both profiles exactly when evaluating the expressions
returns and leaves the caller's state as it was. -/
theorem C55_profiles_agree_iff (line : Nat) (es : List (DExpr σ)) (hne : es ≠ []) (s : σ) :
    (∃ r, deRelease es s = some r ∧ r.res = (deDebug line es s).res) ↔
      ∃ vs, EvalsTo es s vs s := by
  rw [(C55_release es s).1 hne]
  constructor
  · rintro ⟨r, hr, h⟩
    cases hr
    rcases C55_cases es s with ⟨vs, s', h'⟩ | ⟨pre, e, post, vs, s', rfl, h', hs | hs⟩
    · rw [C55_debug_line line es s s' vs h'] at h
      cases h; exact ⟨vs, h'⟩
    · rw [(C55_debug_stops line pre post e s s' vs h').1 hs] at h; cases h
    · rw [(C55_debug_stops line pre post e s s' vs h').2 hs] at h; cases h
  · rintro ⟨vs, h⟩
    exact ⟨_, rfl, by rw [C55_debug_line line es s s vs h]⟩

/-- `de!(x, v.pop(), v[0])` on `x = 3`, `v = [7]`: `v.pop()` empties `v`, so `v[0]` panics. -/
def exDe : List (DExpr (Nat × List Nat)) :=
  [⟨"x", fun s => .ok (s, toString s.1)⟩,
   ⟨"v.pop()", fun s => .ok ((s.1, s.2.dropLast), if s.2 = [] then "None" else
      "Some(" ++ toString (s.2.getLastD 0) ++ ")")⟩,
   ⟨"v[0]", fun s => do let x ← idx s.2 0; .ok (s, toString x)⟩]

theorem exDe_evals : EvalsTo exDe (3, [7, 8]) ["3", "Some(8)", "7"] (3, [7]) :=
  .cons rfl (.cons rfl (.cons rfl (.nil _)))

example : deDebug 12 exDe (3, [7, 8]) = ⟨"#12 x = 3 v.pop() = Some(8) v[0] = 7\n", .ok (3, [7])⟩ := by
  rw [C55_debug_line 12 exDe _ _ _ exDe_evals]; decide +kernel

example : deDebug 12 exDe (3, [7]) = ⟨"#12 x = 3 v.pop() = Some(7)", .panic⟩ := by decide +kernel

example : EvalsTo (exDe.take 2) (3, [7]) ["3", "Some(7)"] (3, []) :=
  .cons rfl (.cons rfl (.nil _))

/-- The two profiles go on differently here: the release build does not pop. -/
example : (deDebug 12 exDe (3, [7, 8])).res = .ok (3, [7]) ∧
    deRelease exDe (3, [7, 8]) = some ⟨"", .ok (3, [7, 8])⟩ := by decide +kernel

end Verif.Props
