import Verif.Proof.Input
/-! Theorems about `/repo/src/misc/input.rs` (C51). -/
namespace Verif.Props
open Model Res Spec INP

/-- Every text has exactly one list of tokens. -/
theorem C51_tokens_unique (s : List Char) : ∃ ts, Tokens s ts ∧ ∀ ts', Tokens s ts' → ts' = ts := by
  obtain ⟨ts, h⟩ := tokens_exists s.length s (le_refl _)
  exact ⟨ts, h, tokens_unique h⟩

/-- A call on the reader; `int` is `read` at an integer type. -/
inductive InCall where
  | int (ty : IntTy)
  | i32
  | i64
  | usize
  | checkedInt (ty : IntTy)
  | chars
  | bytes
  | vecInt (ty : IntTy) (n : Nat)

/-- The value returned by a call. -/
inductive InVal where
  | int (v : Int)
  | opt (v : Option Int)
  | chars (t : List Char)
  | bytes (b : List UInt8)
  | ints (vs : List Int)
deriving DecidableEq

/-- The calls, run on the model. -/
def InCall.run : InCall → In → Res (InVal × In)
  | .int ty, i => do let (v, i) ← i.read (parseInt ty); ok (.int v, i)
  | .i32, i => do let (v, i) ← i.i32; ok (.int v, i)
  | .i64, i => do let (v, i) ← i.i64; ok (.int v, i)
  | .usize, i => do let (v, i) ← i.usize; ok (.int v, i)
  | .checkedInt ty, i => do let (v, i) ← i.checkedRead (parseInt ty); ok (.opt v, i)
  | .chars, i => do let (v, i) ← i.chars; ok (.chars v, i)
  | .bytes, i => do let (v, i) ← i.bytes; ok (.bytes v, i)
  | .vecInt ty n, i => do let (v, i) ← i.vec (parseInt ty) n; ok (.ints v, i)

/-- `t` is a decimal text of the value `v` of type `ty`. -/
def IntToken (ty : IntTy) (t : List Char) (v : Int) : Prop := IntText ty.signed t v ∧ ty.In v

/-- What a call returns, given the tokens not yet read, and the tokens left after it. There is no rule for the
calls that panic. -/
inductive CallGives : InCall → List (List Char) → InVal → List (List Char) → Prop where
  | int {ty t ts v} : IntToken ty t v → CallGives (.int ty) (t :: ts) (.int v) ts
  | i32 {t ts v} : IntToken ⟨true, 32⟩ t v → CallGives .i32 (t :: ts) (.int v) ts
  | i64 {t ts v} : IntToken ⟨true, 64⟩ t v → CallGives .i64 (t :: ts) (.int v) ts
  | usize {t ts v} : IntToken ⟨false, 64⟩ t v → CallGives .usize (t :: ts) (.int v) ts
  | checkedSome {ty t ts v} : IntToken ty t v → CallGives (.checkedInt ty) (t :: ts) (.opt (some v)) ts
  | checkedNone {ty} : CallGives (.checkedInt ty) [] (.opt none) []
  | chars {t ts} : CallGives .chars (t :: ts) (.chars t) ts
  | bytes {t ts} : CallGives .bytes (t :: ts) (.bytes (t.flatMap String.utf8EncodeChar)) ts
  | vecInt {ty n vs ts₁ ts₂} : ts₁.length = n → List.Forall₂ (IntToken ty) ts₁ vs →
      CallGives (.vecInt ty n) (ts₁ ++ ts₂) (.ints vs) ts₂

theorem mapM_parse {ty : IntTy} : ∀ {ts : List (List Char)} {vs : List Int},
    ts.mapM (parseInt ty) = some vs ↔ List.Forall₂ (IntToken ty) ts vs := by
  intro ts
  induction ts with
  | nil => intro vs; simp
  | cons t ts ih =>
    intro vs
    rw [List.mapM_cons]
    constructor
    · intro h
      cases hp : parseInt ty t with
      | none => rw [hp] at h; cases h
      | some v =>
        rw [hp] at h
        cases hq : ts.mapM (parseInt ty) with
        | none => rw [hq] at h; cases h
        | some ws =>
          rw [hq] at h
          injection h with h
          subst h
          exact .cons ((MIP.parseInt_iff ty t v).1 hp) (ih.1 hq)
    · intro h
      cases h with
      | cons h1 h2 =>
        rw [(MIP.parseInt_iff ty t _).2 h1, ih.2 h2]
        rfl

/-- `read` at an integer type. -/
theorem read_int {i : In} {ts : List (List Char)} (h : Left i ts) (ty : IntTy) :
    (∀ t ts' v, ts = t :: ts' → IntToken ty t v → ∃ i', i.read (parseInt ty) = ok (v, i') ∧ Left i' ts') ∧
    ((¬ ∃ t ts' v, ts = t :: ts' ∧ IntToken ty t v) → i.read (parseInt ty) = panic) := by
  constructor
  · rintro t ts' v rfl hv
    exact (read_cons h).1 _ ((MIP.parseInt_iff ty _ _).2 hv)
  · intro hn
    rcases ts with _ | ⟨t, ts⟩
    · exact read_nil h
    · cases hp : parseInt ty t with
      | none => exact (read_cons h).2 hp
      | some v => exact absurd ⟨_, _, _, rfl, (MIP.parseInt_iff ty _ _).1 hp⟩ hn

/-- **C51, one call.** On a reader with tokens `ts` left, a call that has an answer returns it and leaves the
tokens the answer leaves; a call that has none panics. -/
theorem C51_call {i : In} {ts : List (List Char)} (h : Left i ts) (c : InCall) :
    (∀ r ts', CallGives c ts r ts' → ∃ i', c.run i = ok (r, i') ∧ Left i' ts') ∧
    ((¬ ∃ r ts', CallGives c ts r ts') → c.run i = panic) := by
  cases c with
  | int ty =>
    constructor
    · intro r ts' hg
      cases hg with
      | int hv =>
        obtain ⟨i', e, h'⟩ := (read_int h ty).1 _ _ _ rfl hv
        have e : i.read (parseInt ty) = _ := e
        exact ⟨i', by simp only [InCall.run, e, ok_bind], h'⟩
    · intro hn
      have e : i.read (parseInt ty) = _ := (read_int h ty).2 (by
        rintro ⟨t, ts', v, rfl, hv⟩
        exact hn ⟨_, _, .int hv⟩)
      simp only [InCall.run, e]; rfl
  | i32 =>
    constructor
    · intro r ts' hg
      cases hg with
      | i32 hv =>
        obtain ⟨i', e, h'⟩ := (read_int h ⟨true, 32⟩).1 _ _ _ rfl hv
        have e : i.i32 = _ := e
        exact ⟨i', by simp only [InCall.run, e, ok_bind], h'⟩
    · intro hn
      have e : i.i32 = _ := (read_int h ⟨true, 32⟩).2 (by
        rintro ⟨t, ts', v, rfl, hv⟩
        exact hn ⟨_, _, .i32 hv⟩)
      simp only [InCall.run, e]; rfl
  | i64 =>
    constructor
    · intro r ts' hg
      cases hg with
      | i64 hv =>
        obtain ⟨i', e, h'⟩ := (read_int h ⟨true, 64⟩).1 _ _ _ rfl hv
        have e : i.i64 = _ := e
        exact ⟨i', by simp only [InCall.run, e, ok_bind], h'⟩
    · intro hn
      have e : i.i64 = _ := (read_int h ⟨true, 64⟩).2 (by
        rintro ⟨t, ts', v, rfl, hv⟩
        exact hn ⟨_, _, .i64 hv⟩)
      simp only [InCall.run, e]; rfl
  | usize =>
    constructor
    · intro r ts' hg
      cases hg with
      | usize hv =>
        obtain ⟨i', e, h'⟩ := (read_int h ⟨false, 64⟩).1 _ _ _ rfl hv
        have e : i.usize = _ := e
        exact ⟨i', by simp only [InCall.run, e, ok_bind], h'⟩
    · intro hn
      have e : i.usize = _ := (read_int h ⟨false, 64⟩).2 (by
        rintro ⟨t, ts', v, rfl, hv⟩
        exact hn ⟨_, _, .usize hv⟩)
      simp only [InCall.run, e]; rfl
  | checkedInt ty =>
    constructor
    · intro r ts' hg
      cases hg with
      | checkedSome hv =>
        obtain ⟨i', e, h'⟩ := next_cons h
        refine ⟨i', ?_, h'⟩
        simp only [InCall.run, In.checkedRead, e, (MIP.parseInt_iff ty _ _).2 hv, unwrap_some, ok_bind]
      | checkedNone =>
        obtain ⟨i', e, h'⟩ := next_nil h
        exact ⟨i', by simp only [InCall.run, In.checkedRead, e, ok_bind], h'⟩
    · intro hn
      rcases ts with _ | ⟨t, ts⟩
      · exact absurd ⟨_, _, .checkedNone⟩ hn
      · obtain ⟨i', e, h'⟩ := next_cons h
        cases hp : parseInt ty t with
        | none => simp only [InCall.run, In.checkedRead, e, hp, unwrap_none]; rfl
        | some v => exact absurd ⟨_, _, .checkedSome ((MIP.parseInt_iff ty _ _).1 hp)⟩ hn
  | chars =>
    constructor
    · intro r ts' hg
      cases hg
      obtain ⟨i', e, h'⟩ := next_cons h
      exact ⟨i', by simp only [InCall.run, In.chars, e, unwrap_some, ok_bind], h'⟩
    · intro hn
      rcases ts with _ | ⟨t, ts⟩
      · obtain ⟨i', e, _⟩ := next_nil h
        simp only [InCall.run, In.chars, e, unwrap_none]; rfl
      · exact absurd ⟨_, _, .chars⟩ hn
  | bytes =>
    constructor
    · intro r ts' hg
      cases hg
      obtain ⟨i', e, h'⟩ := next_cons h
      exact ⟨i', by simp only [InCall.run, In.bytes, e, unwrap_some, ok_bind], h'⟩
    · intro hn
      rcases ts with _ | ⟨t, ts⟩
      · obtain ⟨i', e, _⟩ := next_nil h
        simp only [InCall.run, In.bytes, e, unwrap_none]; rfl
      · exact absurd ⟨_, _, .bytes⟩ hn
  | vecInt ty n =>
    obtain ⟨h1, h2⟩ := vec_spec (parse := parseInt ty) n 0 i ts [] h
    have e0 : In.vec (parseInt ty) n i = forCount n 0 (([], i) : List Int × In) (fun _ s => do
        let (v, i) ← s.2.read (parseInt ty)
        ok (s.1 ++ [v], i)) := rfl
    constructor
    · intro r ts' hg
      cases hg with
      | vecInt hl hv =>
        rename_i vs ts₁
        obtain ⟨i', e, h'⟩ := h1 vs (by simp [hl]) (by rw [← hl, List.take_left]; exact mapM_parse.2 hv)
        rw [← hl, List.drop_left] at h'
        refine ⟨i', ?_, h'⟩
        simp only [InCall.run]
        rw [e0, e]
        simp
    · intro hn
      simp only [InCall.run]
      rw [e0, h2]
      · rfl
      · by_cases hl : ts.length < n
        · exact .inl hl
        · right
          cases hm : (ts.take n).mapM (parseInt ty) with
          | none => rfl
          | some vs =>
            refine absurd ⟨.ints vs, ts.drop n, ?_⟩ hn
            have := CallGives.vecInt (ty := ty) (n := n) (ts₂ := ts.drop n) (by simp; omega) (mapM_parse.1 hm)
            rwa [List.take_append_drop] at this

/-- The answers to a list of calls. -/
inductive CallsGive : List InCall → List (List Char) → List InVal → List (List Char) → Prop where
  | nil {ts} : CallsGive [] ts [] ts
  | cons {c cs ts r ts₁ rs ts₂} : CallGives c ts r ts₁ → CallsGive cs ts₁ rs ts₂ → CallsGive (c :: cs) ts (r :: rs) ts₂

/-- A list of calls, run on the model. -/
def runCalls : List InCall → In → Res (List InVal × In)
  | [], i => ok ([], i)
  | c :: cs, i => do
    let (r, i) ← c.run i
    let (rs, i) ← runCalls cs i
    ok (r :: rs, i)

/-- **C51.** For every text and every list of calls, the calls return what the tokens of the text, taken in
order, each once, say; and if some call has no answer, the run panics. -/
theorem C51_history {s : List Char} {ts : List (List Char)} (hs : Tokens s ts) (cs : List InCall) :
    (∀ rs ts', CallsGive cs ts rs ts' → ∃ i', runCalls cs (In.new s) = ok (rs, i')) ∧
    ((¬ ∃ rs ts', CallsGive cs ts rs ts') → runCalls cs (In.new s) = panic) := by
  have key : ∀ (cs : List InCall) (i : In) (ts : List (List Char)), Left i ts →
      (∀ rs ts', CallsGive cs ts rs ts' → ∃ i', runCalls cs i = ok (rs, i')) ∧
      ((¬ ∃ rs ts', CallsGive cs ts rs ts') → runCalls cs i = panic) := by
    intro cs
    induction cs with
    | nil =>
      intro i ts _
      exact ⟨fun rs ts' h => by cases h; exact ⟨i, rfl⟩, fun h => absurd ⟨_, _, .nil⟩ h⟩
    | cons c cs ih =>
      intro i ts h
      obtain ⟨h1, h2⟩ := C51_call h c
      constructor
      · intro rs ts' hg
        cases hg with
        | cons hc hcs =>
          obtain ⟨i', e, h'⟩ := h1 _ _ hc
          obtain ⟨i'', e2⟩ := (ih i' _ h').1 _ _ hcs
          exact ⟨i'', by simp only [runCalls, e, ok_bind, e2]⟩
      · intro hn
        by_cases hc : ∃ r ts', CallGives c ts r ts'
        · obtain ⟨r, ts₁, hc⟩ := hc
          obtain ⟨i', e, h'⟩ := h1 _ _ hc
          have := (ih i' _ h').2 (fun ⟨rs, ts', h⟩ => hn ⟨_, _, .cons hc h⟩)
          simp only [runCalls, e, ok_bind, this]
          rfl
        · simp only [runCalls, h2 hc]
          rfl
  exact key cs (In.new s) ts (.inr ⟨s, rfl, hs⟩)

/-- **C51, `checked_read`.** It is `None` exactly when no token is left. -/
theorem C51_checked_none {i : In} {ts : List (List Char)} (h : Left i ts) (ty : IntTy) :
    (∃ i', i.checkedRead (parseInt ty) = ok (none, i')) ↔ ts = [] := by
  rcases ts with _ | ⟨t, ts⟩
  · obtain ⟨i', e, _⟩ := next_nil h
    simp [In.checkedRead, e]
  · obtain ⟨i', e, _⟩ := next_cons h
    simp only [In.checkedRead, e, reduceCtorEq, iff_false]
    rintro ⟨i'', h⟩
    cases hp : parseInt ty t with
    | none => rw [hp] at h; cases h
    | some v => rw [hp] at h; cases h

/-- **C51, any type.** For every `FromStr` (here: any partial function on texts), `vec(n)` reads exactly the next `n`
tokens in order; it panics if there are fewer or one does not parse. -/
theorem C51_vec {α : Type} (parse : List Char → Option α) {i : In} {ts : List (List Char)} (h : Left i ts) (n : Nat) :
    (∀ vs, n ≤ ts.length → (ts.take n).mapM parse = some vs →
      ∃ i', i.vec parse n = ok (vs, i') ∧ Left i' (ts.drop n)) ∧
    (ts.length < n ∨ (ts.take n).mapM parse = none → i.vec parse n = panic) := by
  have := vec_spec (parse := parse) n 0 i ts [] h
  simp only [List.nil_append] at this
  exact this

example : Tokens " ab  -12\n".toList ["ab".toList, "-12".toList] := by
  refine Tokens.tok (w := " ".toList) (t := "ab".toList) (rest := "  -12\n".toList) ?_ ?_ ?_ ?_
    (Tokens.tok (w := "  ".toList) (t := "-12".toList) (rest := "\n".toList) ?_ ?_ ?_ ?_ (.done ?_)) <;>
    simp [WhiteSpace, whiteSpaceCodes]

example : (match runCalls [.chars, .int Model.i32, .checkedInt Model.i64] (In.new " ab  -12\n".toList) with
    | .ok r => some r.1 | _ => none) = some [.chars "ab".toList, .int (-12), .opt none] ∧
    (match runCalls [.vecInt ⟨false, 64⟩ 3] (In.new "1 +02\t3".toList) with
    | .ok r => some r.1 | _ => none) = some [.ints [1, 2, 3]] ∧
    (match runCalls [.vecInt ⟨false, 64⟩ 4] (In.new "1 +02\t3".toList) with
    | .panic => true | _ => false) = true ∧
    (match runCalls [.int ⟨false, 64⟩] (In.new "-0".toList) with
    | .panic => true | _ => false) = true := by decide +kernel

end Verif.Props
