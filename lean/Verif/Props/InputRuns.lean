import Verif.Props.Input
/-! C115: relations between readers: only the tokens matter, texts can be put after one another, calls can be split and
merged, and numbers written out are read back. -/
namespace Verif.Props
open Model Res Spec INP

/-- The results of a list of calls on a fresh reader of the text `s`. -/
def answers (cs : List InCall) (s : List Char) : Res (List InVal) := do
  let (rs, _) ← runCalls cs (In.new s)
  ok rs

theorem answers_ok {s : List Char} {ts : List (List Char)} (hs : Tokens s ts) {cs : List InCall} {rs : List InVal}
    {ts' : List (List Char)} (h : CallsGive cs ts rs ts') : answers cs s = ok rs := by
  obtain ⟨i, e⟩ := (C51_history hs cs).1 rs ts' h
  simp only [answers, e, ok_bind]

theorem answers_panic {s : List Char} {ts : List (List Char)} (hs : Tokens s ts) {cs : List InCall}
    (h : ¬ ∃ rs ts', CallsGive cs ts rs ts') : answers cs s = Res.panic := by
  simp only [answers, (C51_history hs cs).2 h]
  rfl

/-- C115: two texts with the same tokens, however they are separated, give the same results for all calls, panics
included. -/
theorem C115_same_tokens {s s' : List Char} {ts : List (List Char)} (h : Tokens s ts) (h' : Tokens s' ts)
    (cs : List InCall) : answers cs s = answers cs s' := by
  by_cases hc : ∃ rs ts', CallsGive cs ts rs ts'
  · obtain ⟨rs, ts', hc⟩ := hc
    rw [answers_ok h hc, answers_ok h' hc]
  · rw [answers_panic h hc, answers_panic h' hc]

theorem tokens_append {s s' : List Char} {ts ts' : List (List Char)} (h : Tokens s ts) (h' : Tokens s' ts')
    (hw : ∀ c, s'.head? = some c → WhiteSpace c) : Tokens (s ++ s') (ts ++ ts') := by
  induction h with
  | done hs =>
    rw [List.nil_append]
    rename_i s
    induction s with
    | nil => exact h'
    | cons c s ih =>
      rw [List.cons_append, tokens_ws (hs c (by simp))]
      exact ih (fun c hc => hs c (by simp [hc]))
  | @tok w t rest ts h1 h2 h3 h4 h5 ih =>
    rw [List.cons_append, List.append_assoc]
    refine .tok h1 h2 h3 ?_ ih
    intro c hc
    cases rest with
    | nil => exact hw c (by simpa using hc)
    | cons d rest => exact h4 c (by simpa using hc)

theorem callGives_more {c : InCall} {ts ts' : List (List Char)} {r : InVal} (h : CallGives c ts r ts')
    (more : List (List Char)) (hn : ∀ ty, c ≠ .checkedInt ty) : CallGives c (ts ++ more) r (ts' ++ more) := by
  cases h with
  | checkedSome => exact absurd rfl (hn _)
  | checkedNone => exact absurd rfl (hn _)
  | vecInt h1 h2 => rw [List.append_assoc]; exact .vecInt h1 h2
  | int h => exact .int h
  | i32 h => exact .i32 h
  | i64 h => exact .i64 h
  | usize h => exact .usize h
  | chars => exact .chars
  | bytes => exact .bytes

theorem callsGive_more {cs : List InCall} {ts ts' : List (List Char)} {rs : List InVal} (h : CallsGive cs ts rs ts')
    (more : List (List Char)) (hn : ∀ ty, .checkedInt ty ∉ cs) : CallsGive cs (ts ++ more) rs (ts' ++ more) := by
  induction h with
  | nil => exact .nil
  | cons h1 _ ih =>
    exact .cons (callGives_more h1 more (fun ty e => hn ty (by simp [e]))) (ih fun ty hm => hn ty (by simp [hm]))

theorem callsGive_append {cs cs' : List InCall} {ts ts' ts'' : List (List Char)} {rs rs' : List InVal}
    (h : CallsGive cs ts rs ts') (h' : CallsGive cs' ts' rs' ts'') : CallsGive (cs ++ cs') ts (rs ++ rs') ts'' := by
  induction h with
  | nil => exact h'
  | cons h1 _ ih => exact .cons h1 (ih h')

/-- The number of tokens a call takes. -/
def InCall.takes : InCall → Nat
  | .vecInt _ n => n
  | _ => 1

theorem callGives_left {c : InCall} {ts ts' : List (List Char)} {r : InVal} (h : CallGives c ts r ts') :
    ts' = ts.drop c.takes := by
  cases h with
  | vecInt h1 h2 => subst h1; simp [InCall.takes]
  | _ => simp [InCall.takes]

/-- C115: if some calls read a text to its end, then the same calls on a longer text, followed by others, give the same
results followed by those of the others on the rest; the rest has to start with white space, and `checked_read` may not
be among the first calls. -/
theorem C115_append {s s' : List Char} {ts : List (List Char)} (hs : Tokens s ts) {cs cs' : List InCall} {rs : List InVal}
    (h : CallsGive cs ts rs []) (hn : ∀ ty, .checkedInt ty ∉ cs) (hw : ∀ c, s'.head? = some c → WhiteSpace c) :
    answers cs s = ok rs ∧ answers (cs ++ cs') (s ++ s') = (do let rs' ← answers cs' s'; ok (rs ++ rs')) := by
  refine ⟨answers_ok hs h, ?_⟩
  obtain ⟨ts', hs', _⟩ := C51_tokens_unique s'
  have hs2 := tokens_append hs hs' hw
  have h2 := callsGive_more h ts' hn
  rw [List.nil_append] at h2
  by_cases hc : ∃ rs' ts'', CallsGive cs' ts' rs' ts''
  · obtain ⟨rs', ts'', hc⟩ := hc
    rw [answers_ok hs2 (callsGive_append h2 hc), answers_ok hs' hc, ok_bind]
  · rw [answers_panic hs' hc, answers_panic hs2]
    · rfl
    · rintro ⟨r, t, k⟩
      have : ∀ {cs : List InCall} {ts ts1 t : List (List Char)} {rs r : List InVal}, CallsGive cs ts rs ts1 →
          CallsGive (cs ++ cs') ts r t → ∃ r', CallsGive cs' ts1 r' t := by
        intro cs ts ts1 t rs r h k
        induction h generalizing r with
        | nil => exact ⟨r, k⟩
        | @cons c cs ts r0 ts2 rs ts1 g1 _ ih =>
          rw [List.cons_append] at k
          cases k with
          | @cons _ _ _ _ ts3 _ _ k1 k2 =>
            have : ts3 = ts2 := by
              rw [callGives_left g1, callGives_left k1]
            subst this
            exact ih k2
      obtain ⟨r', k'⟩ := this h2 k
      exact hc ⟨r', t, k'⟩

/-- C115: reading `m + n` numbers at once is reading `m` and then `n`. -/
theorem C115_vec_split (ty : IntTy) (m n : Nat) (s : List Char) (cs : List InCall) :
    answers (.vecInt ty (m + n) :: cs) s = (do
      let rs ← answers (.vecInt ty m :: .vecInt ty n :: cs) s
      match rs with
      | .ints a :: .ints b :: rest => ok (.ints (a ++ b) :: rest)
      | _ => Res.panic) := by
  obtain ⟨ts, hs, _⟩ := C51_tokens_unique s
  by_cases hc : ∃ rs ts', CallsGive (.vecInt ty (m + n) :: cs) ts rs ts'
  · obtain ⟨rs, ts', hc⟩ := hc
    rw [answers_ok hs hc]
    cases hc with
    | @cons _ _ _ _ ts₂ _ _ h1 h2 =>
      cases h1 with
      | @vecInt _ _ vs ts₁ _ h3 h4 =>
        have k1 : CallGives (.vecInt ty m) (ts₁ ++ ts₂) (.ints (vs.take m)) (ts₁.drop m ++ ts₂) := by
          have : ts₁ ++ ts₂ = ts₁.take m ++ (ts₁.drop m ++ ts₂) := by
            rw [← List.append_assoc, List.take_append_drop]
          rw [this]
          exact .vecInt (by rw [List.length_take]; omega) (List.forall₂_take m h4)
        have k2 : CallGives (.vecInt ty n) (ts₁.drop m ++ ts₂) (.ints (vs.drop m)) ts₂ :=
          .vecInt (by rw [List.length_drop]; omega) (List.forall₂_drop m h4)
        rw [answers_ok hs (.cons k1 (.cons k2 h2)), ok_bind]
        simp only [List.take_append_drop]
  · rw [answers_panic hs hc, answers_panic hs]
    · rfl
    · rintro ⟨rs, ts', k⟩
      cases k with
      | cons k1 k2 =>
        cases k2 with
        | cons k2 k3 =>
          cases k1 with
          | @vecInt _ _ vs ts₁ ts₂ h1 h2 =>
            cases k2 with
            | @vecInt _ _ vs' ts₁' ts₂' h3 h4 =>
              refine hc ⟨_, _, .cons (r := .ints (vs ++ vs')) ?_ k3⟩
              rw [← List.append_assoc]
              exact .vecInt (by rw [List.length_append]; omega) (List.rel_append h2 h4)

/-- The decimal numeral of an integer. -/
def showInt : Int → List Char
  | .ofNat n => Nat.toDigits 10 n
  | .negSucc n => '-' :: Nat.toDigits 10 (n + 1)

/-- The numbers of a row, each after a space, and a line break. -/
def showRow (row : List Int) : List Char := (row.flatMap fun v => ' ' :: showInt v) ++ ['\n']

theorem showInt_text {ty : IntTy} {v : Int} (h : ty.In v) (hs : ty.signed = false → ¬ ∃ n, v = .negSucc n) :
    IntToken ty (showInt v) v := by
  refine ⟨?_, h⟩
  cases v with
  | ofNat n => exact .inl ⟨n, MIP.toDigits_text n, rfl⟩
  | negSucc n =>
    refine .inr (.inr ⟨?_, _, n + 1, rfl, MIP.toDigits_text _, rfl⟩)
    cases e : ty.signed with
    | true => rfl
    | false => exact absurd ⟨n, rfl⟩ (hs e)

theorem digit_not_ws {c : Char} (h : '0'.toNat ≤ c.toNat ∧ c.toNat ≤ '9'.toNat) : ¬ WhiteSpace c := by
  have h1 : '0'.toNat = 48 := rfl
  have h2 : '9'.toNat = 57 := rfl
  rw [h1, h2] at h
  simp only [WhiteSpace, whiteSpaceCodes, List.mem_cons, List.not_mem_nil, or_false]
  omega

theorem showInt_word (v : Int) : showInt v ≠ [] ∧ ∀ c ∈ showInt v, ¬ WhiteSpace c := by
  cases v with
  | ofNat n =>
    have h := MIP.toDigits_text n
    exact ⟨h.1, fun c hc => digit_not_ws (h.2.1 c hc)⟩
  | negSucc n =>
    have h := MIP.toDigits_text (n + 1)
    refine ⟨by simp [showInt], ?_⟩
    intro c hc
    rcases List.mem_cons.1 hc with rfl | hc
    · show ¬ ('-'.toNat ∈ whiteSpaceCodes); decide
    · exact digit_not_ws (h.2.1 c hc)

theorem space_ws : WhiteSpace ' ' := by show ' '.toNat ∈ whiteSpaceCodes; decide
theorem newline_ws : WhiteSpace '\n' := by show '\n'.toNat ∈ whiteSpaceCodes; decide

theorem tokens_row {rest : List Char} {ts : List (List Char)} (h : Tokens rest ts) (row : List Int) :
    Tokens (showRow row ++ rest) (row.map showInt ++ ts) := by
  induction row with
  | nil =>
    show Tokens ('\n' :: rest) ts
    exact (tokens_ws newline_ws).2 h
  | cons v row ih =>
    have e : showRow (v :: row) ++ rest = ' ' :: (showInt v ++ (showRow row ++ rest)) := by simp [showRow]
    rw [e, tokens_ws space_ws, tokens_run (showInt_word v).1 (showInt_word v).2]
    · exact ⟨_, rfl, ih⟩
    · intro c hc
      cases row with
      | nil => obtain rfl : '\n' = c := by simpa [showRow] using hc
               exact newline_ws
      | cons w row => obtain rfl : ' ' = c := by simpa [showRow] using hc
                      exact space_ws

/-- C115: integers written out in rows are read back by one `vec` per row, for every integer type they fit in. -/
theorem C115_round_trip (ty : IntTy) (rows : List (List Int)) (h : ∀ row ∈ rows, ∀ v ∈ row, ty.In v) :
    answers (rows.map fun row => .vecInt ty row.length) (rows.flatMap showRow) = ok (rows.map .ints) := by
  have hs : ∀ rows : List (List Int), Tokens (rows.flatMap showRow) (rows.flatten.map showInt) := by
    intro rows
    induction rows with
    | nil => exact .done (by simp)
    | cons row rows ih =>
      rw [List.flatMap_cons, List.flatten_cons, List.map_append]
      exact tokens_row ih row
  refine answers_ok (hs rows) (ts' := []) ?_
  clear hs
  induction rows with
  | nil => exact .nil
  | cons row rows ih =>
    rw [List.map_cons, List.map_cons, List.flatten_cons, List.map_append]
    refine .cons (.vecInt (by simp) ?_) (ih fun row hr => h row (by simp [hr]))
    have : ∀ l : List Int, (∀ v ∈ l, ty.In v) → List.Forall₂ (IntToken ty) (l.map showInt) l := by
      intro l hl
      induction l with
      | nil => exact .nil
      | cons v l ih =>
        refine .cons (showInt_text (hl v (by simp)) ?_) (ih fun v hv => hl v (by simp [hv]))
        rintro e ⟨n, rfl⟩
        have := hl _ (by simp : Int.negSucc n ∈ Int.negSucc n :: l)
        have h0 : ty.mn = 0 := by simp [IntTy.mn, e]
        have h1 := this.1
        rw [h0] at h1
        exact absurd h1 (by simp)
    exact this row (h row (by simp))

example : (match answers [.chars, .int Model.i32] "ab \n -12".toList, answers [.chars, .int Model.i32] "\tab -12 ".toList with
    | .ok a, .ok b => decide (a = b ∧ a = [.chars "ab".toList, .int (-12)]) | _, _ => false) = true ∧
    (match answers [.vecInt Model.i32 2, .chars] "1 2\n x".toList with
    | .ok a => decide (a = [.ints [1, 2], .chars "x".toList]) | _ => false) = true ∧
    (match answers [.vecInt Model.i32 3] "4 -5 6".toList, answers [.vecInt Model.i32 1, .vecInt Model.i32 2] "4 -5 6".toList with
    | .ok a, .ok b => decide (a = [.ints [4, -5, 6]] ∧ b = [.ints [4], .ints [-5, 6]]) | _, _ => false) = true ∧
    [[1, -20], [], [300]].flatMap showRow = " 1 -20\n\n 300\n".toList := by decide +kernel

end Verif.Props
