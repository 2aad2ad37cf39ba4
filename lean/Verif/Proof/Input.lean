import Verif.Model.Input
import Verif.Spec.Input
import Verif.Proof.ModintText
/-! Proofs about the input reader. -/
namespace Verif.INP
open Model Res Spec

theorem isWs_iff (c : Char) : isWs c = true ↔ WhiteSpace c := by
  unfold isWs WhiteSpace whiteSpaceCodes
  simp only [Bool.or_eq_true, Bool.and_eq_true, decide_eq_true_eq, beq_iff_eq, List.mem_cons, List.not_mem_nil, or_false]
  omega

theorem tokens_ws {c : Char} {s : List Char} {ts : List (List Char)} (hc : WhiteSpace c) :
    Tokens (c :: s) ts ↔ Tokens s ts := by
  constructor
  · intro h
    generalize hs : c :: s = s' at h
    cases h with
    | done h => subst hs; exact .done (fun d hd => h d (by simp [hd]))
    | tok h1 h2 h3 h4 h5 =>
      rename_i w t rest ts
      rcases w with _ | ⟨d, w⟩
      · rcases t with _ | ⟨d, t⟩
        · exact absurd rfl h2
        · injection hs with e _
          subst e
          exact absurd hc (h3 c (by simp))
      · injection hs with e1 e2
        subst e2
        exact .tok (fun d hd => h1 d (by simp [hd])) h2 h3 h4 h5
  · intro h
    cases h with
    | done h => exact .done (fun d hd => by
        rcases List.mem_cons.1 hd with rfl | hd
        · exact hc
        · exact h d hd)
    | tok h1 h2 h3 h4 h5 =>
      rename_i w t rest ts
      exact Tokens.tok (w := c :: w) (fun d hd => by
        rcases List.mem_cons.1 hd with rfl | hd
        · exact hc
        · exact h1 d hd) h2 h3 h4 h5

theorem takeWhile_run {t rest : List Char} (h3 : ∀ c ∈ t, ¬ WhiteSpace c)
    (h4 : ∀ c, rest.head? = some c → WhiteSpace c) :
    (t ++ rest).takeWhile (fun c => !isWs c) = t ∧ (t ++ rest).dropWhile (fun c => !isWs c) = rest := by
  induction t with
  | nil =>
    rcases rest with _ | ⟨c, rest⟩
    · exact ⟨rfl, rfl⟩
    · have := (isWs_iff c).2 (h4 c rfl)
      simp [this]
  | cons c t ih =>
    have hc : isWs c = false := by
      have := h3 c (by simp)
      rw [← isWs_iff] at this
      simpa using this
    obtain ⟨h5, h6⟩ := ih (fun d hd => h3 d (by simp [hd]))
    simp only [List.cons_append, List.takeWhile_cons, List.dropWhile_cons, hc]
    simp [h5, h6]

theorem tokens_run {p rest : List Char} {ts : List (List Char)} (hp : p ≠ []) (hn : ∀ c ∈ p, ¬ WhiteSpace c)
    (hr : ∀ c, rest.head? = some c → WhiteSpace c) :
    Tokens (p ++ rest) ts ↔ ∃ ts', ts = p :: ts' ∧ Tokens rest ts' := by
  constructor
  · intro h
    generalize hs : p ++ rest = s at h
    cases h with
    | done h =>
      subst hs
      rcases p with _ | ⟨c, p⟩
      · exact absurd rfl hp
      · exact absurd (h c (by simp)) (hn c (by simp))
    | tok h1 h2 h3 h4 h5 =>
      rename_i w t rest' ts
      have hw : w = [] := by
        rcases w with _ | ⟨d, w⟩
        · rfl
        · rcases p with _ | ⟨c, p⟩
          · exact absurd rfl hp
          · injection hs with e _
            subst e
            exact absurd (h1 c (by simp)) (hn c (by simp))
      subst hw
      rw [List.nil_append] at hs
      obtain ⟨e1, e2⟩ := takeWhile_run h3 h4
      obtain ⟨e3, e4⟩ := takeWhile_run hn hr
      rw [hs, e1] at e3
      rw [hs, e2] at e4
      subst e3 e4
      exact ⟨ts, rfl, h5⟩
  · rintro ⟨ts', rfl, h⟩
    exact Tokens.tok (w := []) (by simp) hp hn hr h

theorem mem_takeWhile {q : Char → Bool} {s : List Char} : ∀ c ∈ s.takeWhile q, q c = true := by
  induction s with
  | nil => simp
  | cons d s ih =>
    intro c hc
    rw [List.takeWhile_cons] at hc
    split at hc
    · rcases List.mem_cons.1 hc with rfl | hc
      · assumption
      · exact ih c hc
    · cases hc

theorem span_run (s : List Char) : ∃ p rest, s = p ++ rest ∧ (∀ c ∈ p, ¬ WhiteSpace c) ∧
    (∀ c, rest.head? = some c → WhiteSpace c) ∧ s.span (fun c => !isWs c) = (p, rest) := by
  rw [List.span_eq_takeWhile_dropWhile]
  refine ⟨_, _, (List.takeWhile_append_dropWhile ..).symm, ?_, ?_, rfl⟩
  · intro c hc
    have := mem_takeWhile c hc
    rw [← isWs_iff]
    simpa using this
  · intro c hc
    have := List.head?_dropWhile_not (fun c => !isWs c) s
    rw [hc] at this
    rw [← isWs_iff]
    simpa using this

theorem tokens_exists (n : Nat) : ∀ s : List Char, s.length ≤ n → ∃ ts, Tokens s ts := by
  induction n with
  | zero =>
    intro s hs
    have : s = [] := List.length_eq_zero_iff.1 (by omega)
    subst this
    exact ⟨[], .done (by simp)⟩
  | succ n ih =>
    intro s hs
    obtain ⟨p, rest, rfl, h1, h2, _⟩ := span_run s
    rcases p with _ | ⟨c, p⟩
    · rcases rest with _ | ⟨c, rest⟩
      · exact ⟨[], .done (by simp)⟩
      · obtain ⟨ts, h⟩ := ih rest (by simpa using hs)
        exact ⟨ts, (tokens_ws (h2 c rfl)).2 h⟩
    · obtain ⟨ts, h⟩ := ih rest (by simp at hs; omega)
      exact ⟨_, (tokens_run (by simp) h1 h2).2 ⟨ts, rfl, h⟩⟩

theorem tokens_unique {s : List Char} {ts : List (List Char)} (h : Tokens s ts) : ∀ ts', Tokens s ts' → ts' = ts := by
  induction h with
  | done h =>
    intro ts' h'
    cases h' with
    | done _ => rfl
    | tok h1 h2 h3 h4 h5 =>
      rename_i w t rest ts
      rcases t with _ | ⟨c, t⟩
      · exact absurd rfl h2
      · exact absurd (h c (by simp)) (h3 c (by simp))
  | tok h1 h2 h3 h4 h5 ih =>
    rename_i w t rest ts
    intro ts' h'
    have : ∀ w, (∀ c ∈ w, WhiteSpace c) → Tokens (w ++ t ++ rest) ts' → Tokens (t ++ rest) ts' := by
      intro w
      induction w with
      | nil => intro _ h; exact h
      | cons c w ih2 =>
        intro hw h
        exact ih2 (fun d hd => hw d (by simp [hd])) ((tokens_ws (hw c (by simp))).1 h)
    obtain ⟨ts'', rfl, h6⟩ := (tokens_run h2 h3 h4).1 (this w h1 h')
    rw [ih _ h6]

/-- The reader has the tokens `ts` left. -/
def Left (i : In) (ts : List (List Char)) : Prop := (i.iter = none ∧ ts = []) ∨ ∃ s, i.iter = some s ∧ Tokens s ts

theorem nextToken_spec : ∀ (fuel : Nat) (s : List Char) (ts : List (List Char)), s.length + 2 ≤ fuel → Tokens s ts →
    (ts = [] → nextToken fuel (some s) = (none, none)) ∧
    (∀ t ts', ts = t :: ts' → ∃ it, nextToken fuel (some s) = (some t, it) ∧ Left ⟨it⟩ ts') := by
  intro fuel
  induction fuel with
  | zero => intro s ts h; omega
  | succ fuel ih =>
    intro s ts hf ht
    obtain ⟨p, rest, rfl, h1, h2, h3⟩ := span_run s
    simp only [nextToken, Split.next, h3]
    rcases p with _ | ⟨c, p⟩
    · rcases rest with _ | ⟨c, rest⟩
      · have hts : ts = [] := tokens_unique (.done (by simp)) _ ht
        subst hts
        simp only [if_true]
        refine ⟨fun _ => ?_, fun t ts' h => by cases h⟩
        obtain ⟨fuel, rfl⟩ : ∃ f, fuel = f + 1 := ⟨fuel - 1, by simp at hf; omega⟩
        rfl
      · simp only [if_true]
        exact ih rest ts (by simp at hf; omega) ((tokens_ws (h2 c rfl)).1 ht)
    · obtain ⟨ts', rfl, h4⟩ := (tokens_run (by simp) h1 h2).1 ht
      refine ⟨fun h => (by cases h), fun t ts'' h => ?_⟩
      injection h with e1 e2
      subst e1 e2
      rcases rest with _ | ⟨d, rest⟩
      · simp only [reduceCtorEq, if_false]
        exact ⟨none, rfl, .inl ⟨rfl, tokens_unique (.done (by simp)) _ h4⟩⟩
      · simp only [reduceCtorEq, if_false]
        exact ⟨some rest, rfl, .inr ⟨rest, rfl, (tokens_ws (h2 d rfl)).1 h4⟩⟩

theorem next_nil {i : In} (h : Left i []) : ∃ i', i.next = (none, i') ∧ Left i' [] := by
  rcases i with ⟨it⟩
  rcases h with ⟨rfl, _⟩ | ⟨s, rfl, h⟩
  · exact ⟨⟨none⟩, rfl, .inl ⟨rfl, rfl⟩⟩
  · have := (nextToken_spec (s.length + 2) s [] (le_refl _) h).1 rfl
    refine ⟨⟨none⟩, ?_, .inl ⟨rfl, rfl⟩⟩
    simp only [In.next, Option.getD_some]
    rw [this]

theorem next_cons {i : In} {t : List Char} {ts : List (List Char)} (h : Left i (t :: ts)) :
    ∃ i', i.next = (some t, i') ∧ Left i' ts := by
  rcases i with ⟨it⟩
  rcases h with ⟨rfl, h⟩ | ⟨s, rfl, h⟩
  · cases h
  · obtain ⟨it, e, h⟩ := (nextToken_spec (s.length + 2) s _ (le_refl _) h).2 t ts rfl
    refine ⟨⟨it⟩, ?_, h⟩
    simp only [In.next, Option.getD_some]
    rw [e]

theorem read_cons {α : Type} {parse : List Char → Option α} {i : In} {t : List Char} {ts : List (List Char)} (h : Left i (t :: ts)) :
    (∀ v, parse t = some v → ∃ i', i.read parse = ok (v, i') ∧ Left i' ts) ∧ (parse t = none → i.read parse = panic) := by
  obtain ⟨i', e, h'⟩ := next_cons h
  unfold In.read
  rw [e]
  constructor
  · intro v hv
    simp only [unwrap_some, ok_bind, hv]
    exact ⟨i', rfl, h'⟩
  · intro hv
    simp only [unwrap_some, ok_bind, hv, unwrap_none]
    rfl

theorem read_nil {α : Type} {parse : List Char → Option α} {i : In} (h : Left i []) : i.read parse = panic := by
  obtain ⟨i', e, h'⟩ := next_nil h
  unfold In.read
  rw [e]
  rfl

theorem forCount_panic {σ : Type} {f : Nat → σ → Res σ} : ∀ {n lo s}, 1 ≤ n → f lo s = panic → forCount n lo s f = panic := by
  intro n lo s hn h
  obtain ⟨n, rfl⟩ : ∃ k, n = k + 1 := ⟨n - 1, by omega⟩
  unfold forCount
  rw [h]
  rfl

theorem vec_spec {α : Type} {parse : List Char → Option α} : ∀ (n lo : Nat) (i : In) (ts : List (List Char)) (acc : List α), Left i ts →
    (∀ vs, n ≤ ts.length → (ts.take n).mapM parse = some vs →
      ∃ i', forCount n lo ((acc, i) : List α × In) (fun _ s => do
        let (v, i) ← s.2.read parse
        ok (s.1 ++ [v], i)) = ok (acc ++ vs, i') ∧ Left i' (ts.drop n)) ∧
    (ts.length < n ∨ (ts.take n).mapM parse = none →
      forCount n lo ((acc, i) : List α × In) (fun _ s => do
        let (v, i) ← s.2.read parse
        ok (s.1 ++ [v], i)) = panic) := by
  intro n
  induction n with
  | zero =>
    intro lo i ts acc h
    constructor
    · intro vs _ hv
      simp at hv
      subst hv
      refine ⟨i, ?_, h⟩
      simp [forCount]
    · rintro (h | h)
      · omega
      · simp at h
  | succ n ih =>
    intro lo i ts acc h
    rcases ts with _ | ⟨t, ts⟩
    · refine ⟨fun vs h => by simp at h, fun _ => ?_⟩
      unfold forCount
      simp only []
      rw [read_nil h]
      rfl
    · obtain ⟨h1, h2⟩ := read_cons (parse := parse) h
      unfold forCount
      simp only []
      cases hp : parse t with
      | none =>
        rw [h2 hp]
        refine ⟨fun vs _ hv => ?_, fun _ => rfl⟩
        rw [List.take_succ_cons, List.mapM_cons, hp] at hv
        cases hv
      | some v =>
        obtain ⟨i', e, h'⟩ := h1 v hp
        rw [e]
        simp only [ok_bind]
        obtain ⟨h3, h4⟩ := ih (lo + 1) i' ts (acc ++ [v]) h'
        have em : ((t :: ts).take (n + 1)).mapM parse = ((ts.take n).mapM parse).map (v :: ·) := by
          rw [List.take_succ_cons, List.mapM_cons, hp]
          cases (ts.take n).mapM parse <;> rfl
        rw [em]
        constructor
        · intro vs hl hv
          cases hv2 : (ts.take n).mapM parse with
          | none => rw [hv2] at hv; cases hv
          | some ws =>
            rw [hv2] at hv
            simp at hv
            subst hv
            obtain ⟨i'', e2, h5⟩ := h3 ws (by simpa using hl) hv2
            refine ⟨i'', ?_, by simpa using h5⟩
            rw [e2]
            simp
        · rintro (hl | hv)
          · exact h4 (.inl (by simpa using hl))
          · exact h4 (.inr (by simpa using hv))

end Verif.INP
