import Verif.Proof.StringsBy
/-! C67: `kmp` and `z_function` over element types whose `==` is not the identity: equivalences coarser than
equality, and comparisons that are not reflexive (`f64` with `NaN`). `PosEq eq s i j` says that `s[i] == s[j]`. -/
namespace Verif.Props
open Res Model

/-- C67: if `==` is symmetric and transitive (which is what `PartialEq` demands; reflexivity is not needed),
entry `i` of `kmp s` is the greatest `k ≤ i` such that each of the last `k` elements of `s[0..=i]` compares
equal to the corresponding one of the first `k`. -/
theorem C67_kmp {α} (eq : α → α → Bool) (hsym : ∀ a b, eq a b = true → eq b a = true)
    (htrans : ∀ a b c, eq a b = true → eq b c = true → eq a c = true) (s : List α) :
    ∃ pi, kmpBy eq s = .ok pi ∧ pi.length = s.length ∧
      ∀ (i k : Nat), pi[i]? = some k →
        (k ≤ i ∧ ∀ t, t < k → PosEq eq s (i + 1 - k + t) t) ∧
        ∀ k', k' ≤ i → (∀ t, t < k' → PosEq eq s (i + 1 - k' + t) t) → k' ≤ k :=
  kmpBy_spec hsym htrans

/-- C67: for `z_function` transitivity of `==` is enough: entry `i ≥ 1` is the greatest `k` such that each of
the first `k` elements compares equal to the one `i` places further on; entry 0 is 0. -/
theorem C67_z {α} (eq : α → α → Bool)
    (htrans : ∀ a b c, eq a b = true → eq b c = true → eq a c = true) (s : List α) :
    ∃ z, zFunctionBy eq s = .ok z ∧ z.length = s.length ∧ (∀ k, z[0]? = some k → k = 0) ∧
      ∀ (i k : Nat), 1 ≤ i → z[i]? = some k →
        (∀ t, t < k → PosEq eq s t (i + t)) ∧
        ∀ k', (∀ t, t < k' → PosEq eq s t (i + t)) → k' ≤ k :=
  zFunctionBy_spec htrans s

/-- C67: whatever `==` does, neither function panics or runs forever, entry `i` of `kmp` is at most `i`, and
entry `i` of `z_function` at most `n - i`. -/
theorem C67_total {α} (eq : α → α → Bool) (s : List α) :
    (∃ pi, kmpBy eq s = .ok pi ∧ pi.length = s.length ∧ ∀ (i k : Nat), pi[i]? = some k → k ≤ i) ∧
    (∃ z, zFunctionBy eq s = .ok z ∧ z.length = s.length ∧ ∀ (i k : Nat), z[i]? = some k → i + k ≤ s.length) :=
  ⟨kmpBy_total eq s, zFunctionBy_total eq s⟩

/-- C67: with equality as `==` these are the functions of C27 and C28. -/
theorem C67_eq {α} [DecidableEq α] (s : List α) :
    kmpBy (fun a b => decide (a = b)) s = kmp s ∧ zFunctionBy (fun a b => decide (a = b)) s = zFunction s :=
  ⟨kmpBy_decide s, zFunctionBy_decide s⟩

/-- `f64`-like comparison: `none` is `NaN`, which is not equal to itself. -/
private def nanEq : Option Nat → Option Nat → Bool
  | some a, some b => a == b
  | _, _ => false

/-- The hypotheses of `C67_kmp` and `C67_z` hold of it. -/
example : (∀ a b, nanEq a b = true → nanEq b a = true) ∧
    (∀ a b c, nanEq a b = true → nanEq b c = true → nanEq a c = true) ∧ nanEq none none = false := by
  refine ⟨?_, ?_, rfl⟩
  · rintro (_ | a) (_ | b) h <;> simp_all [nanEq]
  · rintro (_ | a) (_ | b) (_ | c) h h' <;> simp_all [nanEq]

example : kmpBy nanEq [some 1, some 2, some 1, some 2, none, some 1, none, none] = .ok [0, 0, 1, 2, 0, 1, 0, 0] ∧
    zFunctionBy nanEq [some 1, some 1, none, some 1, some 1, none, some 1] = .ok [0, 1, 0, 2, 1, 0, 1] := by decide

/-- Equality up to a multiple of 3, on numbers. -/
example : kmpBy (fun a b : Nat => a % 3 == b % 3) [1, 2, 4, 5, 7, 3, 10] = .ok [0, 0, 1, 2, 3, 0, 1] := by decide

/-- C67: the hypotheses are needed. For "differ by at most 1", which is not transitive, and for `≤`, which is not
symmetric, `kmp` is wrong, and for the first so is `z_function`. -/
theorem C67_needed :
    (kmpBy (fun a b : Nat => decide (a ≤ b + 1 ∧ b ≤ a + 1)) [0, 1, 2, 0] = .ok [0, 1, 2, 2] ∧
      ¬ PosEq (fun a b : Nat => decide (a ≤ b + 1 ∧ b ≤ a + 1)) [0, 1, 2, 0] (3 + 1 - 2 + 0) 0) ∧
    (kmpBy (fun a b : Nat => decide (a ≤ b)) [0, 1, 0, 0, 1] = .ok [0, 0, 1, 2, 0] ∧
      ∀ t, t < 2 → PosEq (fun a b : Nat => decide (a ≤ b)) [0, 1, 0, 0, 1] (4 + 1 - 2 + t) t) ∧
    (zFunctionBy (fun a b : Nat => decide (a ≤ b + 1 ∧ b ≤ a + 1)) [0, 1, 2] = .ok [0, 2, 1] ∧
      ¬ PosEq (fun a b : Nat => decide (a ≤ b + 1 ∧ b ≤ a + 1)) [0, 1, 2] 0 (2 + 0)) := by
  refine ⟨⟨by decide, by decide⟩, ⟨by decide, by decide⟩, ⟨by decide, by decide⟩⟩

end Verif.Props
