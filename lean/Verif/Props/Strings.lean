import Verif.Proof.Strings
/-! C27, C28: `kmp` is the prefix function, `z_function` the Z-function.
The statements use only core `List` operations (`take`, `drop`, `<:+` "is a suffix of",
`<+:` "is a prefix of"). -/
namespace Verif.Props
open Res Model

/-- C27: entry `i` of `kmp s` is the greatest `k ≤ i` (i.e. proper, shorter than the `i+1`
elements `s[0..=i]`) such that the first `k` elements of `s` are a suffix of `s[0..=i]`. -/
theorem C27_kmp {α} [DecidableEq α] (s : List α) :
    ∃ pi, kmp s = .ok pi ∧ pi.length = s.length ∧
      ∀ i k, pi[i]? = some k →
        k ≤ i ∧ s.take k <:+ s.take (i + 1) ∧
        ∀ k', k' ≤ i → s.take k' <:+ s.take (i + 1) → k' ≤ k :=
  kmp_spec s

example : kmp [1, 2, 1, 2, 1, 3, 1] = .ok [0, 0, 1, 2, 3, 0, 1] := by decide

/-- C28: entry `i ≥ 1` of `z_function s` is the greatest `k` such that the first `k` elements of
`s` exist and are a prefix of `s[i..]`; entry 0 is 0. -/
theorem C28_z {α} [DecidableEq α] (s : List α) :
    ∃ z, zFunction s = .ok z ∧ z.length = s.length ∧
      (∀ k, z[0]? = some k → k = 0) ∧
      ∀ i k, 1 ≤ i → z[i]? = some k →
        k ≤ s.length ∧ s.take k <+: s.drop i ∧
        ∀ k', k' ≤ s.length → s.take k' <+: s.drop i → k' ≤ k :=
  zFunction_spec s

example : zFunction [1, 1, 2, 1, 1, 2, 1] = .ok [0, 1, 0, 4, 1, 0, 1] := by decide

end Verif.Props
