import Verif.Prelude.Res
/-! Closures with a state. -/
namespace Verif.Spec
open Res

/-- Every call `f s (arg k)` with `lo ≤ k ≤ hi` returns, with an answer `b` such that `P k b`. `Inv c s` is any
record kept along: `s` may be the state after `c` calls. -/
def Answers {S σ : Type} (Inv : Nat → σ → Prop) (f : σ → S → Res (Bool × σ)) (arg : Nat → S) (lo hi : Nat)
    (P : Nat → Bool → Prop) : Prop :=
  ∀ c s k, lo ≤ k → k ≤ hi → Inv c s → ∃ b s', f s (arg k) = .ok (b, s') ∧ P k b ∧ Inv (c + 1) s'

end Verif.Spec
