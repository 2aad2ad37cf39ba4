import Verif.Prelude.Res
/-! Specification of whitespace-separated tokens. -/
namespace Verif.Spec

/-- The code points of the Unicode property `White_Space`. -/
def whiteSpaceCodes : List Nat :=
  [9, 10, 11, 12, 13, 32, 133, 160, 5760, 8192, 8193, 8194, 8195, 8196, 8197, 8198, 8199, 8200, 8201, 8202, 8232, 8233,
    8239, 8287, 12288]

def WhiteSpace (c : Char) : Prop := c.toNat ∈ whiteSpaceCodes

/-- `ts` are the maximal runs of non-whitespace characters of `s`, in order. -/
inductive Tokens : List Char → List (List Char) → Prop where
  | done {s} : (∀ c ∈ s, WhiteSpace c) → Tokens s []
  | tok {w t rest ts} : (∀ c ∈ w, WhiteSpace c) → t ≠ [] → (∀ c ∈ t, ¬ WhiteSpace c) →
      (∀ c, rest.head? = some c → WhiteSpace c) → Tokens rest ts → Tokens (w ++ t ++ rest) (t :: ts)

end Verif.Spec
