import Verif.Props.ModExpr
import Verif.Props.InternalMath
import Verif.Model.ModintTypes
import Mathlib.Algebra.Field.ZMod
/-! C75: the modint types that the library provides, and several dynamic types side by side. -/
namespace Verif.Props
open Model Res Spec NTP IMP MIP

theorem prime_1000000007 : Nat.Prime 1000000007 := by
  obtain ⟨b, e, h⟩ := C39_is_prime 1000000007 (by decide)
  have h1 : isPrime 1000000007 = ok true := by decide +kernel
  rw [h1] at e
  cases e
  exact (h.1 rfl).2

theorem prime_998244353 : Nat.Prime 998244353 := by
  obtain ⟨b, e, h⟩ := C39_is_prime 998244353 (by decide)
  have h1 : isPrime 998244353 = ok true := by decide +kernel
  rw [h1] at e
  cases e
  exact (h.1 rfl).2

/-- The provided types with their moduli. -/
def Provided (k : MKind) (p : Nat) : Prop :=
  (k = modInt1000000007 ∧ p = 1000000007) ∨ (k = modInt998244353 ∧ p = 998244353) ∨ (k = modIntDefault ∧ p = 998244353)

theorem Provided.facts {k : MKind} {p : Nat} (h : Provided k p) : KOk k p ∧ p.Prime ∧ p < 2 ^ 31 := by
  rcases h with ⟨rfl, rfl⟩ | ⟨rfl, rfl⟩ | ⟨rfl, rfl⟩
  · exact ⟨.inl ⟨true, rfl⟩, prime_1000000007, by decide⟩
  · exact ⟨.inl ⟨true, rfl⟩, prime_998244353, by decide⟩
  · exact ⟨C47_default.2.1, prime_998244353, by decide⟩

/-- **C75.** For `ModInt1000000007`, `ModInt998244353` and `ModInt` as it starts: the modulus is a prime, and every
expression evaluates to its value in the field of that many elements, or panics if it divides by zero. -/
theorem C75_field {k : MKind} {p : Nat} (hk : Provided k p) :
    k.modulus = p ∧ ∃ hp : Fact p.Prime, ∀ e : ModExpr, e.Ok →
      evalMod k e = match e.fieldValue (ZMod p) with
        | some z => ok z.val
        | none => panic := by
  obtain ⟨h1, h2, h3⟩ := hk.facts
  haveI hp : Fact p.Prime := ⟨h2⟩
  refine ⟨h1.modulus h2.one_le, hp, fun e he => ?_⟩
  rw [C62_expressions h1 h2.two_le (by omega) (fun _ => ⟨h2, h3⟩) e he]
  have key : ∀ e : ModExpr, e.value p = e.fieldValue (ZMod p) := by
    intro e
    induction e with
    | lit => rfl
    | add a b ha hb => simp only [ModExpr.value, ModExpr.fieldValue, ha, hb]
    | sub a b ha hb => simp only [ModExpr.value, ModExpr.fieldValue, ha, hb]
    | mul a b ha hb => simp only [ModExpr.value, ModExpr.fieldValue, ha, hb]
    | neg a ha => simp only [ModExpr.value, ModExpr.fieldValue, ha]
    | pow a n ha => simp only [ModExpr.value, ModExpr.fieldValue, ha]
    | inv a ha =>
      simp only [ModExpr.value, ModExpr.fieldValue, ha]
      congr 1
      funext x
      by_cases hx : x = 0
      · subst hx; simp
      · rw [if_pos (isUnit_iff_ne_zero.2 hx), if_neg hx]
    | div a b ha hb =>
      simp only [ModExpr.value, ModExpr.fieldValue, ha, hb]
      congr 1
      funext x
      congr 1
      funext y
      by_cases hy : y = 0
      · subst hy; simp
      · rw [if_pos (isUnit_iff_ne_zero.2 hy), if_neg hy, div_eq_mul_inv]
  rw [key]
  cases e.fieldValue (ZMod p) <;> rfl

/-- **C75.** `Eq`, `Hash` and `Debug` are consistent and respect the ring: for expressions that return, equal values in
`ℤ/m`, equal modints, equal input of the hasher and equal `Debug` texts are the same thing. `default()` is zero. -/
theorem C75_eq_hash_debug {k : MKind} {m : Nat} (hk : KOk k m) (hm : 2 ≤ m) (hm2 : m ≤ 2 ^ 31)
    (hh : k = .stat m true → m.Prime ∧ m < 2 ^ 31) {e e' : ModExpr} (he : e.Ok) (he' : e'.Ok) {r r' : Nat}
    (h : evalMod k e = ok r) (h' : evalMod k e' = ok r') :
    (e.value m = e'.value m ↔ r = r') ∧ (r = r' ↔ miHash r = miHash r') ∧ (r = r' ↔ miDebug r = miDebug r') ∧
    (e.value m = some 0 ↔ r = miDefault) := by
  refine ⟨(C62_equal hk hm hm2 hh he he' h h').symm, Iff.rfl, ⟨fun h => by rw [h], fun h => ?_⟩, ?_⟩
  · have h1 : DecimalText (miDebug r) r := toDigits_text r
    have h2 : DecimalText (miDebug r') r' := toDigits_text r'
    rw [h] at h1
    exact h1.2.2.symm.trans h2.2.2
  · have hl : evalMod k (.lit i64 0) = ok 0 := by
      rw [C62_expressions hk hm hm2 hh (.lit i64 0) ⟨by decide, by decide⟩]
      haveI : NeZero m := ⟨by omega⟩
      simp [ModExpr.value]
    rw [show (r = miDefault) = (r = 0) from rfl,
      C62_equal hk hm hm2 hh he (e' := .lit i64 0) ⟨by decide, by decide⟩ h hl]
    simp [ModExpr.value]

/-- Running a program over several dynamic modint types. -/
def runIds (st : Nat → Barrett) : List IdOp → Res (List Nat)
  | [] => ok []
  | .set i m :: ops => do
    let st ← setModulusOf st i m
    runIds st ops
  | .eval i e :: ops => do
    let v ← evalMod (.dyn (st i)) e
    let r ← runIds st ops
    ok (v :: r)

/-- **C75.** Several dynamic types do not disturb one another: each expression has its value modulo the modulus set last
for its own type, `998244353` if there is none. -/
theorem C75_ids (ops : List IdOp) (h : ∀ o ∈ ops, o.Ok) :
    runIds (fun _ => barrettDefault) ops = match idValues (fun _ => 998244353) ops with
      | some l => ok l
      | none => panic := by
  have key : ∀ (ops : List IdOp), (∀ o ∈ ops, o.Ok) → ∀ (st : Nat → Barrett) (ms : Nat → Nat),
      (∀ i, KOk (.dyn (st i)) (ms i) ∧ 2 ≤ ms i ∧ ms i ≤ 2 ^ 31) →
      runIds st ops = match idValues ms ops with
        | some l => ok l
        | none => panic := by
    intro ops
    induction ops with
    | nil => intro _ st ms _; rfl
    | cons o ops ih =>
      intro ho st ms hst
      have ho' : ∀ o ∈ ops, o.Ok := fun o h => ho o (List.mem_cons_of_mem _ h)
      cases o with
      | set i m =>
        obtain ⟨hm, hm2⟩ : 2 ≤ m ∧ m ≤ 2 ^ 31 := ho _ List.mem_cons_self
        simp only [runIds, idValues, setModulusOf, setModulus_eq (show 1 ≤ m by omega), ok_bind]
        refine ih ho' _ _ fun j => ?_
        by_cases hj : j = i
        · simp only [if_pos hj]
          exact ⟨.inr ⟨_, setModulus_eq (by omega), rfl⟩, hm, hm2⟩
        · simp only [if_neg hj]
          exact hst j
      | eval i e =>
        have he : e.Ok := ho _ List.mem_cons_self
        obtain ⟨h1, h2, h3⟩ := hst i
        simp only [runIds, idValues]
        rw [C62_expressions h1 h2 h3 (by rintro ⟨⟩) e he]
        cases e.value (ms i) with
        | none => rfl
        | some z =>
          simp only [ok_bind]
          rw [ih ho' st ms hst]
          cases idValues ms ops <;> rfl
  exact key ops h _ _ fun _ => ⟨C47_default.2.1, by decide, by decide⟩

/-- `Barrett::new` and `set_modulus` make the same pair. -/
theorem C75_barrett_new (m : Nat) : barrettNew m = setModulus m := by
  unfold barrettNew setModulus barrettUpdate
  split <;> rfl

example : runIds (fun _ => barrettDefault) [.set 0 7, .set 1 10, .eval 0 (.mul (.lit ⟨false, 32⟩ 6) (.lit i64 (-1))),
      .eval 1 (.mul (.lit ⟨false, 32⟩ 6) (.lit i64 (-1))), .eval 2 (.neg (.lit ⟨false, 32⟩ 1)), .set 0 11, .eval 0 (.inv (.lit ⟨false, 32⟩ 2)),
      .eval 1 (.inv (.lit ⟨false, 32⟩ 3))] = ok [1, 4, 998244352, 6, 7] := by decide +kernel

example : evalMod modInt1000000007 (.div (.lit i64 1) (.lit i64 42)) = ok 23809524 ∧
    evalMod modInt998244353 (.div (.lit i64 1) (.lit i64 998244353)) = panic := by decide +kernel

end Verif.Props
