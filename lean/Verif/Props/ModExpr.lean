import Verif.Props.Modint
import Verif.Spec.ModExpr
/-! C62: every arithmetic expression over modints has the value it has in `ℤ/m`. -/
namespace Verif.Props
open Model Res Spec NTP IMP MIP

/-- Evaluation of the expression by the operators of modint kind `k`. -/
def evalMod (k : MKind) : ModExpr → Res Nat
  | .lit ty v => miNew k ty v
  | .add a b => do miAdd k (← evalMod k a) (← evalMod k b)
  | .sub a b => do miSub k (← evalMod k a) (← evalMod k b)
  | .mul a b => do miMul k (← evalMod k a) (← evalMod k b)
  | .div a b => do miDiv k (← evalMod k a) (← evalMod k b)
  | .neg a => do miNeg k (← evalMod k a)
  | .inv a => do miInv k (← evalMod k a)
  | .pow a n => do miPow k (← evalMod k a) n

theorem cast_val {m r : Nat} {z : ZMod m} (hm : 2 ≤ m) (hr : r < m) (h : (r : ZMod m) = z) : r = z.val := by
  rw [← h, ZMod.val_natCast, Nat.mod_eq_of_lt hr]

/-- **C62.** For `2 ≤ m ≤ 2^31`, and the prime hint only on primes below `2^31`, an expression evaluates to the least
non-negative representative of its value in `ℤ/m`; evaluation panics exactly when some divisor has no inverse. -/
theorem C62_expressions {k : MKind} {m : Nat} (hk : KOk k m) (hm : 2 ≤ m) (hm2 : m ≤ 2 ^ 31)
    (hh : k = .stat m true → m.Prime ∧ m < 2 ^ 31) (e : ModExpr) (he : e.Ok) :
    evalMod k e = match e.value m with
      | some z => ok z.val
      | none => panic := by
  haveI : NeZero m := ⟨by omega⟩
  have hv : ∀ z : ZMod m, z.val < m := fun z => ZMod.val_lt z
  have hz : ∀ z : ZMod m, ((z.val : Nat) : ZMod m) = z := fun z => ZMod.natCast_zmod_val z
  have hinv : ∀ z : ZMod m, (IsUnit z → miInv k z.val = ok (z⁻¹).val) ∧ (¬ IsUnit z → miInv k z.val = panic) := by
    intro z
    obtain ⟨h1, h2⟩ := C45_inv_all hk (by omega) hh (hv z)
    have hu : IsUnit z ↔ Nat.gcd z.val m = 1 := by
      conv_lhs => rw [← hz z]
      exact ZMod.isUnit_iff_coprime z.val m
    refine ⟨fun h => ?_, fun h => h2 fun h' => h (hu.2 h')⟩
    obtain ⟨y, e, hy, h3⟩ := h1 (hu.1 h)
    rw [e]
    congr 1
    refine cast_val hm hy ?_
    have h4 : z * (y : ZMod m) = 1 := by
      have := congrArg (Nat.cast : Nat → ZMod m) h3
      rw [ZMod.natCast_mod, ZMod.natCast_mod, Nat.cast_mul, hz, Nat.cast_one] at this
      exact this
    calc (y : ZMod m) = z⁻¹ * z * y := by rw [ZMod.inv_mul_of_unit z h, one_mul]
      _ = z⁻¹ := by rw [mul_assoc, h4, mul_one]
  induction e with
  | lit ty v =>
    obtain ⟨r, h1, h2, h3⟩ := C42_new hk (by omega) (by omega) he.1 he.2
    simp only [evalMod, ModExpr.value]
    rw [h1]
    congr 1
    refine cast_val hm h2 ?_
    have := (ZMod.intCast_zmod_eq_zero_iff_dvd (v - r) m).2 h3
    push_cast at this
    exact (sub_eq_zero.1 this).symm
  | add a b iha ihb =>
    simp only [evalMod, ModExpr.value]
    rw [iha he.1]
    rcases a.value m with _ | x
    · rfl
    rw [ihb he.2]
    rcases b.value m with _ | y
    · rfl
    obtain ⟨⟨r, h1, h2, h3⟩, -⟩ := C43_zmod hk hm2 (hv x) (hv y)
    simp only [ok_bind, Option.bind_some, h1]
    exact congrArg ok (cast_val hm h2 (by rw [h3, hz, hz]))
  | sub a b iha ihb =>
    simp only [evalMod, ModExpr.value]
    rw [iha he.1]
    rcases a.value m with _ | x
    · rfl
    rw [ihb he.2]
    rcases b.value m with _ | y
    · rfl
    obtain ⟨-, ⟨r, h1, h2, h3⟩, -⟩ := C43_zmod hk hm2 (hv x) (hv y)
    simp only [ok_bind, Option.bind_some, h1]
    exact congrArg ok (cast_val hm h2 (by rw [h3, hz, hz]))
  | mul a b iha ihb =>
    simp only [evalMod, ModExpr.value]
    rw [iha he.1]
    rcases a.value m with _ | x
    · rfl
    rw [ihb he.2]
    rcases b.value m with _ | y
    · rfl
    obtain ⟨-, -, -, ⟨r, h1, h2, h3⟩, -⟩ := C43_zmod hk hm2 (hv x) (hv y)
    simp only [ok_bind, Option.bind_some, h1]
    exact congrArg ok (cast_val hm h2 (by rw [h3, hz, hz]))
  | div a b iha ihb =>
    simp only [evalMod, ModExpr.value]
    rw [iha he.1]
    rcases a.value m with _ | x
    · rfl
    rw [ihb he.2]
    rcases b.value m with _ | y
    · rfl
    simp only [ok_bind, Option.bind_some, miDiv]
    by_cases hu : IsUnit y
    · rw [(hinv y).1 hu, ok_bind]
      obtain ⟨-, -, -, ⟨r, h1, h2, h3⟩, -⟩ := C43_zmod hk hm2 (hv x) (hv y⁻¹)
      rw [h1]
      simp only [bind, Option.bind, hu, if_true]
      exact congrArg ok (cast_val hm h2 (by rw [h3, hz, hz]))
    · rw [(hinv y).2 hu]
      simp only [bind, Option.bind, hu, if_false]
      rfl
  | neg a iha =>
    simp only [evalMod, ModExpr.value]
    rw [iha he]
    rcases a.value m with _ | x
    · rfl
    obtain ⟨-, -, ⟨r, h1, h2, h3⟩, -⟩ := C43_zmod hk hm2 (hv x) (hv x)
    simp only [ok_bind, Option.bind_some, h1]
    exact congrArg ok (cast_val hm h2 (by rw [h3, hz]))
  | inv a iha =>
    simp only [evalMod, ModExpr.value]
    rw [iha he]
    rcases a.value m with _ | x
    · rfl
    simp only [ok_bind, Option.bind_some]
    by_cases hu : IsUnit x
    · rw [(hinv x).1 hu]; simp [hu]
    · rw [(hinv x).2 hu]; simp [hu]
  | pow a n iha =>
    simp only [evalMod, ModExpr.value]
    rw [iha he.1]
    rcases a.value m with _ | x
    · rfl
    simp only [ok_bind, Option.bind_some]
    rw [(C44_pow_partial hk hm2 (hv x) he.2).1 (.inl hm)]
    exact congrArg ok (cast_val hm (Nat.mod_lt _ (by omega)) (by rw [ZMod.natCast_mod, Nat.cast_pow, hz]))

/-- **C62, `==`.** Two expressions that evaluate give equal modints exactly when they are equal in `ℤ/m`. -/
theorem C62_equal {k : MKind} {m : Nat} (hk : KOk k m) (hm : 2 ≤ m) (hm2 : m ≤ 2 ^ 31)
    (hh : k = .stat m true → m.Prime ∧ m < 2 ^ 31) {e e' : ModExpr} (he : e.Ok) (he' : e'.Ok) {r r' : Nat}
    (h : evalMod k e = ok r) (h' : evalMod k e' = ok r') : r = r' ↔ e.value m = e'.value m := by
  haveI : NeZero m := ⟨by omega⟩
  rw [C62_expressions hk hm hm2 hh e he] at h
  rw [C62_expressions hk hm hm2 hh e' he'] at h'
  generalize e.value m = v at h ⊢
  generalize e'.value m = v' at h' ⊢
  rcases v with _ | x
  · cases h
  rcases v' with _ | y
  · cases h'
  injection h with h
  injection h' with h'
  rw [← h, ← h', Option.some_inj]
  exact ⟨fun h => ZMod.val_injective m h, fun h => by rw [h]⟩

/-- `(-(3i8) ^ 5 + 7u64) / (2 - 10) * 9^-1` modulo 11, and modulo 12 where `-8` has no inverse. -/
def exprExample : ModExpr :=
  .mul (.div (.add (.neg (.pow (.lit ⟨true, 8⟩ 3) 5)) (.lit ⟨false, 64⟩ 7)) (.sub (.lit ⟨true, 32⟩ 2) (.lit ⟨true, 32⟩ 10)))
    (.inv (.lit ⟨true, 32⟩ 9))

example : exprExample.Ok := by
  simp only [exprExample, ModExpr.Ok]; decide

example : evalMod (.stat 11 true) exprExample = ok 10 ∧ evalMod (.stat 11 false) exprExample = ok 10 ∧
    (setModulus 11 >>= fun b => evalMod (.dyn b) exprExample) = ok 10 ∧ evalMod (.stat 12 false) exprExample = panic := by
  decide +kernel

end Verif.Props
