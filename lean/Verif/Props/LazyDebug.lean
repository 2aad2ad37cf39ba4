import Verif.Props.LazySegtree
import Verif.Spec.LazyDebug
/-! C63: the `Debug` text of a lazy segment tree. -/
namespace Verif.Props
open Model Spec Res LazyP SegP

variable {S F : Type}

theorem forRange_append (n : Nat) (g : Nat → List Char) (body : Nat → List Char → Res (List Char)) (out : List Char)
    (h : ∀ i, i < n → ∀ out, body i out = ok (out ++ g i)) :
    forRange 0 n out body = ok (out ++ (List.range n).flatMap g) := by
  obtain ⟨r, e, hr⟩ := forRange_sat (fun i o => o = out ++ (List.range i).flatMap g) (lo := 0) (hi := n) (s := out)
    (f := body) (Nat.zero_le _) (by simp) (by
      rintro i o _ hi rfl
      rw [h i hi, sat_ok, List.range_succ, List.flatMap_append]
      simp)
  rw [e, hr]

variable [Monoid S] {M : MapOps S F}

theorem debugFmt_eq {t : LazySegtree S F} {n L : Nat} {v : View S F} (h : Is t n L v) (showS : S → List Char)
    (showF : F → List Char) :
    t.debugFmt showS showF = ok (tableText showS showF L (fun i j => v.D (2 ^ i + j)) fun i j => v.Z (2 ^ i + j)) := by
  unfold LazySegtree.debugFmt tableText
  rw [h.log, h.size]
  rw [forRange_append L (fun i => ((List.range (2 ^ i)).flatMap fun j =>
    showS (v.D (2 ^ i + j)) ++ '[' :: (showF (v.Z (2 ^ i + j)) ++ [']', '\t'])) ++ ['\n'])]
  · rw [ok_bind, forRange_append (2 ^ L) (fun j => showS (v.D (2 ^ L + j)) ++ ['\t'])]
    · simp
    · intro j hj out
      rw [idx_of_some (h.d _ (by omega)), ok_bind, List.append_assoc]
  · intro i hi out
    have hi2 : 2 ^ (i + 1) ≤ 2 ^ L := Nat.pow_le_pow_right (by omega) hi
    rw [Nat.pow_succ] at hi2
    rw [Nat.one_shiftLeft, forRange_append (2 ^ i) (fun j =>
      showS (v.D (2 ^ i + j)) ++ '[' :: (showF (v.Z (2 ^ i + j)) ++ [']', '\t']))]
    · rw [ok_bind]; simp
    · intro j hj out
      rw [idx_of_some (h.d _ (by omega)), ok_bind, idx_of_some (h.z _ (by omega)), ok_bind]
      simp

theorem through_eq (hM : LawfulMap M) {v : View S F} {L : Nat} (Z : Nat → Nat → F) (hZ : ∀ i j, Z i j = v.Z (2 ^ i + j)) :
    ∀ (i j : Nat), i ≤ L → j < 2 ^ i →
      throughAncestors M Z i j (rprod (V M v (L - i)) ((2 ^ i + j) * 2 ^ (L - i)) ((2 ^ i + j + 1) * 2 ^ (L - i))) =
        rprod (V M v L) ((2 ^ i + j) * 2 ^ (L - i)) ((2 ^ i + j + 1) * 2 ^ (L - i)) := by
  have gen : ∀ (i j lo hi : Nat), i ≤ L → j < 2 ^ i → lo < hi → (2 ^ i + j) * 2 ^ (L - i) ≤ lo →
      hi ≤ (2 ^ i + j + 1) * 2 ^ (L - i) →
      throughAncestors M Z i j (rprod (V M v (L - i)) lo hi) = rprod (V M v L) lo hi := by
    intro i
    induction i with
    | zero => intro j lo hi _ _ _ _ _; rfl
    | succ i ih =>
      intro j lo hi hi1 hj hlt h1 h2
      rw [throughAncestors, map_rprod hM _ _ hlt]
      have e : L - i = (L - (i + 1)) + 1 := by omega
      have hp := Nat.two_pow_pos (L - (i + 1))
      have hpi : 2 ^ (i + 1) = 2 * 2 ^ i := by rw [Nat.pow_succ]; omega
      have h3 : (2 ^ i + j / 2) * 2 ^ (L - i) ≤ lo := by
        rw [e, Nat.pow_succ]
        calc (2 ^ i + j / 2) * (2 ^ (L - (i + 1)) * 2) = (2 * (2 ^ i + j / 2)) * 2 ^ (L - (i + 1)) := by ring
          _ ≤ (2 ^ (i + 1) + j) * 2 ^ (L - (i + 1)) := Nat.mul_le_mul_right _ (by omega)
          _ ≤ lo := h1
      have h4 : hi ≤ (2 ^ i + j / 2 + 1) * 2 ^ (L - i) := by
        refine Nat.le_trans h2 ?_
        rw [e, Nat.pow_succ]
        calc (2 ^ (i + 1) + j + 1) * 2 ^ (L - (i + 1)) ≤ (2 * (2 ^ i + j / 2 + 1)) * 2 ^ (L - (i + 1)) :=
              Nat.mul_le_mul_right _ (by omega)
          _ = (2 ^ i + j / 2 + 1) * (2 ^ (L - (i + 1)) * 2) := by ring
      rw [← ih (j / 2) lo hi (by omega) (by omega) hlt h3 h4]
      congr 1
      apply rprod_congr
      intro x hx1 hx2
      rw [e, V]
      congr 1
      rw [hZ, ← e]
      congr 1
      exact (shift_unique (by omega) (by omega)).symm
  intro i j hi hj
  refine gen i j _ _ hi hj ?_ (Nat.le_refl _) (Nat.le_refl _)
  exact Nat.mul_lt_mul_of_pos_right (by omega) (Nat.two_pow_pos _)

/-- **C63.** In every state reached from `from(a)`, writing the tree with `{:?}` succeeds, and the text is a table of
`log + 1` levels with `2^i` entries in level `i`. Applying to the value of an entry the maps written at its strict
ancestors gives the product of the present elements below that entry; for an entry of the last level that is the
element itself, or the identity beyond the end. -/
theorem C63_debug (hM : LawfulMap M) (a : List S) (ops : List (LOp S F)) (t : LazySegtree S F) (h : LReached M a ops t)
    (showS : S → List Char) (showF : F → List Char) :
    ∃ (L : Nat) (D : Nat → Nat → S) (Z : Nat → Nat → F), t.debugFmt showS showF = ok (tableText showS showF L D Z) ∧
      a.length ≤ 2 ^ L ∧ (∀ L', a.length ≤ 2 ^ L' → L ≤ L') ∧
      (∀ i j, i ≤ L → j < 2 ^ i → throughAncestors M Z i j (D i j) =
        rangeProd (lContents M a ops) (j * 2 ^ (L - i)) ((j + 1) * 2 ^ (L - i))) ∧
      ∀ j, j < 2 ^ L → throughAncestors M Z L j (D L j) = (lContents M a ops).getD j 1 := by
  obtain ⟨L, ⟨_, hL⟩, hle, v, hi, hc, hn, _⟩ := h.rep hM
  rw [lContents_length] at hL hle
  have key : ∀ i j, i ≤ L → j < 2 ^ i →
      throughAncestors M (fun i j => v.Z (2 ^ i + j)) i j (v.D (2 ^ i + j)) =
        rangeProd (lContents M a ops) (j * 2 ^ (L - i)) ((j + 1) * 2 ^ (L - i)) := by
    intro i j hi' hj
    have hp : 2 ^ i * 2 ^ (L - i) = 2 ^ L := by rw [← Nat.pow_add]; congr 1; omega
    have hlv : Lvl (2 ^ L) (L - i) (2 ^ i + j) := by
      have h2 : (j + 1) * 2 ^ (L - i) ≤ 2 ^ i * 2 ^ (L - i) := Nat.mul_le_mul_right _ hj
      refine ⟨?_, ?_⟩
      · rw [Nat.add_mul, hp]; omega
      · rw [Nat.add_mul] at h2 ⊢
        have := Nat.two_pow_pos (L - i)
        omega
    have h1 := hn (L - i) (2 ^ i + j) hlv (fun h => h)
    unfold NI at h1
    rw [h1, through_eq hM (v := v) (L := L) _ (fun _ _ => rfl) i j hi' hj]
    rw [rprod_congr (c' := leaf (2 ^ L) (lContents M a ops))]
    · rw [show (2 ^ i + j) * 2 ^ (L - i) = j * 2 ^ (L - i) + 2 ^ L by rw [Nat.add_mul, hp, Nat.add_comm],
        show (2 ^ i + j + 1) * 2 ^ (L - i) = (j + 1) * 2 ^ (L - i) + 2 ^ L by
          rw [Nat.add_assoc, Nat.add_mul, hp, Nat.add_comm], leaf_prod]
    · intro x hx1 hx2
      have := hlv.1
      have := hlv.end_le
      exact hc x (by omega) (by omega)
  refine ⟨L, _, _, debugFmt_eq hi showS showF, hle, ?_, key, ?_⟩
  · intro L' h'
    rw [hL]
    exact bitLen_le_iff.2 (by have := Nat.two_pow_pos L'; omega)
  · intro j hj
    rw [key L j (Nat.le_refl _) hj]
    simp only [Nat.sub_self, Nat.pow_zero, Nat.mul_one]
    unfold rangeProd
    rw [List.drop_take, show j + 1 - j = 1 by omega, List.getD_eq_getElem?_getD]
    rcases h : (lContents M a ops).drop j with _ | ⟨x, l⟩
    · have := List.drop_eq_nil_iff.1 h
      rw [List.getElem?_eq_none this]; rfl
    · have := List.getElem?_drop (xs := lContents M a ops) (i := j) (j := 0)
      rw [h, Nat.add_zero] at this
      rw [← this]; simp

/-- Two range applications on five elements: the leaves of the elements 1 and 2 are written without the pending `10`,
which stands at their parent. -/
def dbgOps : List (LOp (FreeMonoid Nat) Nat) := [.applyRange 0 4 10, .applyRange 3 5 20]

example : (lArr.length < 2 ^ 32 ∧ ∀ op ∈ dbgOps, op.Pre lArr.length) ∧ (do
    let t ← LazySegtree.from shiftOps lArr
    let (t, _) ← lRun shiftOps t dbgOps
    t.debugFmt (fun w => (w.toList.map (Nat.toDigits 10)).flatten) (Nat.toDigits 10) : Res (List Char)) =
    ok ("1112133425[0]\t\n11121334[0]\t25[0]\t\n1112[10]\t1334[0]\t25[0]\t[0]\t\n" ++
      "1\t2\t13\t34\t25\t\t\t\t").toList := by
  refine ⟨⟨by decide, ?_⟩, by decide +kernel⟩
  intro op h
  simp only [dbgOps, List.mem_cons, List.not_mem_nil, or_false] at h
  rcases h with rfl | rfl <;> simp [LOp.Pre, lArr]

end Verif.Props
