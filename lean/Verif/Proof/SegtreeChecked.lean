import Verif.Proof.SegtreeAny
import Verif.Prelude.RangeProd
/-! The segment tree with checked arithmetic: which products are formed. -/
namespace Verif.SegAny
open Res Model Spec

variable {S : Type} [Monoid S] {M : MonoidOps S} {Fits : S → Prop}

theorem CheckedOps.nd (hM : CheckedOps M Fits) (x y : S) : M.op x y ≠ .diverge := by
  by_cases h : Fits (x * y)
  · rw [hM.op_ok _ _ h]; intro h; cases h
  · rw [hM.op_panic _ _ h]; intro h; cases h

theorem rangeProd_eq (a : List S) (l r : Nat) : rangeProd a l r = rprod (fun i => a.getD i 1) l r :=
  (rprod_list a l r).symm

theorem rangeProd_mul {a : List S} {l m r : Nat} (h1 : l ≤ m) (h2 : m ≤ r) :
    rangeProd a l m * rangeProd a m r = rangeProd a l r := by
  rw [rangeProd_eq, rangeProd_eq, rangeProd_eq, rprod_split h1 h2]

theorem rangeProd_self (a : List S) (l : Nat) : rangeProd a l l = 1 := by
  rw [rangeProd_eq, rprod_self]

/-- The product of an aligned block. -/
def blkProd (a : List S) (j q : Nat) : S := rangeProd a (q * 2 ^ j) ((q + 1) * 2 ^ j)

theorem blkProd_zero (a : List S) (q : Nat) : blkProd a 0 q = a.getD q 1 := by
  unfold blkProd
  rw [rangeProd_eq, Nat.pow_zero, Nat.mul_one, Nat.mul_one, rprod_single]

theorem blkProd_succ (a : List S) (j q : Nat) : blkProd a j (2 * q) * blkProd a j (2 * q + 1) = blkProd a (j + 1) q := by
  unfold blkProd
  have hp := Nat.two_pow_pos j
  rw [rangeProd_mul (by rw [Nat.add_mul]; omega) (by rw [Nat.add_mul (2 * q + 1)]; omega), lc_start, rc_end]

theorem aligned_value (hM : CheckedOps M Fits) {a : List S} : ∀ j q x, aligned M.op M.e a j q = ok x → x = blkProd a j q := by
  intro j
  induction j with
  | zero =>
    intro q x h
    rw [aligned, hM.e_eq] at h
    cases h
    exact (blkProd_zero a q).symm
  | succ j ih =>
    intro q x h
    rw [aligned] at h
    cases h1 : aligned M.op M.e a j (2 * q) with
    | diverge => rw [h1] at h; cases h
    | panic => rw [h1] at h; cases h
    | ok y =>
      cases h2 : aligned M.op M.e a j (2 * q + 1) with
      | diverge => rw [h1, ok_bind, h2] at h; cases h
      | panic => rw [h1, ok_bind, h2] at h; cases h
      | ok z =>
        rw [h1, ok_bind, h2, ok_bind] at h
        rw [ih _ _ h1, ih _ _ h2] at h
        by_cases hf : Fits (blkProd a j (2 * q) * blkProd a j (2 * q + 1))
        · rw [hM.op_ok _ _ hf] at h
          cases h
          exact blkProd_succ a j q
        · rw [hM.op_panic _ _ hf] at h; cases h

/-- An aligned product returns if all its parts fit. -/
theorem aligned_fits (hM : CheckedOps M Fits) {a : List S} : ∀ j q,
    (∀ i k, i < j → k / 2 ^ (j - (i + 1)) = q → Fits (blkProd a (i + 1) k)) → aligned M.op M.e a j q = ok (blkProd a j q) := by
  intro j
  induction j with
  | zero => intro q _; rw [aligned, hM.e_eq, blkProd_zero]
  | succ j ih =>
    intro q h
    have hh : ∀ b, b < 2 → ∀ i k, i < j → k / 2 ^ (j - (i + 1)) = 2 * q + b → Fits (blkProd a (i + 1) k) := by
      intro b hb i k hi hk
      refine h i k (by omega) ?_
      rw [show j + 1 - (i + 1) = (j - (i + 1)) + 1 by omega, Nat.pow_succ, ← Nat.div_div_eq_div_mul, hk]
      omega
    rw [aligned, ih (2 * q) (hh 0 (by omega)), ok_bind, ih _ (hh 1 (by omega)), ok_bind, hM.op_ok, blkProd_succ]
    rw [blkProd_succ]
    exact h j q (by omega) (by simp)

theorem aligned_not_fits (hM : CheckedOps M Fits) {a : List S} {j q : Nat} (h : ¬ Fits (blkProd a (j + 1) q)) :
    aligned M.op M.e a (j + 1) q = .panic := by
  cases h1 : aligned M.op M.e a (j + 1) q with
  | panic => rfl
  | diverge => exact absurd h1 (aligned_nd (CheckedOps.nd hM) a _ _)
  | ok x =>
    exfalso
    rw [aligned] at h1
    cases h2 : aligned M.op M.e a j (2 * q) with
    | diverge => rw [h2] at h1; cases h1
    | panic => rw [h2] at h1; cases h1
    | ok y =>
      cases h3 : aligned M.op M.e a j (2 * q + 1) with
      | diverge => rw [h2, ok_bind, h3] at h1; cases h1
      | panic => rw [h2, ok_bind, h3] at h1; cases h1
      | ok z =>
        rw [h2, ok_bind, h3, ok_bind, aligned_value hM _ _ _ h2, aligned_value hM _ _ _ h3, hM.op_panic] at h1
        · cases h1
        · rw [blkProd_succ]; exact h

theorem blk_in {L i j k q : Nat} (hij : i ≤ j) (hq : (q + 1) * 2 ^ j ≤ 2 ^ L) (hk : k / 2 ^ (j - i) = q) :
    (k + 1) * 2 ^ i ≤ 2 ^ L := by
  refine Nat.le_trans ?_ hq
  have e : 2 ^ j = 2 ^ (j - i) * 2 ^ i := by rw [← Nat.pow_add]; congr 1; omega
  rw [e, ← Nat.mul_assoc]
  refine Nat.mul_le_mul_right _ ?_
  rw [← hk]
  exact Nat.lt_mul_of_div_lt (Nat.lt_succ_self _) (Nat.two_pow_pos _)

/-- Some block product panics exactly if some block product does not fit. -/
theorem badBlock_iff (hM : CheckedOps M Fits) {a : List S} {L : Nat} :
    BadBlock M a L ↔ ∃ j q, 0 < j ∧ (q + 1) * 2 ^ j ≤ 2 ^ L ∧ ¬ Fits (rangeProd a (q * 2 ^ j) ((q + 1) * 2 ^ j)) := by
  constructor
  · rintro ⟨j, q, h1, h2⟩
    by_contra hc
    rw [aligned_fits hM j q ?_] at h2
    · cases h2
    · intro i k hi hk
      by_contra hf
      exact hc ⟨i + 1, k, by omega, blk_in hi h1 hk, hf⟩
  · rintro ⟨j, q, h0, h1, h2⟩
    obtain ⟨j, rfl⟩ : ∃ j', j = j' + 1 := ⟨j - 1, by omega⟩
    exact ⟨j + 1, q, h1, aligned_not_fits hM h2⟩

theorem firstBlk_le (l j : Nat) : l ≤ firstBlk l j * 2 ^ j := by
  unfold firstBlk
  have hp := Nat.two_pow_pos j
  have h := Nat.div_add_mod (l + 2 ^ j - 1) (2 ^ j)
  have := Nat.mod_lt (l + 2 ^ j - 1) hp
  rw [Nat.mul_comm] at h
  omega

theorem firstBlk_least {l j m : Nat} (h : l ≤ m * 2 ^ j) : firstBlk l j ≤ m := by
  unfold firstBlk
  have hp := Nat.two_pow_pos j
  rw [← Nat.lt_succ_iff]
  refine (Nat.div_lt_iff_lt_mul hp).2 ?_
  rw [Nat.succ_mul]
  omega

theorem endBlk_greatest {r j m : Nat} (h : m * 2 ^ j ≤ r) : m ≤ endBlk r j :=
  (Nat.le_div_iff_mul_le (Nat.two_pow_pos j)).2 h

/-- Products up to the first multiple of `2 ^ j`. -/
def pre (a : List S) (l j : Nat) : S := rangeProd a l (firstBlk l j * 2 ^ j)
/-- Products from the last multiple of `2 ^ j`. -/
def suf (a : List S) (r j : Nat) : S := rangeProd a (endBlk r j * 2 ^ j) r

theorem first_step (l j : Nat) : firstBlk l (j + 1) * 2 ^ (j + 1) = (firstBlk l j + firstBlk l j % 2) * 2 ^ j := by
  rw [firstBlk_succ, Nat.pow_succ, Nat.mul_comm (2 ^ j) 2, ← Nat.mul_assoc]
  congr 1
  omega

theorem end_step (r j : Nat) : endBlk r (j + 1) * 2 ^ (j + 1) = (endBlk r j - endBlk r j % 2) * 2 ^ j := by
  rw [endBlk_succ, Nat.pow_succ, Nat.mul_comm (2 ^ j) 2, ← Nat.mul_assoc]
  congr 1
  omega

variable {t : Segtree S} {a : List S} {L : Nat}

theorem block_ok (hM : CheckedOps M Fits) (hr : Holds M t a L) {j q : Nat} (hj : j ≤ L) (h : (q + 1) * 2 ^ j ≤ 2 ^ L) :
    aligned M.op M.e a j q = ok (blkProd a j q) := by
  obtain ⟨x, -, f⟩ := hr.block hj h
  rw [f, aligned_value hM _ _ _ f]

theorem path_ok (hM : CheckedOps M Fits) (hr : Holds M t a L) {p : Nat} (hp : p < a.length) (x : S) : ∀ j, j ≤ L →
    (∀ i, 0 < i → i ≤ j → Fits (blkProd (a.set p x) i (p / 2 ^ i))) →
      aligned M.op M.e (a.set p x) j (p / 2 ^ j) = ok (blkProd (a.set p x) j (p / 2 ^ j)) := by
  intro j
  induction j with
  | zero => intro _ _; rw [aligned, hM.e_eq, blkProd_zero]
  | succ j ih =>
    intro hj hf
    have ihj := ih (by omega) fun i h1 h2 => hf i h1 (by omega)
    have hle := hr.le
    have hpL : p / 2 ^ (j + 1) + 1 ≤ 2 ^ (L - (j + 1)) := by
      refine (Nat.div_lt_iff_lt_mul (Nat.two_pow_pos _)).2 ?_
      rw [← Nat.pow_add, show L - (j + 1) + (j + 1) = L by omega]
      omega
    have hch : ∀ b, b < 2 → aligned M.op M.e (a.set p x) j (2 * (p / 2 ^ (j + 1)) + b) =
        ok (blkProd (a.set p x) j (2 * (p / 2 ^ (j + 1)) + b)) := by
      intro b hb
      by_cases e : p / 2 ^ j = 2 * (p / 2 ^ (j + 1)) + b
      · rw [← e]; exact ihj
      · have h1 : (2 * (p / 2 ^ (j + 1)) + b + 1) * 2 ^ j ≤ 2 ^ L := by
          have e2 : 2 ^ L = (2 ^ (L - (j + 1)) * 2) * 2 ^ j := by
            rw [← Nat.pow_succ, ← Nat.pow_add]; congr 1; omega
          rw [e2]
          exact Nat.mul_le_mul_right _ (by omega)
        obtain ⟨y, -, f⟩ := hr.block (j := j) (by omega) h1
        have h2 : aligned M.op M.e (a.set p x) j (2 * (p / 2 ^ (j + 1)) + b) = ok y := by rw [aligned_set _ _ e, f]
        rw [h2, ← aligned_value hM _ _ _ h2]
    have h0 := hch 0 (by omega)
    rw [Nat.add_zero] at h0
    rw [aligned, h0, ok_bind, hch 1 (by omega), ok_bind, hM.op_ok, blkProd_succ]
    rw [blkProd_succ]
    exact hf _ (by omega) (Nat.le_refl _)

theorem path_panic_iff (hM : CheckedOps M Fits) (hr : Holds M t a L) {p : Nat} (hp : p < a.length) (x : S) :
    (∃ j, j ≤ L ∧ aligned M.op M.e (a.set p x) j (p / 2 ^ j) = .panic) ↔
      ∃ j, 0 < j ∧ j ≤ L ∧ ¬ Fits (rangeProd (a.set p x) (p / 2 ^ j * 2 ^ j) ((p / 2 ^ j + 1) * 2 ^ j)) := by
  constructor
  · rintro ⟨j, hj, e⟩
    by_contra hc
    rw [path_ok hM hr hp x j hj fun i h1 h2 => by_contra fun h => hc ⟨i, h1, by omega, h⟩] at e
    cases e
  · rintro ⟨j, h0, hj, hf⟩
    obtain ⟨j, rfl⟩ : ∃ j', j = j' + 1 := ⟨j - 1, by omega⟩
    exact ⟨j + 1, hj, aligned_not_fits hM hf⟩

theorem left_eq (hM : CheckedOps M Fits) (hr : Holds M t a L) {l r : Nat} (hrn : r ≤ a.length) :
    ∀ j, j ≤ L → (∀ i, i < j → firstBlk l i < endBlk r i) →
      ((∀ i, i ≤ j → Fits (pre a l i)) → leftPart M.op M.e a L l r j = ok (pre a l j)) ∧
      ((∃ i, i ≤ j ∧ ¬ Fits (pre a l i)) → leftPart M.op M.e a L l r j = .panic) := by
  intro j
  induction j with
  | zero =>
    intro _ _
    have e : pre a l 0 = 1 := by unfold pre; rw [firstBlk_zero, Nat.pow_zero, Nat.mul_one, rangeProd_self]
    refine ⟨fun _ => ?_, ?_⟩
    · rw [leftPart, e, hM.e_eq]
    · rintro ⟨i, hi, hf⟩
      have : i = 0 := by omega
      subst this
      rw [e] at hf
      exact absurd hM.one_fits hf
  | succ j ih =>
    intro hj hlt
    have hfe := hlt j (Nat.lt_succ_self j)
    obtain ⟨ih1, ih2⟩ := ih (by omega) fun i hi => hlt i (by omega)
    have hle := hr.le
    have hend : (firstBlk l j + 1) * 2 ^ j ≤ 2 ^ L :=
      Nat.le_trans (Nat.mul_le_mul_right _ hfe) (by have := endBlk_mul r j; omega)
    have hb := block_ok hM hr (j := j) (q := firstBlk l j) (by omega) hend
    by_cases hall : ∀ i, i ≤ j → Fits (pre a l i)
    swap
    · obtain ⟨i, hi, hf⟩ : ∃ i, i ≤ j ∧ ¬ Fits (pre a l i) := by
        by_contra hc
        exact hall fun i hi => by_contra fun hf => hc ⟨i, hi, hf⟩
      refine ⟨fun h => absurd (h i (by omega)) hf, fun _ => ?_⟩
      rw [leftPart, ih2 ⟨i, hi, hf⟩]; rfl
    rw [leftPart, ih1 hall, ok_bind]
    by_cases hodd : firstBlk l j % 2 = 1
    · rw [if_pos ⟨hfe, .inl hodd⟩, hb, ok_bind]
      have e : pre a l j * blkProd a j (firstBlk l j) = pre a l (j + 1) := by
        unfold pre blkProd
        rw [first_step, hodd, rangeProd_mul (firstBlk_le l j) (Nat.mul_le_mul_right _ (by omega))]
      constructor
      · intro h
        rw [hM.op_ok _ _ (by rw [e]; exact h _ (Nat.le_refl _)), e]
      · rintro ⟨i, hi, hf⟩
        rcases Nat.lt_or_ge j i with h | h
        · have : i = j + 1 := by omega
          subst this
          rw [hM.op_panic _ _ (by rw [e]; exact hf)]
        · exact absurd (hall i h) hf
    · rw [if_neg (by omega)]
      have e : pre a l (j + 1) = pre a l j := by
        unfold pre
        rw [first_step, show firstBlk l j % 2 = 0 by omega, Nat.add_zero]
      refine ⟨fun _ => by rw [e], ?_⟩
      rintro ⟨i, hi, hf⟩
      rcases Nat.lt_or_ge j i with h | h
      · have : i = j + 1 := by omega
        subst this
        rw [e] at hf
        exact absurd (hall j (Nat.le_refl _)) hf
      · exact absurd (hall i h) hf

theorem right_eq (hM : CheckedOps M Fits) (hr : Holds M t a L) {l r : Nat} (hrn : r ≤ a.length) :
    ∀ j, j ≤ L → (∀ i, i < j → firstBlk l i < endBlk r i) →
      ((∀ i, i ≤ j → Fits (suf a r i)) → rightPart M.op M.e a L l r j = ok (suf a r j)) ∧
      ((∃ i, i ≤ j ∧ ¬ Fits (suf a r i)) → rightPart M.op M.e a L l r j = .panic) := by
  intro j
  induction j with
  | zero =>
    intro _ _
    have e : suf a r 0 = 1 := by unfold suf; rw [endBlk_zero, Nat.pow_zero, Nat.mul_one, rangeProd_self]
    refine ⟨fun _ => ?_, ?_⟩
    · rw [rightPart, e, hM.e_eq]
    · rintro ⟨i, hi, hf⟩
      have : i = 0 := by omega
      subst this
      rw [e] at hf
      exact absurd hM.one_fits hf
  | succ j ih =>
    intro hj hlt
    have hfe := hlt j (Nat.lt_succ_self j)
    obtain ⟨ih1, ih2⟩ := ih (by omega) fun i hi => hlt i (by omega)
    have hle := hr.le
    have hend : (endBlk r j - 1 + 1) * 2 ^ j ≤ 2 ^ L := by
      rw [Nat.sub_add_cancel (by omega)]
      have := endBlk_mul r j; omega
    have hb := block_ok hM hr (j := j) (q := endBlk r j - 1) (by omega) hend
    by_cases hall : ∀ i, i ≤ j → Fits (suf a r i)
    swap
    · obtain ⟨i, hi, hf⟩ : ∃ i, i ≤ j ∧ ¬ Fits (suf a r i) := by
        by_contra hc
        exact hall fun i hi => by_contra fun hf => hc ⟨i, hi, hf⟩
      refine ⟨fun h => absurd (h i (by omega)) hf, fun _ => ?_⟩
      rw [rightPart, ih2 ⟨i, hi, hf⟩]; rfl
    rw [rightPart, ih1 hall, ok_bind]
    by_cases hodd : endBlk r j % 2 = 1
    · rw [if_pos ⟨hfe, hodd, by omega⟩, hb, ok_bind]
      have e : blkProd a j (endBlk r j - 1) * suf a r j = suf a r (j + 1) := by
        unfold suf blkProd
        rw [end_step, hodd, Nat.sub_add_cancel (by omega),
          rangeProd_mul (Nat.mul_le_mul_right _ (by omega)) (endBlk_mul r j)]
      constructor
      · intro h
        rw [hM.op_ok _ _ (by rw [e]; exact h _ (Nat.le_refl _)), e]
      · rintro ⟨i, hi, hf⟩
        rcases Nat.lt_or_ge j i with h | h
        · have : i = j + 1 := by omega
          subst this
          rw [hM.op_panic _ _ (by rw [e]; exact hf)]
        · exact absurd (hall i h) hf
    · rw [if_neg (by omega)]
      have e : suf a r (j + 1) = suf a r j := by
        unfold suf
        rw [end_step, show endBlk r j % 2 = 0 by omega, Nat.sub_zero]
      refine ⟨fun _ => by rw [e], ?_⟩
      rintro ⟨i, hi, hf⟩
      rcases Nat.lt_or_ge j i with h | h
      · have : i = j + 1 := by omega
        subst this
        rw [e] at hf
        exact absurd (hall j (Nat.le_refl _)) hf
      · exact absurd (hall i h) hf

/-- Everything a query for `l..r` forms. -/
def QueryFits (Fits : S → Prop) (a : List S) (L l r : Nat) : Prop :=
  (∀ j, j ≤ L → firstBlk l j ≤ endBlk r j → Fits (pre a l j) ∧ Fits (suf a r j)) ∧ Fits (rangeProd a l r)

theorem treeProd_checked (hM : CheckedOps M Fits) (hr : Holds M t a L) {l r : Nat} (hlr : l ≤ r) (hrn : r ≤ a.length) :
    (QueryFits Fits a L l r → treeProd M.op M.e a L l r = ok (rangeProd a l r)) ∧
    (¬ QueryFits Fits a L l r → treeProd M.op M.e a L l r = .panic) := by
  have hle := hr.le
  have hnd := CheckedOps.nd hM
  by_cases hJ : ∃ j, j ≤ L ∧ endBlk r j ≤ firstBlk l j
  · -- the first size without a block between `l` and `r`
    obtain ⟨J, hJL, hJe, hmin⟩ : ∃ J, J ≤ L ∧ endBlk r J ≤ firstBlk l J ∧ ∀ i, i < J → firstBlk l i < endBlk r i := by
      obtain ⟨j, h1, h2⟩ := hJ
      induction j using Nat.strongRecOn with
      | _ j ih =>
        by_cases h : ∀ i, i < j → firstBlk l i < endBlk r i
        · exact ⟨j, h1, h2, h⟩
        · obtain ⟨i, hi, hf⟩ : ∃ i, i < j ∧ ¬ firstBlk l i < endBlk r i := by
            by_contra hc
            exact h fun i hi => by_contra fun hf => hc ⟨i, hi, hf⟩
          exact ih i hi (by omega) (by omega)
    have hJ2 := firstBlk_le_end hlr J hmin
    have hJq : firstBlk l J = endBlk r J := by omega
    -- the condition at the sizes up to `J` is enough
    have hcond : (∀ j, j ≤ L → firstBlk l j ≤ endBlk r j → Fits (pre a l j) ∧ Fits (suf a r j)) ↔
        ∀ j, j ≤ J → Fits (pre a l j) ∧ Fits (suf a r j) := by
      constructor
      · intro h j hj
        exact h j (by omega) (firstBlk_le_end hlr j fun i hi => hmin i (by omega))
      · intro h j hj hle
        rcases Nat.lt_or_ge J j with hlt | hge
        · have h1 := blk_ge hJe (j - J)
          rw [show J + (j - J) = j by omega] at h1
          have heq : firstBlk l j = endBlk r j := by omega
          have e : ∀ m : Nat, m * 2 ^ j = m * 2 ^ (j - J) * 2 ^ J := by
            intro m; rw [Nat.mul_assoc, ← Nat.pow_add]; congr 2; omega
          have k1 := firstBlk_least (l := l) (j := J) (m := firstBlk l j * 2 ^ (j - J)) (by rw [← e]; exact firstBlk_le l j)
          have k2 := endBlk_greatest (r := r) (j := J) (m := endBlk r j * 2 ^ (j - J)) (by rw [← e]; exact endBlk_mul r j)
          have k3 : firstBlk l j * 2 ^ (j - J) = firstBlk l J := by rw [← heq] at k2; omega
          have e1 : pre a l j = pre a l J := by unfold pre; rw [e, k3]
          have e2 : suf a r j = suf a r J := by unfold suf; rw [e, ← heq, k3, hJq]
          rw [e1, e2]
          exact h J (Nat.le_refl _)
        · exact h j hge
    have hst := parts_stop (op := M.op) (e := M.e) (a := a) (L := L) hJe (L + 1 - J)
    rw [show J + (L + 1 - J) = L + 1 by omega] at hst
    have hl := left_eq hM hr (l := l) hrn J hJL hmin
    have hri := right_eq hM hr (l := l) hrn J hJL hmin
    have etot : pre a l J * suf a r J = rangeProd a l r := by
      unfold pre suf
      rw [← hJq]
      exact rangeProd_mul (firstBlk_le l J) (by rw [hJq]; exact endBlk_mul r J)
    unfold QueryFits
    rw [hcond]
    constructor
    · rintro ⟨h1, h2⟩
      unfold treeProd
      rw [hst.1, hst.2, hl.1 fun i hi => (h1 i hi).1, ok_bind, hri.1 fun i hi => (h1 i hi).2, ok_bind,
        hM.op_ok _ _ (by rw [etot]; exact h2), etot]
    · intro hc
      by_cases hA : ∃ i, i ≤ J ∧ ¬ Fits (pre a l i)
      · exact treeProd_panic hnd (by omega) (.inl (hl.2 hA))
      by_cases hB : ∃ i, i ≤ J ∧ ¬ Fits (suf a r i)
      · exact treeProd_panic hnd (by omega) (.inr (hri.2 hB))
      have hA' : ∀ i, i ≤ J → Fits (pre a l i) := fun i hi => by_contra fun h => hA ⟨i, hi, h⟩
      have hB' : ∀ i, i ≤ J → Fits (suf a r i) := fun i hi => by_contra fun h => hB ⟨i, hi, h⟩
      unfold treeProd
      rw [hst.1, hst.2, hl.1 hA', ok_bind, hri.1 hB', ok_bind, hM.op_panic]
      rw [etot]
      exact fun h => hc ⟨fun j hj => ⟨hA' j hj, hB' j hj⟩, h⟩
  · -- the whole array
    have hall : ∀ i, i ≤ L → firstBlk l i < endBlk r i := fun i hi => by
      by_contra h
      exact hJ ⟨i, hi, by omega⟩
    have hL := hall L (Nat.le_refl _)
    have hm := endBlk_mul r L
    have hp := Nat.two_pow_pos L
    have he1 : endBlk r L = 1 := by
      have : endBlk r L * 2 ^ L ≤ 1 * 2 ^ L := by omega
      have := Nat.le_of_mul_le_mul_right this hp
      omega
    have hr2 : r = 2 ^ L := by rw [he1] at hm; omega
    have hl0 : l = 0 := by
      have := firstBlk_le l L
      rw [show firstBlk l L = 0 by omega] at this
      omega
    subst hl0
    have hf0 : ∀ j, firstBlk 0 j = 0 := fun j => by
      have := firstBlk_least (l := 0) (j := j) (m := 0) (by omega)
      omega
    have hpre : ∀ j, pre a 0 j = 1 := fun j => by unfold pre; rw [hf0, Nat.zero_mul, rangeProd_self]
    have hee : ∀ j, j ≤ L → endBlk r j * 2 ^ j = r := fun j hj => by
      unfold endBlk
      rw [hr2]
      exact Nat.div_mul_cancel (Nat.pow_dvd_pow 2 hj)
    have hsuf : ∀ j, j ≤ L → suf a r j = 1 := fun j hj => by unfold suf; rw [hee j hj, rangeProd_self]
    have hl := (left_eq hM hr (l := 0) hrn L (Nat.le_refl _) fun i hi => hall i (by omega)).1
      fun i _ => by rw [hpre]; exact hM.one_fits
    have hri := (right_eq hM hr (l := 0) hrn L (Nat.le_refl _) fun i hi => hall i (by omega)).1
      fun i hi => by rw [hsuf i hi]; exact hM.one_fits
    have hb := block_ok hM hr (j := L) (q := 0) (Nat.le_refl _) (by omega)
    have hbl : blkProd a L 0 = rangeProd a 0 r := by unfold blkProd; rw [Nat.zero_mul, Nat.zero_add, Nat.one_mul, hr2]
    have e1 : leftPart M.op M.e a L 0 r (L + 1) = M.op 1 (rangeProd a 0 r) := by
      rw [leftPart, hl, ok_bind, if_pos ⟨hL, .inr rfl⟩, hf0, hb, ok_bind, hpre, hbl]
    have e2 : rightPart M.op M.e a L 0 r (L + 1) = ok 1 := by
      rw [rightPart, hri, ok_bind, if_neg (by simp), hsuf L (Nat.le_refl _)]
    constructor
    · rintro ⟨-, h2⟩
      unfold treeProd
      rw [e1, e2, hM.op_ok _ _ (by rw [one_mul]; exact h2), ok_bind, ok_bind,
        hM.op_ok _ _ (by rw [one_mul, mul_one]; exact h2), one_mul, mul_one]
    · intro hc
      unfold treeProd
      rw [e1, hM.op_panic]
      · rfl
      · rw [one_mul]
        refine fun h => hc ⟨fun j hj _ => ?_, h⟩
        rw [hpre, hsuf j hj]
        exact ⟨hM.one_fits, hM.one_fits⟩

end Verif.SegAny
