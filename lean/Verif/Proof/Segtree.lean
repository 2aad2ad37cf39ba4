import Verif.Model.Segtree
import Verif.Spec.Segtree
import Verif.Prelude.Level
import Verif.Prelude.RangeProd
import Verif.Proof.Util
namespace Verif.SegP
open Res Model Spec

variable {S : Type} [Monoid S] {M : MonoidOps S} {Fits : S → Prop}

/-- Leaf contents in leaf numbering (`N + i` is position `i`, padded by 1). -/
def leaf (N : ℕ) (a : List S) (i : ℕ) : S := if i < N then 1 else a.getD (i - N) 1

/-- Node `(j, k)` holds the product of its leaves. -/
def NodeOk (N : ℕ) (a : List S) (d : List S) (j k : ℕ) : Prop :=
  d[k]? = some (rprod (leaf N a) (k * 2 ^ j) ((k + 1) * 2 ^ j))

/-- The segment tree `t` represents the plain list `a`. -/
structure Rep (t : Segtree S) (a : List S) : Prop where
  n : t.n = a.length
  size : t.size = 2 ^ t.log
  log : t.log ≤ 32
  le : a.length ≤ t.size
  len : t.d.length = 2 * t.size
  node : ∀ j k, Lvl t.size j k → NodeOk t.size a t.d j k
  logn : t.log = bitLen (a.length - 1)

theorem leaf_prod (N : ℕ) (a : List S) (l r : ℕ) :
    rprod (leaf N a) (l + N) (r + N) = rangeProd a l r := by
  rw [rprod_shift]
  unfold rangeProd
  rw [← rprod_list]
  apply rprod_congr
  intro i _ _
  simp [leaf]

theorem fits {a : List S} (hf : ProdsFit Fits a) (N l r : ℕ) : Fits (rprod (leaf N a) (l + N) (r + N)) := by
  rw [leaf_prod]; exact hf l r

theorem op_range (hM : LawfulOps M Fits) {a : List S} (hf : ProdsFit Fits a) {N lo mid hi : ℕ}
    (h0 : N ≤ lo) (h1 : lo ≤ mid) (h2 : mid ≤ hi) :
    M.op (rprod (leaf N a) lo mid) (rprod (leaf N a) mid hi) = .ok (rprod (leaf N a) lo hi) := by
  have e := rprod_split (c := leaf N a) h1 h2
  rw [← e]
  apply hM.op_ok
  rw [e, show lo = (lo - N) + N by omega, show hi = (hi - N) + N by omega]
  exact fits hf _ _ _

/-- `update` makes a node right when its children are. -/
theorem update_sat (hM : LawfulOps M Fits) {a : List S} (hf : ProdsFit Fits a)
    {t : Segtree S} {L j k : ℕ} (hs : t.size = 2 ^ L) (hl : t.d.length = 2 * t.size)
    (hlv : Lvl t.size (j + 1) k)
    (h1 : NodeOk t.size a t.d j (2 * k)) (h2 : NodeOk t.size a t.d j (2 * k + 1)) :
    Sat (t.update M k) (fun t' => t' = { t with d := (t.d.set k
      (rprod (leaf t.size a) (k * 2 ^ (j + 1)) ((k + 1) * 2 ^ (j + 1)))) }) := by
  unfold Segtree.update
  simp only [sat_bind, sat_idx]
  refine ⟨_, h1, _, h2, ?_⟩
  have hp := Nat.two_pow_pos j
  rw [rc_end, lc_start, op_range hM hf hlv.1 (by rw [lc_end]; omega) (by rw [← rc_end]; exact Nat.mul_le_mul_right _ (by omega))]
  have := hlv.k_le
  simp only [sat_ok, sat_upd, hl]
  exact ⟨this, trivial⟩

theorem pow_bitLen {n : ℕ} : n ≤ 2 ^ bitLen (n - 1) := by
  have := (bitLen_le_iff (x := n - 1) (k := bitLen (n - 1))).1 (Nat.le_refl _)
  omega

theorem from_sat (hM : LawfulOps M Fits) {a : List S} (hf : ProdsFit Fits a)
    (hn : a.length < 2 ^ 32) : Sat (Segtree.from M a) (fun t => Rep t a) := by
  unfold Segtree.from
  have hlog : bitLen (a.length - 1) ≤ 32 := bitLen_le_iff.2 (by omega)
  simp only [Nat.mod_eq_of_lt hn, ceilLg_eq hn, ok_bind, Nat.one_shiftLeft]
  have hle := pow_bitLen (n := a.length)
  generalize hL : bitLen (a.length - 1) = L at *
  have hws : writeSlice (List.replicate (2 * 2 ^ L) M.e) (2 ^ L) a =
      .ok (List.replicate (2 ^ L) M.e ++ a ++ List.replicate (2 ^ L - a.length) M.e) := by
    unfold writeSlice
    rw [if_pos (by simp; omega)]
    rw [List.take_replicate, List.drop_replicate]
    rw [show min (2 ^ L) (2 * 2 ^ L) = 2 ^ L by omega,
      show 2 * 2 ^ L - (2 ^ L + a.length) = 2 ^ L - a.length by omega]
  rw [hws, ok_bind]
  refine (forRangeRev_sat (I := fun i (t : Segtree S) => t.n = a.length ∧ t.log = L ∧
      t.size = 2 ^ L ∧ t.d.length = 2 * 2 ^ L ∧
      ∀ j k, i ≤ k → Lvl (2 ^ L) j k → NodeOk (2 ^ L) a t.d j k) (Nat.one_le_two_pow) ?_ ?_).mono ?_
  · refine ⟨rfl, rfl, rfl, by simp; omega, ?_⟩
    intro j k hk hlv
    have := hlv.j_zero hk
    subst this
    have h2 := hlv.2
    simp only [NodeOk, Nat.pow_zero, Nat.mul_one, rprod_single]
    simp only [Nat.pow_zero, Nat.mul_one] at h2
    unfold leaf
    rw [if_neg (by omega), List.append_assoc, List.getElem?_append_right (by simp; exact hk)]
    simp only [List.length_replicate]
    by_cases h : k - 2 ^ L < a.length
    · rw [List.getElem?_append_left h]
      simp [h]
    · rw [List.getElem?_append_right (by omega), List.getElem?_replicate, if_pos (by omega)]
      simp [List.getElem?_eq_none (show a.length ≤ k - 2 ^ L by omega), hM.e_eq]
  · rintro i t h1 h2 ⟨a1, a2, a3, a4, a5⟩
    -- height of `i`
    have hlv : ∃ j, Lvl (2 ^ L) (j + 1) i := by
      have hlg : Nat.log2 i < L := (Nat.log2_lt (by omega)).2 h2
      refine ⟨L - Nat.log2 i - 1, ?_⟩
      rw [show L - Nat.log2 i - 1 + 1 = L - Nat.log2 i by omega]
      have e : 2 ^ L = 2 ^ Nat.log2 i * 2 ^ (L - Nat.log2 i) := by
        rw [← Nat.pow_add]; congr 1; omega
      have hp := Nat.two_pow_pos (L - Nat.log2 i)
      constructor
      · rw [e]; exact Nat.mul_le_mul_right _ (Nat.log2_self_le (by omega))
      · have : i < 2 * 2 ^ Nat.log2 i := by
          rw [← Nat.pow_succ']; exact Nat.lt_log2_self
        have := Nat.mul_lt_mul_of_pos_right this hp
        rw [Nat.mul_assoc, ← e] at this
        exact this
    obtain ⟨j, hlv⟩ := hlv
    refine (update_sat hM hf (a := a) (t := t) (L := L) (j := j) (k := i) a3 (by rw [a3]; exact a4)
      (by rw [a3]; exact hlv) ?_ ?_).mono ?_
    · rw [a3]; exact a5 j (2 * i) (by omega) hlv.left
    · rw [a3]; exact a5 j (2 * i + 1) (by omega) hlv.right
    · rintro _ rfl
      refine ⟨a1, a2, a3, by simp [a4], ?_⟩
      intro j' k hk hlv'
      by_cases e : k = i
      · subst e
        have := hlv.unique hlv'
        subst this
        simp only [NodeOk]
        rw [List.getElem?_set_self (by have := hlv.k_le; omega), a3]
      · have := a5 j' k (by omega) hlv'
        simp only [NodeOk] at this ⊢
        rw [List.getElem?_set_ne (by omega)]; exact this
  · rintro t ⟨a1, a2, a3, a4, a5⟩
    refine ⟨a1, by rw [a3, a2], by omega, by omega, by omega, ?_, by rw [a2, hL]⟩
    intro j k hlv
    rw [a3] at hlv ⊢
    exact a5 j k hlv.pos hlv

theorem leaf_set {N : ℕ} {a : List S} {p : ℕ} {x : S} {i : ℕ} (hi : i ≠ p + N) :
    leaf N (a.set p x) i = leaf N a i := by
  unfold leaf
  split
  · rfl
  · rw [List.getD_eq_getElem?_getD, List.getD_eq_getElem?_getD, List.getElem?_set_ne (by omega)]

theorem set_sat (hM : LawfulOps M Fits) {t : Segtree S} {a : List S} (hr : Rep t a) {p : ℕ} {x : S}
    (hp : p < a.length) (hf : ProdsFit Fits (a.set p x)) :
    Sat (t.set M p x) (fun t' => Rep t' (a.set p x)) := by
  unfold Segtree.set
  rw [assert_true (by rw [hr.n]; exact hp), ok_bind]
  have hle := hr.le
  have hs := hr.size
  simp only [sat_bind, sat_upd]
  refine ⟨by rw [hr.len]; omega, ?_⟩
  have hpL : 2 ^ t.log ≤ p + t.size := by omega
  have hpL2 : p + t.size < 2 * 2 ^ t.log := by omega
  refine (forRange_sat (I := fun i (t' : Segtree S) => t'.n = a.length ∧ t'.log = t.log ∧
      t'.size = t.size ∧ t'.d.length = 2 * t.size ∧
      ∀ j k, Lvl t.size j k → (j < i ∨ k ≠ (p + t.size) >>> j) →
        NodeOk t.size (a.set p x) t'.d j k) (by omega) ?_ ?_).mono ?_
  · refine ⟨hr.n, rfl, rfl, by simp [hr.len], ?_⟩
    intro j k hlv hjk
    rcases Nat.eq_zero_or_pos j with rfl | hj
    · simp only [NodeOk, Nat.pow_zero, Nat.mul_one, rprod_single]
      have h1 := hlv.1
      have h2 := hlv.2
      simp only [Nat.pow_zero, Nat.mul_one] at h1 h2
      by_cases e : k = p + t.size
      · subst e
        rw [List.getElem?_set_self (by rw [hr.len]; omega)]
        simp [leaf, hp]
      · rw [List.getElem?_set_ne (by omega), leaf_set e]
        have := hr.node 0 k hlv
        simpa [NodeOk] using this
    · have hk : k ≠ (p + t.size) >>> j := by omega
      have hkp : k ≠ p + t.size := by
        rintro rfl
        have h2 := hlv.j_zero (by omega)
        omega
      have h3 := hr.node j k hlv
      simp only [NodeOk] at h3 ⊢
      rw [List.getElem?_set_ne (by omega), h3]
      congr 1
      apply rprod_congr
      intro i h4 h5
      rw [leaf_set]
      rintro rfl
      exact hk (shift_unique h4 h5).symm
  · rintro i t' h1 h2 ⟨a1, a2, a3, a4, a5⟩
    obtain ⟨i, rfl⟩ : ∃ i', i = i' + 1 := ⟨i - 1, by omega⟩
    have hlv : Lvl t.size (i + 1) ((p + t.size) >>> (i + 1)) := by
      rw [hs] at hpL hpL2 ⊢
      exact Lvl.shift hpL hpL2 (by omega)
    have hlv' := hlv
    rw [hs] at hlv'
    have hL := hlv'.left
    have hR := hlv'.right
    rw [← hs] at hL hR
    refine (update_sat hM hf (t := t') (L := t.log) (j := i) (by rw [a3, hs]) (by rw [a3]; exact a4)
      (by rw [a3]; exact hlv) ?_ ?_).mono ?_
    · rw [a3]; exact a5 i _ hL (Or.inl (by omega))
    · rw [a3]; exact a5 i _ hR (Or.inl (by omega))
    · rintro _ rfl
      refine ⟨a1, a2, a3, by simp [a4], ?_⟩
      intro j k hlvk hjk
      by_cases e : k = (p + t.size) >>> (i + 1)
      · subst e
        have := hlv.unique hlvk
        subst this
        simp only [NodeOk]
        rw [List.getElem?_set_self (by have := hlv.k_le; omega), a3]
      · have h6 : NodeOk t.size (a.set p x) t'.d j k := by
          apply a5 j k hlvk
          by_cases hj : j < i + 1
          · exact Or.inl hj
          · right
            rintro rfl
            rcases hjk with hjk | hjk
            · have : j = i + 1 := by omega
              subst this; exact e rfl
            · exact hjk rfl
        simp only [NodeOk] at h6 ⊢
        rw [List.getElem?_set_ne (by omega)]; exact h6
  · rintro t' ⟨a1, a2, a3, a4, a5⟩
    refine ⟨by simp [a1], by rw [a3, a2, hs], by rw [a2]; exact hr.log, by simp [a3, hle],
      by rw [a3, a4], ?_, by rw [a2, List.length_set]; exact hr.logn⟩
    intro j k hlv
    rw [a3] at hlv ⊢
    apply a5 j k hlv
    left
    rw [hs] at hlv
    have := hlv.j_le
    omega

theorem get_sat {t : Segtree S} {a : List S} (hr : Rep t a) {p : ℕ} (hp : p < a.length) :
    t.get p = .ok a[p] := by
  unfold Segtree.get
  rw [assert_true (by rw [hr.n]; exact hp), ok_bind]
  apply idx_of_some
  have hle := hr.le
  have := hr.node 0 (p + t.size) (by constructor <;> simp <;> omega)
  simp only [NodeOk, Nat.pow_zero, Nat.mul_one, rprod_single] at this
  rw [this]
  simp [leaf, hp]

theorem allProd_sat {t : Segtree S} {a : List S} (hr : Rep t a) : t.allProd = .ok a.prod := by
  unfold Segtree.allProd
  apply idx_of_some
  have hs := hr.size
  have := hr.node t.log 1 (by
    rw [hs]; have := Nat.two_pow_pos t.log
    constructor <;> omega)
  rw [this, Nat.one_mul, ← hs, show (1 + 1) * t.size = t.size + t.size by omega]
  have h := leaf_prod t.size a 0 t.size
  rw [Nat.zero_add] at h
  rw [h]
  unfold rangeProd
  rw [List.take_of_length_le hr.le]; simp

theorem and_one_ne {l : ℕ} : (l &&& 1 ≠ 0) ↔ l % 2 = 1 := by
  rw [Nat.and_one_is_mod]; omega

theorem prod_sat (hM : LawfulOps M Fits) {t : Segtree S} {a : List S} (hr : Rep t a)
    (hf : ProdsFit Fits a) {l r : ℕ} (hlr : l ≤ r) (hrn : r ≤ a.length) :
    t.prod M l r = .ok (rangeProd a l r) := by
  unfold Segtree.prod
  rw [assert_true ⟨hlr, by rw [hr.n]; exact hrn⟩, ok_bind]
  have hle := hr.le
  have hs := hr.size
  have key : Sat (whileLoop (r + t.size + 1)
    ((l + t.size, r + t.size, M.e, M.e) : Nat × Nat × S × S)
    (fun (l, r, _, _) => ok (decide (l < r)))
    (fun (l, r, sml, smr) => do
      let (l, sml) ← (if l &&& 1 ≠ 0 then do
          let x ← idx t.d l
          let sml ← M.op sml x
          ok (l + 1, sml)
        else ok (l, sml) : Res (Nat × S))
      let (r, smr) ← (if r &&& 1 ≠ 0 then do
          let x ← idx t.d (r - 1)
          let smr ← M.op x smr
          ok (r - 1, smr)
        else ok (r, smr) : Res (Nat × S))
      ok (l >>> 1, r >>> 1, sml, smr)))
    (fun st => ∃ B, l + t.size ≤ B ∧ B ≤ r + t.size ∧
      st.2.2.1 = rprod (leaf t.size a) (l + t.size) B ∧
      st.2.2.2 = rprod (leaf t.size a) B (r + t.size)) := by
    refine whileLoop_sat (I := fun st : Nat × Nat × S × S => ∃ j, l + t.size ≤ st.1 * 2 ^ j ∧
        st.1 ≤ st.2.1 ∧ st.2.1 * 2 ^ j ≤ r + t.size ∧
        st.2.2.1 = rprod (leaf t.size a) (l + t.size) (st.1 * 2 ^ j) ∧
        st.2.2.2 = rprod (leaf t.size a) (st.2.1 * 2 ^ j) (r + t.size))
      (μ := fun st => st.2.1) _ ?_ _ _ ?_ ?_
    · rintro ⟨l', r', sml, smr⟩ ⟨j, h1, h2, h3, h4, h5⟩
      simp only at h1 h2 h3 h4 h5
      have hp := Nat.two_pow_pos j
      simp only [sat_ok]
      by_cases hlt : l' < r'
      · simp only [hlt, decide_true, if_true, sat_bind]
        have hL : Sat (if l' &&& 1 ≠ 0 then do
              let x ← idx t.d l'
              let sml ← M.op sml x
              ok (l' + 1, sml)
            else ok (l', sml) : Res (Nat × S))
            (fun o => o.1 % 2 = 0 ∧ l' ≤ o.1 ∧ (o.1 = l' ∨ o.1 = l' + 1 ∧ l' % 2 = 1) ∧
              o.2 = rprod (leaf t.size a) (l + t.size) (o.1 * 2 ^ j)) := by
          rw [sat_ite, and_one_ne]
          constructor
          · intro hodd
            have hend : (l' + 1) * 2 ^ j ≤ r' * 2 ^ j := Nat.mul_le_mul_right _ hlt
            have hlv : Lvl t.size j l' := Lvl.of_end (by omega) (by omega)
            simp only [sat_bind, sat_idx]
            refine ⟨_, hr.node j l' hlv, ?_⟩
            rw [h4, op_range hM hf (by omega) h1 (Nat.mul_le_mul_right _ (by omega))]
            simp only [sat_ok]
            exact ⟨by omega, by omega, Or.inr ⟨trivial, hodd⟩, trivial⟩
          · intro heven
            simp only [sat_ok]
            exact ⟨by omega, Nat.le_refl _, Or.inl trivial, h4⟩
        refine hL.mono ?_
        rintro ⟨l1, sml1⟩ ⟨g1, g2, g3, g4⟩
        simp only at g1 g2 g3 g4
        have hR : Sat (if r' &&& 1 ≠ 0 then do
              let x ← idx t.d (r' - 1)
              let smr ← M.op x smr
              ok (r' - 1, smr)
            else ok (r', smr) : Res (Nat × S))
            (fun o => o.1 % 2 = 0 ∧ o.1 ≤ r' ∧ l1 ≤ o.1 ∧
              o.2 = rprod (leaf t.size a) (o.1 * 2 ^ j) (r + t.size)) := by
          rw [sat_ite, and_one_ne]
          constructor
          · intro hodd
            have hge : l' * 2 ^ j ≤ (r' - 1) * 2 ^ j := Nat.mul_le_mul_right _ (by omega)
            have hlv : Lvl t.size j (r' - 1) :=
              Lvl.of_end (by omega) (by rw [show r' - 1 + 1 = r' by omega]; omega)
            simp only [sat_bind, sat_idx]
            refine ⟨_, hr.node j _ hlv, ?_⟩
            rw [show r' - 1 + 1 = r' by omega, h5,
              op_range hM hf (by omega) (Nat.mul_le_mul_right _ (by omega)) h3]
            simp only [sat_ok]
            exact ⟨by omega, by omega, by omega, trivial⟩
          · intro heven
            simp only [sat_ok]
            exact ⟨by omega, Nat.le_refl _, by omega, h5⟩
        refine hR.mono ?_
        rintro ⟨r1, smr1⟩ ⟨g5, g6, g7, g8⟩
        simp only at g5 g6 g7 g8
        simp only [sat_ok, Nat.shiftRight_one]
        have el : l1 / 2 * 2 ^ (j + 1) = l1 * 2 ^ j := by
          rw [← lc_start]; congr 1; omega
        have er : r1 / 2 * 2 ^ (j + 1) = r1 * 2 ^ j := by
          rw [← lc_start]; congr 1; omega
        refine ⟨⟨j + 1, ?_, by omega, ?_, ?_, ?_⟩, by omega⟩
        · rw [el]; have := Nat.mul_le_mul_right (2 ^ j) g2; omega
        · rw [er]; have := Nat.mul_le_mul_right (2 ^ j) g6; omega
        · rw [el]; exact g4
        · rw [er]; exact g8
      · simp only [hlt, decide_false, Bool.false_eq_true, if_false]
        have : l' = r' := by omega
        subst this
        exact ⟨_, h1, h3, h4, h5⟩
    · refine ⟨0, ?_, ?_, ?_, ?_, ?_⟩ <;> simp [hM.e_eq]; omega
    · simp
  obtain ⟨⟨l1, r1, sml, smr⟩, e, B, h1, h2, h3, h4⟩ := key
  rw [e]
  simp only at h3 h4
  simp only [ok_bind, h3, h4]
  rw [op_range hM hf (by omega) h1 h2, leaf_prod]

theorem rangeProd_ge {a : List S} {l r : ℕ} (h : a.length ≤ r) :
    rangeProd a l r = rangeProd a l a.length := by
  unfold rangeProd
  rw [List.take_of_length_le h, List.take_of_length_le (Nat.le_refl _)]

theorem leaf_prod' (N : ℕ) (a : List S) {l R : ℕ} (h : N ≤ R) :
    rprod (leaf N a) (l + N) R = rangeProd a l (R - N) := by
  rw [← leaf_prod N]; congr 1; omega

theorem leaf_prod'' (N : ℕ) (a : List S) {l R : ℕ} (h : N ≤ l) :
    rprod (leaf N a) l (R + N) = rangeProd a (l - N) R := by
  rw [← leaf_prod N]; congr 1; omega

theorem maxRight_sat (hM : LawfulOps M Fits) {t : Segtree S} {a : List S} (hr : Rep t a)
    (hf : ProdsFit Fits a) {l : ℕ} (hl : l ≤ a.length) {f : S → Bool} (hf1 : f 1 = true) :
    Sat (t.maxRight M l f) (fun r => l ≤ r ∧ r ≤ a.length ∧ f (rangeProd a l r) = true ∧
      (r = a.length ∨ f (rangeProd a l (r + 1)) = false)) := by
  unfold Segtree.maxRight
  rw [assert_true (by rw [hr.n]; exact hl), assert_true (by rw [hM.e_eq]; exact hf1)]
  simp only [ok_bind, sat_ite, sat_ok, hr.n]
  have hle := hr.le
  have hs := hr.size
  have hlog := hr.log
  have hsz : t.size ≤ 2 ^ 32 := by rw [hs]; exact Nat.pow_le_pow_right (by omega) hlog
  have hself : rangeProd a l l = 1 := by
    unfold rangeProd; rw [List.drop_of_length_le (by rw [List.length_take]; omega)]; rfl
  constructor
  · rintro rfl
    exact ⟨Nat.le_refl _, Nat.le_refl _, by rw [hself]; exact hf1, Or.inl trivial⟩
  intro hne
  refine loop_satG (I := fun (st : ℕ × S) k => ∃ j, Lvl t.size j st.1 ∧ l + t.size ≤ st.1 * 2 ^ j ∧
      st.2 = rprod (leaf t.size a) (l + t.size) (st.1 * 2 ^ j) ∧ f st.2 = true ∧
      k = 2 * t.size - st.1 * 2 ^ j) _ ?_ _ _ (2 * t.size - (l + t.size)) ?_ ?_
  · rintro ⟨l0, sm⟩ k ⟨j0, h1, h2, h3, h4, h5⟩
    simp only at h1 h2 h3 h4 h5
    simp only [sat_bind]
    -- climb while even
    refine (whileLoop_sat (I := fun l' : ℕ => ∃ j, Lvl t.size j l' ∧ l' * 2 ^ j = l0 * 2 ^ j0)
      (μ := fun l' => l') (Q := fun l' => ∃ j, Lvl t.size j l' ∧ l' * 2 ^ j = l0 * 2 ^ j0)
      ?_ _ _ ⟨j0, h1, rfl⟩ (Nat.lt_succ_self _)).mono ?_
    · rintro l' ⟨j, hlv, e⟩
      simp only [sat_ok]
      by_cases h : l' % 2 = 0
      · simp only [h, decide_true, if_true, Nat.shiftRight_one]
        have hpos := hlv.pos
        have e2 : l' / 2 * 2 ^ (j + 1) = l' * 2 ^ j := by rw [← lc_start]; congr 1; omega
        refine ⟨⟨j + 1, ?_, by rw [e2, e]⟩, by omega⟩
        unfold Lvl; rw [e2]; exact hlv
      · simp only [h, decide_false, Bool.false_eq_true, if_false]
        exact ⟨j, hlv, e⟩
    rintro l' ⟨j, hlv, e⟩
    rw [← e] at h2 h3 h5
    clear e h1
    have hlvL := hlv
    rw [hs] at hlvL
    have hend := hlvL.end_le
    rw [← hs] at hend
    have hp := Nat.two_pow_pos j
    have hstep : (l' + 1) * 2 ^ j = l' * 2 ^ j + 2 ^ j := by rw [Nat.add_mul, Nat.one_mul]
    have hop : M.op sm (rprod (leaf t.size a) (l' * 2 ^ j) ((l' + 1) * 2 ^ j)) =
        .ok (rprod (leaf t.size a) (l + t.size) ((l' + 1) * 2 ^ j)) := by
      rw [h3]; exact op_range hM hf (by omega) h2 (by omega)
    simp only [idx_of_some (hr.node j l' hlv), ok_bind, sat_ok, hop]
    rw [sat_ite]
    constructor
    · intro hfalse
      simp only [sat_bind]
      refine (whileLoop_sat (I := fun st : ℕ × S => ∃ j, Lvl t.size j st.1 ∧
          l + t.size ≤ st.1 * 2 ^ j ∧
          st.2 = rprod (leaf t.size a) (l + t.size) (st.1 * 2 ^ j) ∧ f st.2 = true ∧
          f (rprod (leaf t.size a) (l + t.size) ((st.1 + 1) * 2 ^ j)) = false)
        (μ := fun st => t.size - st.1)
        (Q := fun st => t.size ≤ st.1 ∧ st.1 < 2 * t.size ∧ l + t.size ≤ st.1 ∧
          f (rprod (leaf t.size a) (l + t.size) st.1) = true ∧
          f (rprod (leaf t.size a) (l + t.size) (st.1 + 1)) = false) ?_ _ _ ?_ ?_).mono ?_
      · rintro ⟨x, sm⟩ ⟨j, g1, g2, g3, g4, g5⟩
        simp only at g1 g2 g3 g4 g5
        simp only [sat_ok]
        by_cases hx : x < t.size
        · simp only [hx, decide_true, if_true, sat_bind, sat_idx]
          obtain ⟨j, rfl⟩ : ∃ j', j = j' + 1 := ⟨j - 1, by have := g1.j_pos hx; omega⟩
          have gL : Lvl t.size j (2 * x) := by rw [hs] at g1 ⊢; exact g1.left
          have gR : Lvl t.size j (2 * x + 1) := by rw [hs] at g1 ⊢; exact g1.right
          have hpj := Nat.two_pow_pos j
          rw [Nat.mul_comm x 2]
          refine ⟨_, hr.node j _ gL, ?_⟩
          rw [g3, lc_start, op_range hM hf (by omega) g2 (by rw [lc_end]; omega)]
          simp only [sat_ok]
          rw [sat_ite]
          have := g1.pos
          constructor
          · intro hft
            simp only [sat_ok]
            exact ⟨⟨j, gR, by rw [lc_end]; omega, rfl, hft, by rw [rc_end]; exact g5⟩, by omega⟩
          · intro hft
            simp only [sat_ok]
            refine ⟨⟨j, gL, by rw [lc_start]; exact g2, by rw [lc_start], by rw [← g3]; exact g4,
              by simpa using hft⟩, by omega⟩
        · simp only [hx, decide_false, Bool.false_eq_true, if_false]
          have := g1.j_zero (by omega)
          subst this
          simp only [Nat.pow_zero, Nat.mul_one] at g2 g3 g5
          exact ⟨by omega, g1.k_le, g2, by rw [← g3]; exact g4, g5⟩
      · exact ⟨j, hlv, h2, h3, h4, by simpa using hfalse⟩
      · show t.size - l' < t.size + 1
        omega
      · rintro ⟨x, sm'⟩ ⟨g1, g2, g3, g4, g5⟩
        simp only at g1 g2 g3 g4 g5
        simp only [sat_subU, sat_ok]
        rw [leaf_prod' _ _ g1] at g4
        rw [leaf_prod' _ _ (by omega), show x + 1 - t.size = x - t.size + 1 by omega] at g5
        have hlt : x - t.size < a.length := by
          apply Nat.lt_of_not_le
          intro hge
          rw [rangeProd_ge (by omega)] at g4
          rw [rangeProd_ge (by omega), g4] at g5
          cases g5
        exact ⟨g1, by omega, by omega, g4, Or.inr g5⟩
    · intro htrue
      have htrue : f (rprod (leaf t.size a) (l + t.size) ((l' + 1) * 2 ^ j)) = true := by
        simpa using htrue
      have hk := hlv.k_le
      rw [and_wneg _ (by omega) (by omega), sat_ite]
      constructor
      · intro hnp
        simp only [sat_ok]
        have hne : (l' + 1) * 2 ^ j ≠ 2 * t.size := by
          intro e
          rw [hs, ← Nat.pow_succ'] at e
          exact hnp ((low_eq_self_iff (by omega)).2 (pow2_of_mul e))
        refine ⟨2 * t.size - (l' + 1) * 2 ^ j, by omega, j, ⟨by omega, by omega⟩, by omega, rfl, htrue, rfl⟩
      · intro hnp
        simp only [sat_ok]
        have hnp : low (l' + 1) = l' + 1 := by
          apply Classical.byContradiction; intro h; exact hnp h
        obtain ⟨m, hm⟩ := (low_eq_self_iff (by omega)).1 hnp
        have e : (l' + 1) * 2 ^ j = 2 * t.size := by
          have h1 := hlv.1
          rw [hm] at hstep hend ⊢
          rw [hs] at hend h1 ⊢
          exact end_pow2 (by omega) hend
        rw [e, leaf_prod' _ _ (by omega), rangeProd_ge (by omega)] at htrue
        exact ⟨hl, Nat.le_refl _, htrue, Or.inl trivial⟩
  · refine ⟨0, ?_, ?_, ?_, ?_, ?_⟩ <;> simp [hM.e_eq, hf1]
    constructor <;> simp; omega
  · omega

theorem minLeft_sat (hM : LawfulOps M Fits) {t : Segtree S} {a : List S} (hr : Rep t a)
    (hf : ProdsFit Fits a) {r : ℕ} (hrn : r ≤ a.length) {f : S → Bool} (hf1 : f 1 = true) :
    Sat (t.minLeft M r f) (fun l => l ≤ r ∧ f (rangeProd a l r) = true ∧
      (l = 0 ∨ f (rangeProd a (l - 1) r) = false)) := by
  unfold Segtree.minLeft
  rw [assert_true (by rw [hr.n]; exact hrn), assert_true (by rw [hM.e_eq]; exact hf1)]
  simp only [ok_bind, sat_ite, sat_ok]
  have hle := hr.le
  have hs := hr.size
  have hlog := hr.log
  have hsz : t.size ≤ 2 ^ 32 := by rw [hs]; exact Nat.pow_le_pow_right (by omega) hlog
  have hself : rangeProd a r r = 1 := by
    unfold rangeProd; rw [List.drop_of_length_le (by rw [List.length_take]; omega)]; rfl
  constructor
  · rintro rfl
    exact ⟨Nat.le_refl _, by rw [hself]; exact hf1, Or.inl trivial⟩
  intro hne
  refine loop_satG (I := fun (st : ℕ × S) k => ∃ j, j ≤ t.log ∧ t.size < st.1 * 2 ^ j ∧
      st.1 * 2 ^ j ≤ r + t.size ∧
      st.2 = rprod (leaf t.size a) (st.1 * 2 ^ j) (r + t.size) ∧ f st.2 = true ∧
      k = st.1 * 2 ^ j) _ ?_ _ _ (r + t.size) ?_ ?_
  · rintro ⟨r0, sm⟩ k ⟨j0, hj0, h1, h2, h3, h4, h5⟩
    simp only at h1 h2 h3 h4 h5
    have hr0 : 0 < r0 := by
      rcases Nat.eq_zero_or_pos r0 with rfl | h
      · omega
      · exact h
    simp only [sat_bind, sat_subU]
    refine ⟨by omega, ?_⟩
    have hlv0 : Lvl t.size j0 (r0 - 1) := by
      have hpj := Nat.two_pow_pos j0
      apply Lvl.of_end
      · have e : t.size = 2 ^ (t.log - j0) * 2 ^ j0 := by
          rw [hs, ← Nat.pow_add]; congr 1; omega
        have : 2 ^ (t.log - j0) * 2 ^ j0 < r0 * 2 ^ j0 := by rw [← e]; exact h1
        have := Nat.lt_of_mul_lt_mul_right this
        rw [e]
        exact Nat.mul_le_mul_right _ (by omega)
      · rw [show r0 - 1 + 1 = r0 by omega]; omega
    refine (whileLoop_sat (I := fun x : ℕ => ∃ j, Lvl t.size j x ∧ (x + 1) * 2 ^ j = r0 * 2 ^ j0)
      (μ := fun x => x) (Q := fun x => ∃ j, Lvl t.size j x ∧ (x + 1) * 2 ^ j = r0 * 2 ^ j0)
      ?_ _ _ ⟨j0, hlv0, by rw [show r0 - 1 + 1 = r0 by omega]⟩ (Nat.lt_succ_self _)).mono ?_
    · rintro x ⟨j, hlv, e⟩
      simp only [sat_ok]
      by_cases h : x > 1 ∧ x % 2 = 1
      · simp only [h, and_self, decide_true, if_true, Nat.shiftRight_one]
        have hp : Lvl t.size (j + 1) (x / 2) := by rw [hs] at hlv ⊢; exact hlv.parent h.1
        have e2 : (x / 2 + 1) * 2 ^ (j + 1) = (x + 1) * 2 ^ j := by
          rw [← rc_end]; congr 1; omega
        exact ⟨⟨j + 1, hp, by rw [e2, e]⟩, by omega⟩
      · simp only [h, decide_false, Bool.false_eq_true, if_false]
        exact ⟨j, hlv, e⟩
    rintro x ⟨j, hlv, e⟩
    rw [← e] at h1 h2 h3 h5
    clear e hlv0 hj0
    have hlvL := hlv
    rw [hs] at hlvL
    have hend := hlvL.end_le
    rw [← hs] at hend
    have hp := Nat.two_pow_pos j
    have hge := hlv.1
    have hstep : (x + 1) * 2 ^ j = x * 2 ^ j + 2 ^ j := by rw [Nat.add_mul, Nat.one_mul]
    have hop : M.op (rprod (leaf t.size a) (x * 2 ^ j) ((x + 1) * 2 ^ j)) sm =
        .ok (rprod (leaf t.size a) (x * 2 ^ j) (r + t.size)) := by
      rw [h3]; exact op_range hM hf hge (by omega) h2
    simp only [idx_of_some (hr.node j x hlv), ok_bind, sat_ok, hop]
    rw [sat_ite]
    constructor
    · intro hfalse
      simp only [sat_bind]
      refine (whileLoop_sat (I := fun st : ℕ × S => ∃ j, Lvl t.size j st.1 ∧
          (st.1 + 1) * 2 ^ j ≤ r + t.size ∧
          st.2 = rprod (leaf t.size a) ((st.1 + 1) * 2 ^ j) (r + t.size) ∧ f st.2 = true ∧
          f (rprod (leaf t.size a) (st.1 * 2 ^ j) (r + t.size)) = false)
        (μ := fun st => t.size - st.1)
        (Q := fun st => t.size ≤ st.1 ∧ st.1 + 1 ≤ r + t.size ∧
          f (rprod (leaf t.size a) (st.1 + 1) (r + t.size)) = true ∧
          f (rprod (leaf t.size a) st.1 (r + t.size)) = false) ?_ _ _ ?_ ?_).mono ?_
      · rintro ⟨x, sm⟩ ⟨j, g1, g2, g3, g4, g5⟩
        simp only at g1 g2 g3 g4 g5
        simp only [sat_ok]
        by_cases hx : x < t.size
        · simp only [hx, decide_true, if_true, sat_bind, sat_idx]
          obtain ⟨j, rfl⟩ : ∃ j', j = j' + 1 := ⟨j - 1, by have := g1.j_pos hx; omega⟩
          have gL : Lvl t.size j (2 * x) := by rw [hs] at g1 ⊢; exact g1.left
          have gR : Lvl t.size j (2 * x + 1) := by rw [hs] at g1 ⊢; exact g1.right
          have hpj := Nat.two_pow_pos j
          have hx2 : (2 * x + 1) * 2 ^ j ≤ (x + 1) * 2 ^ (j + 1) := by
            rw [← rc_end]; exact Nat.mul_le_mul_right _ (by omega)
          refine ⟨_, hr.node j _ gR, ?_⟩
          rw [g3, rc_end, op_range hM hf gR.1 hx2 g2]
          simp only [sat_ok]
          rw [sat_ite]
          have := g1.pos
          constructor
          · intro hft
            simp only [sat_bind, sat_subU, sat_ok]
            refine ⟨by omega, ⟨j, ?_, ?_, ?_, hft, ?_⟩, by omega⟩
            · rw [Nat.add_sub_cancel]; exact gL
            · rw [Nat.add_sub_cancel]; omega
            · rw [Nat.add_sub_cancel]
            · rw [Nat.add_sub_cancel, lc_start]; exact g5
          · intro hft
            simp only [sat_ok]
            refine ⟨⟨j, gR, by rw [rc_end]; exact g2, by rw [rc_end], by rw [← g3]; exact g4,
              by simpa using hft⟩, by omega⟩
        · simp only [hx, decide_false, Bool.false_eq_true, if_false]
          have := g1.j_zero (by omega)
          subst this
          simp only [Nat.pow_zero, Nat.mul_one] at g2 g3 g5
          exact ⟨by omega, g2, by rw [← g3]; exact g4, g5⟩
      · exact ⟨j, hlv, h2, h3, h4, by simpa using hfalse⟩
      · show t.size - x < t.size + 1
        omega
      · rintro ⟨x, sm'⟩ ⟨g1, g2, g4, g5⟩
        simp only at g1 g2 g4 g5
        simp only [sat_subU, sat_ok]
        rw [leaf_prod'' _ _ (by omega)] at g4
        rw [leaf_prod'' _ _ (by omega)] at g5
        refine ⟨by omega, by omega, g4, Or.inr ?_⟩
        rw [show x + 1 - t.size - 1 = x - t.size by omega]; exact g5
    · intro htrue
      have htrue : f (rprod (leaf t.size a) (x * 2 ^ j) (r + t.size)) = true := by
        simpa using htrue
      have hk := hlv.k_le
      have hpos := hlv.pos
      rw [and_wneg _ (by omega) (by omega), sat_ite]
      constructor
      · intro hnp
        simp only [sat_ok]
        have hne : x * 2 ^ j ≠ t.size := by
          intro e
          rw [hs] at e
          exact hnp ((low_eq_self_iff (by omega)).2 (pow2_of_mul e))
        exact ⟨x * 2 ^ j, by omega, j, hlvL.j_le, by omega, by omega, rfl, htrue, rfl⟩
      · intro hnp
        simp only [sat_ok]
        have hnp : low x = x := by
          apply Classical.byContradiction; intro h; exact hnp h
        obtain ⟨m, hm⟩ := (low_eq_self_iff (by omega)).1 hnp
        have e : x * 2 ^ j = t.size := by
          have h1 := hlv.1
          have h2 := hlv.2
          rw [hm] at h1 h2 ⊢
          rw [hs] at h1 h2 ⊢
          rw [← Nat.pow_add] at *
          rw [← Nat.pow_succ'] at h2
          have := (Nat.pow_le_pow_iff_right (a := 2) (by omega)).1 h1
          have := (Nat.pow_lt_pow_iff_right (a := 2) (by omega)).1 h2
          congr 1; omega
        rw [e, leaf_prod'' _ _ (by omega), Nat.sub_self] at htrue
        exact ⟨by omega, htrue, Or.inl trivial⟩
  · refine ⟨0, ?_, ?_, ?_, ?_, ?_, ?_⟩ <;> simp [hM.e_eq, hf1]; omega
  · omega

end Verif.SegP
