import Verif.Proof.LazySegtree
import Verif.Proof.LazyFitView
/-! The lazy segment tree with operations that return only if the result fits. -/
namespace Verif.LazyF
open Res Model Spec LazyP
open SegP (leaf leaf_prod leaf_prod' leaf_prod'' rangeProd_ge and_one_ne pow_bitLen)

variable {S F : Type} [Monoid S] {M : MapOps S F} {Fits : S → Prop} {FitsF : F → Prop} {C : MapMonoidOps S F}

/-- `C` agrees with `M` where the result fits. -/
structure Chk (M : MapOps S F) (Fits : S → Prop) (FitsF : F → Prop) (C : MapMonoidOps S F) : Prop where
  e : C.e = M.e
  idMap : C.idMap = M.idMap
  op : ∀ a b, Fits (M.op a b) → C.op a b = ok (M.op a b)
  mapping : ∀ f x, Fits (M.mapping f x) → C.mapping f x = ok (M.mapping f x)
  comp : ∀ f g, FitsF (M.comp f g) → C.comp f g = ok (M.comp f g)

/-- The products of ranges of leaves fit. -/
def FC (Fits : S → Prop) (L : ℕ) (c : ℕ → S) : Prop :=
  ∀ lo hi, 2 ^ L ≤ lo → lo ≤ hi → hi ≤ 2 * 2 ^ L → Fits (rprod c lo hi)

/-- The compositions of the latest maps on a leaf fit. -/
def FH (M : MapOps S F) (FitsF : F → Prop) (L : ℕ) (h : ℕ → List F) : Prop :=
  ∀ i, 2 ^ L ≤ i → i < 2 * 2 ^ L → ∀ r, FitsF (compAll M ((h i).take r))

/-- The pending maps above a leaf compose to the latest maps applied to it. -/
def HK (M : MapOps S F) (v : View S F) (L : ℕ) (h : ℕ → List F) : Prop :=
  ∀ i, 2 ^ L ≤ i → i < 2 * 2 ^ L → ∀ s, s ≤ L → ∃ r, K M v i s (L - s) = compAll M ((h i).take r)

section steps
variable {t : LazySegtree S F} {n L : ℕ} {v : View S F}

theorem allApply_is (hC : Chk M Fits FitsF C) (h : Is t n L v) {k : ℕ} {f : F} (hk : k < 2 * 2 ^ L)
    (f1 : Fits (M.mapping f (v.D k))) (f2 : k < 2 ^ L → FitsF (M.comp f (v.Z k))) :
    Sat (t.allApply C k f) (fun t' => Is t' n L (applyV M (2 ^ L) v k f)) := by
  unfold LazySegtree.allApply
  simp only [sat_bind, sat_idx, sat_upd]
  refine ⟨_, h.d k hk, ?_⟩
  rw [hC.mapping _ _ f1, sat_ok]
  refine ⟨by rw [h.dlen]; exact hk, ?_⟩
  have h1 := h.setD (x := M.mapping f (v.D k)) hk
  rw [sat_ite]
  constructor
  · intro hlt
    have hlt' : k < 2 ^ L := by have := h.size; omega
    simp only [sat_bind, sat_idx, sat_upd, sat_ok]
    refine ⟨_, h1.z k hlt', ?_⟩
    rw [hC.comp _ _ (f2 hlt'), sat_ok]
    refine ⟨by rw [h.zlen]; exact hlt', ?_⟩
    have := h1.setZ (x := M.comp f (v.Z k)) hlt'
    simpa [applyV, hlt'] using this
  · intro hlt
    have hlt' : ¬ k < 2 ^ L := by have := h.size; omega
    simp only [sat_ok]
    simpa [applyV, hlt'] using h1

theorem push_is (hC : Chk M Fits FitsF C) (h : Is t n L v) {k : ℕ} (h0 : 0 < k) (hk : k < 2 ^ L)
    (f1 : Fits (M.mapping (v.Z k) (v.D (2 * k)))) (f2 : Fits (M.mapping (v.Z k) (v.D (2 * k + 1))))
    (f3 : 2 * k < 2 ^ L → FitsF (M.comp (v.Z k) (v.Z (2 * k))))
    (f4 : 2 * k + 1 < 2 ^ L → FitsF (M.comp (v.Z k) (v.Z (2 * k + 1)))) :
    Sat (t.push C k) (fun t' => Is t' n L (pushV M (2 ^ L) v k)) := by
  unfold LazySegtree.push
  simp only [sat_bind, sat_idx, sat_upd]
  refine ⟨_, h.z k hk, ?_⟩
  refine (allApply_is hC h (k := 2 * k) (f := v.Z k) (by omega) f1 f3).mono ?_
  intro t1 h1
  refine ⟨_, h1.z k hk, ?_⟩
  rw [LazyP.applyV_Z_ne (by omega)]
  refine (allApply_is hC h1 (k := 2 * k + 1) (f := v.Z k) (by omega) ?_ ?_).mono ?_
  · rw [applyV_D_ne (by omega)]; exact f2
  · rw [applyV_Z_ne (by omega)]; exact f4
  intro t2 h2
  refine ⟨by rw [h2.zlen]; exact hk, ?_⟩
  simp only [sat_ok, hC.idMap]
  exact h2.setZ hk

theorem update_is (hC : Chk M Fits FitsF C) (h : Is t n L v) {k : ℕ} (hk : k < 2 ^ L)
    (f1 : Fits (M.op (v.D (2 * k)) (v.D (2 * k + 1)))) :
    Sat (t.update C k) (fun t' => Is t' n L (updateV M v k)) := by
  unfold LazySegtree.update
  simp only [sat_bind, sat_idx, sat_upd]
  refine ⟨_, h.d _ (by omega), _, h.d _ (by omega), ?_⟩
  rw [hC.op _ _ f1, sat_ok]
  simp only [sat_ok]
  refine ⟨by rw [h.dlen]; omega, ?_⟩
  exact h.setD (by omega)

/-- The value at a consistent node all of whose strict ancestors are clean. -/
theorem nodeV (hM : LawfulMap M) {c : ℕ → S} (h2 : ∀ i, 2 ^ L ≤ i → i < 2 * 2 ^ L → V M v L i = c i) {j k : ℕ}
    (hk : Lvl (2 ^ L) j k) (h3 : NI M v j k)
    (ha : ∀ s x, j < s → Lvl (2 ^ L) s x → x * 2 ^ s ≤ k * 2 ^ j → (k + 1) * 2 ^ j ≤ (x + 1) * 2 ^ s →
      v.Z x = M.idMap) : v.D k = rprod c (k * 2 ^ j) ((k + 1) * 2 ^ j) := by
  rw [h3]
  apply rprod_congr
  intro i hi1 hi2
  have hk1 := hk.1
  have hk2 := hk.end_le
  rw [← h2 i (by omega) (by omega)]
  symm
  apply V_top hM hk.j_le
  intro s hs1 hs2
  have hx := Lvl.shift (i := s) (p := i) (L := L) (by omega) (by omega) hs2
  have hsh := anc hs1 hi1 hi2
  exact ha s _ hs1 hx hsh.1 hsh.2

end steps

/-- Working state: the leaves hold `c`, all nodes outside `Bad` are consistent, the nodes in `P` have
no pending map, and the pending maps are explained by the logs `h`. -/
def W (M : MapOps S F) (t : LazySegtree S F) (n L : ℕ) (c : ℕ → S) (h : ℕ → List F) (Bad P : ℕ → ℕ → Prop) : Prop :=
  ∃ v, Is t n L v ∧ (∀ i, 2 ^ L ≤ i → i < 2 * 2 ^ L → V M v L i = c i) ∧
    (∀ s x, Lvl (2 ^ L) s x → ¬ Bad s x → NI M v s x) ∧
    (∀ s x, Lvl (2 ^ L) s x → P s x → v.Z x = M.idMap) ∧ HK M v L h

section W
variable {t : LazySegtree S F} {n L : ℕ} {c : ℕ → S} {h : ℕ → List F} {Bad P : ℕ → ℕ → Prop}

theorem W.mono {Bad' P' : ℕ → ℕ → Prop} (w : W M t n L c h Bad P)
    (hB : ∀ s x, Lvl (2 ^ L) s x → Bad s x → Bad' s x)
    (hP : ∀ s x, Lvl (2 ^ L) s x → P' s x → P s x) : W M t n L c h Bad' P' := by
  obtain ⟨v, h1, h2, h3, h4, h5⟩ := w
  exact ⟨v, h1, h2, fun s x hx hb => h3 s x hx (fun hb' => hb (hB s x hx hb')),
    fun s x hx hp => h4 s x hx (hP s x hx hp), h5⟩

theorem W.congr {c' : ℕ → S} {h' : ℕ → List F} (w : W M t n L c h Bad P)
    (hc : ∀ i, 2 ^ L ≤ i → i < 2 * 2 ^ L → c i = c' i) (hh : ∀ i, 2 ^ L ≤ i → i < 2 * 2 ^ L → h i = h' i) :
    W M t n L c' h' Bad P := by
  obtain ⟨v, h1, h2, h3, h4, h5⟩ := w
  exact ⟨v, h1, fun i a b => (h2 i a b).trans (hc i a b), h3, h4, fun i a b => hh i a b ▸ h5 i a b⟩

/-- `(s, x)` is a strict ancestor of `(j, k)`. -/
def Anc (j k s x : ℕ) : Prop := j < s ∧ x * 2 ^ s ≤ k * 2 ^ j ∧ (k + 1) * 2 ^ j ≤ (x + 1) * 2 ^ s

theorem anc_child {j k y s x : ℕ} (hy : y = 2 * k ∨ y = 2 * k + 1) (h : Anc j y s x) :
    (s = j + 1 ∧ x = k) ∨ Anc (j + 1) k s x := by
  obtain ⟨hs, h1, h2⟩ := h
  have hp := Nat.two_pow_pos j
  have e : (y + 1) * 2 ^ j = y * 2 ^ j + 2 ^ j := by rw [Nat.add_mul, Nat.one_mul]
  have hx : (y * 2 ^ j) >>> s = x := shift_unique h1 (by omega)
  have b1 : k * 2 ^ (j + 1) ≤ y * 2 ^ j := by
    rw [← lc_start]; exact Nat.mul_le_mul_right _ (by omega)
  have b2 : y * 2 ^ j < (k + 1) * 2 ^ (j + 1) := by
    have : (y + 1) * 2 ^ j ≤ (k + 1) * 2 ^ (j + 1) := by
      rw [← rc_end]; exact Nat.mul_le_mul_right _ (by omega)
    omega
  rcases Nat.lt_or_ge (j + 1) s with h | h
  · right
    have := anc h b1 b2
    rw [hx] at this
    exact ⟨h, this⟩
  · left
    have : s = j + 1 := by omega
    subst this
    exact ⟨rfl, by rw [← hx]; exact shift_unique b1 b2⟩

theorem anc_shift {j k s i : ℕ} (hu : i >>> j = k) (hs : j < s) : Anc j k s (i >>> s) :=
  ⟨hs, anc hs (under_iff.1 hu).1 (under_iff.1 hu).2⟩

/-- The ancestors of the node at height `i` above leaf `p`. -/
theorem anc_path {p i s x : ℕ} (h : Anc i (p >>> i) s x) : x = p >>> s := by
  have hc := shift_contains p i
  exact (shift_unique (by have := h.2.1; omega) (by have := h.2.2; omega)).symm

/-- The composed map at a child of a node whose ancestors are clean fits. -/
theorem child_fits (hG : LawfulComp M) {v : View S F} (h5 : HK M v L h) (hh : FH M FitsF L h) {j k y : ℕ}
    (hk : Lvl (2 ^ L) (j + 1) k) (hy : y = 2 * k ∨ y = 2 * k + 1)
    (ha : ∀ s x, Lvl (2 ^ L) s x → Anc (j + 1) k s x → v.Z x = M.idMap) (hlt : y < 2 ^ L) :
    FitsF (M.comp (v.Z k) (v.Z y)) := by
  have hly : Lvl (2 ^ L) j y := by rcases hy with rfl | rfl; exacts [hk.left, hk.right]
  have hj := hly.j_pos hlt
  have hjL := hk.j_le
  have hp := Nat.two_pow_pos j
  have b1 := hly.1
  have b2 := hly.end_le
  have b3 : (y + 1) * 2 ^ j = y * 2 ^ j + 2 ^ j := by rw [Nat.add_mul, Nat.one_mul]
  have hu : (y * 2 ^ j) >>> j = y := shift_unique (Nat.le_refl _) (by omega)
  have hu2 : (y * 2 ^ j) >>> (j + 1) = k := child_parent (by rw [hu]; exact hy)
  obtain ⟨r, hr⟩ := h5 (y * 2 ^ j) b1 (by omega) (j - 1) (by omega)
  rw [show L - (j - 1) = 1 + (1 + (L - (j + 1))) by omega, K_add hG, K_one hG, show j - 1 + 1 = j by omega,
    K_add hG, K_one hG, hu, hu2, K_id hG, hG.id_left] at hr
  · rw [hr]; exact hh _ b1 (by omega) r
  · intro x x1 x2
    exact ha x _ (Lvl.shift b1 (by omega) (by omega)) (anc_shift hu2 x1)

theorem push_sat (hC : Chk M Fits FitsF C) (hM : LawfulMap M) (hG : LawfulComp M) (w : W M t n L c h none2 P)
    (hc : FC Fits L c) (hh : FH M FitsF L h) {i k : ℕ} (hi : 0 < i)
    (hk : Lvl (2 ^ L) i k) (hP : ∀ s x, P s x → i ≤ s) (ha : ∀ s x, Lvl (2 ^ L) s x → Anc i k s x → P s x) :
    Sat (t.push C k) (fun t' => W M t' n L c h none2 (fun s x => P s x ∨ (s = i ∧ x = k))) := by
  obtain ⟨v, h1, h2, h3, h4, h5⟩ := w
  obtain ⟨j, rfl⟩ : ∃ j, i = j + 1 := ⟨i - 1, by omega⟩
  obtain ⟨p1, p2, p3, p4⟩ := push_spec (v := v) hM hk (fun s x hx => h3 s x hx (fun h => h))
  have l2 : ∀ i, 2 ^ L ≤ i → i < 2 * 2 ^ L → V M (pushV M (2 ^ L) v k) L i = c i := by
    intro i hi1 hi2
    rw [p2 L i hk.j_le (Nat.le_refl _) hi1 hi2, h2 i hi1 hi2]
  have l4 : ∀ s x, Lvl (2 ^ L) s x → P s x ∨ (s = j + 1 ∧ x = k) → (pushV M (2 ^ L) v k).Z x = M.idMap := by
    rintro s x hx (hp | ⟨rfl, rfl⟩)
    · exact p4 s x (hP s x hp) hx (h4 s x hx hp)
    · exact p3
  have hD : ∀ y, y = 2 * k ∨ y = 2 * k + 1 → Fits (M.mapping (v.Z k) (v.D y)) := by
    intro y hy
    have hly : Lvl (2 ^ L) j y := by rcases hy with rfl | rfl; exacts [hk.left, hk.right]
    have hn := nodeV hM l2 hly (p1 j y hly) (fun s x hs hx hx1 hx2 => l4 s x hx (by
      rcases anc_child hy ⟨hs, hx1, hx2⟩ with e | e
      · exact .inr e
      · exact .inl (ha s x hx e)))
    have he : (pushV M (2 ^ L) v k).D y = M.mapping (v.Z k) (v.D y) := by
      unfold pushV applyV
      rcases hy with rfl | rfl
      · simp
      · simp
    rw [← he, hn]
    have hp := Nat.two_pow_pos j
    have b3 : (y + 1) * 2 ^ j = y * 2 ^ j + 2 ^ j := by rw [Nat.add_mul, Nat.one_mul]
    exact hc _ _ hly.1 (by omega) hly.end_le
  have hZ : ∀ y, y = 2 * k ∨ y = 2 * k + 1 → y < 2 ^ L → FitsF (M.comp (v.Z k) (v.Z y)) := fun y hy =>
    child_fits hG h5 hh hk hy fun s x hx e => h4 s x hx (ha s x hx e)
  refine (push_is hC h1 hk.pos (hk.lt_of_pos hi) (hD _ (.inl rfl)) (hD _ (.inr rfl)) (hZ _ (.inl rfl))
    (hZ _ (.inr rfl))).mono ?_
  intro t' h'
  refine ⟨_, h', l2, fun s x hx _ => p1 s x hx, l4, ?_⟩
  intro i i1 i2 s hs
  obtain ⟨s', hs', e⟩ := push_K (v := v) hG hk i1 i2 hs
  rw [e]
  exact h5 i i1 i2 s' hs'

theorem update_sat (hC : Chk M Fits FitsF C) (hM : LawfulMap M) (w : W M t n L c h Bad P) (hc : FC Fits L c) {j k : ℕ}
    (hk : Lvl (2 ^ L) (j + 1) k) (hz : P (j + 1) k) (ha : ∀ s x, Lvl (2 ^ L) s x → Anc (j + 1) k s x → P s x)
    (hl : ¬ Bad j (2 * k)) (hr : ¬ Bad j (2 * k + 1)) :
    Sat (t.update C k) (fun t' => W M t' n L c h (fun s x => Bad s x ∧ x ≠ k) P) := by
  obtain ⟨v, h1, h2, h3, h4, h5⟩ := w
  have l2 : ∀ i, 2 ^ L ≤ i → i < 2 * 2 ^ L → V M (updateV M v k) L i = c i := by
    intro i hi1 hi2
    rw [updateV_V hk hi1, h2 i hi1 hi2]
  have hn := update_NI_self hM hk (h4 _ _ hk hz) (h3 _ _ hk.left hl) (h3 _ _ hk.right hr)
  have hfit : Fits (M.op (v.D (2 * k)) (v.D (2 * k + 1))) := by
    have := nodeV hM l2 hk hn (fun s x hs hx hx1 hx2 => h4 s x hx (ha s x hx ⟨hs, hx1, hx2⟩))
    have he : (updateV M v k).D k = M.op (v.D (2 * k)) (v.D (2 * k + 1)) := by simp [updateV]
    rw [← he, this]
    have hp := Nat.two_pow_pos (j + 1)
    have b3 : (k + 1) * 2 ^ (j + 1) = k * 2 ^ (j + 1) + 2 ^ (j + 1) := by rw [Nat.add_mul, Nat.one_mul]
    exact hc _ _ hk.1 (by omega) hk.end_le
  refine (update_is hC h1 (hk.lt_of_pos (Nat.succ_pos j)) hfit).mono ?_
  intro t' h'
  refine ⟨_, h', l2, ?_, fun s x hx hp => h4 s x hx hp, fun i i1 i2 s hs => ?_⟩
  rotate_left
  · rw [K_congr (v := updateV M v k) (w := v) fun _ _ _ => rfl]; exact h5 i i1 i2 s hs
  intro s x hx hb
  by_cases e : x = k
  · subst e
    have := hx.unique hk; subst this
    exact hn
  · exact update_NI_ne hk hx e (h3 s x hx (fun hb' => hb ⟨hb', e⟩))

/-- The value stored at a node all of whose strict ancestors are clean. -/
theorem W.node (hM : LawfulMap M) (w : W M t n L c h Bad P) {j k : ℕ} (hk : Lvl (2 ^ L) j k)
    (hb : ¬ Bad j k)
    (ha : ∀ s x, j < s → Lvl (2 ^ L) s x → x * 2 ^ s ≤ k * 2 ^ j →
      (k + 1) * 2 ^ j ≤ (x + 1) * 2 ^ s → P s x) :
    t.d[k]? = some (rprod c (k * 2 ^ j) ((k + 1) * 2 ^ j)) := by
  obtain ⟨v, h1, h2, h3, h4, h5⟩ := w
  rw [h1.d k hk.k_le, nodeV hM h2 hk (h3 j k hk hb) fun s x hs hx x1 x2 => h4 s x hx (ha s x hs hx x1 x2)]

theorem pushPath_sat (hC : Chk M Fits FitsF C) (hM : LawfulMap M) (hG : LawfulComp M)
    (w : W M t n L c h none2 none2) (hc : FC Fits L c) (hh : FH M FitsF L h) {p : ℕ} (h1 : 2 ^ L ≤ p)
    (h2 : p < 2 * 2 ^ L) :
    Sat (t.pushPath C p)
      (fun t' => W M t' n L c h none2 (fun s x => 1 ≤ s ∧ x = p >>> s)) := by
  unfold LazySegtree.pushPath
  have hlog : t.log = L := by obtain ⟨v, h, _⟩ := w; exact h.log
  rw [hlog]
  refine forRangeRev_sat (I := fun i (t : LazySegtree S F) =>
    W M t n L c h none2 (fun s x => i ≤ s ∧ x = p >>> s)) (by omega) ?_ ?_
  · apply w.mono (fun _ _ _ h => h)
    rintro s x hx ⟨hs, _⟩
    have := hx.j_le; omega
  · intro i t hi1 hi2 ht
    refine (push_sat hC hM hG ht hc hh (i := i) (k := p >>> i) (by omega) (Lvl.shift h1 h2 (by omega)) ?_ ?_).mono ?_
    · rintro s x ⟨h, _⟩; omega
    · intro s x hx e
      exact ⟨e.1, anc_path e⟩
    · intro t' ht'
      apply ht'.mono (fun _ _ _ h => h)
      rintro s x hx ⟨hs, rfl⟩
      rcases Nat.lt_or_ge i s with h | h
      · exact Or.inl ⟨h, rfl⟩
      · have : s = i := by omega
        subst this; exact Or.inr ⟨rfl, rfl⟩

theorem W.leaf_get (hM : LawfulMap M) {p : ℕ}
    (w : W M t n L c h none2 (fun s x => 1 ≤ s ∧ x = p >>> s)) (h1 : 2 ^ L ≤ p)
    (h2 : p < 2 * 2 ^ L) : t.d[p]? = some (c p) := by
  have := w.node hM (j := 0) (k := p) ⟨by simpa using h1, by simpa using h2⟩ (fun h => h) ?_
  · simpa using this
  · intro s x hs hx hx1 hx2
    simp only [Nat.pow_zero, Nat.mul_one] at hx1 hx2
    exact ⟨hs, (shift_unique hx1 (by omega)).symm⟩

theorem setLeaf_sat (hC : Chk M Fits FitsF C) (hM : LawfulMap M) (hG : LawfulComp M) {p : ℕ} {y : S} {g : List F}
    (w : W M t n L c h none2 (fun s x => 1 ≤ s ∧ x = p >>> s)) (hc : FC Fits L (Function.update c p y))
    (h1 : 2 ^ L ≤ p) (h2 : p < 2 * 2 ^ L) :
    Sat (LazySegtree.updatePath C { t with d := t.d.set p y } p)
      (fun t' => W M t' n L (Function.update c p y) (Function.update h p g) none2 none2) := by
  unfold LazySegtree.updatePath
  have hlog : t.log = L := by obtain ⟨v, h, _⟩ := w; exact h.log
  refine (forRange_sat (I := fun i (t : LazySegtree S F) =>
    W M t n L (Function.update c p y) (Function.update h p g) (fun s x => i ≤ s ∧ x = p >>> s)
      (fun s x => 1 ≤ s ∧ x = p >>> s)) (by simp) ?_ ?_).mono ?_
  · obtain ⟨v, g1, g2, g3, g4, g5⟩ := w
    refine ⟨_, g1.setD h2, ?_, ?_, g4, ?_⟩
    · intro i hi1 hi2
      by_cases e : i = p
      · subst e
        rw [V_top hM (j := 0) (Nat.zero_le _)]
        · simp [V]
        · intro s hs1 hs2
          exact g4 s _ (Lvl.shift h1 h2 hs2) ⟨hs1, rfl⟩
      · rw [Function.update_of_ne e, ← g2 i hi1 hi2]
        exact V_congr (by simp [e]) (fun _ _ _ => rfl)
    · intro s x hx hb
      rcases Nat.eq_zero_or_pos s with rfl | hs
      · simp [NI, V]
      · have hne : x ≠ p >>> s := fun e => hb ⟨hs, e⟩
        apply NI_congr hx _ _ (g3 s x hx (fun h => h))
        · have : x ≠ p := by have := hx.lt_of_pos hs; omega
          simp [this]
        · intro i hi1 hi2 hi
          have : i ≠ p := by rintro rfl; exact hne hi.symm
          exact V_congr (by simp [this]) (fun _ _ _ => rfl)
    · intro i hi1 hi2 s hs
      have hK : K M { v with D := Function.update v.D p y } i s (L - s) = K M v i s (L - s) :=
        K_congr fun _ _ _ => rfl
      rw [hK]
      by_cases e : i = p
      · subst e
        refine ⟨0, ?_⟩
        rw [K_id hG]
        · rfl
        · intro x x1 x2
          exact g4 x _ (Lvl.shift h1 h2 (by omega)) ⟨by omega, rfl⟩
      · rw [Function.update_of_ne e]
        exact g5 i hi1 hi2 s hs
  · intro i t' hi1 hi2 ht
    simp only [hlog] at hi2
    obtain ⟨j, rfl⟩ : ∃ j, i = j + 1 := ⟨i - 1, by omega⟩
    refine (update_sat hC hM ht hc (j := j) (k := p >>> (j + 1)) (Lvl.shift h1 h2 (by omega))
      ⟨hi1, rfl⟩ (fun s x _ e => ⟨by have := e.1; omega, anc_path e⟩)
      (by rintro ⟨h, _⟩; omega) (by rintro ⟨h, _⟩; omega)).mono ?_
    intro t' ht'
    apply ht'.mono _ (fun _ _ _ h => h)
    rintro s x hx ⟨⟨hs, rfl⟩, hne⟩
    refine ⟨?_, rfl⟩
    apply Nat.lt_of_le_of_ne hs
    rintro rfl; exact hne rfl
  · intro t' ht'
    apply ht'.mono _ (fun _ _ _ h => h.elim)
    rintro s x hx ⟨hs, _⟩
    simp only [hlog] at hs
    have := hx.j_le; omega

end W

/-- The logs of the leaves. -/
def leafL (N : ℕ) (h : List (List F)) (i : ℕ) : List F := if i < N then [] else h.getD (i - N) []

/-- The lazy segment tree `t` represents the plain list `a`, with the logs `h`. -/
def Rep (M : MapOps S F) (t : LazySegtree S F) (a : List S) (h : List (List F)) : Prop :=
  ∃ L, (L ≤ 32 ∧ L = bitLen (a.length - 1)) ∧ a.length ≤ 2 ^ L ∧ h.length = a.length ∧
    W M t a.length L (leaf (2 ^ L) a) (leafL (2 ^ L) h) none2 none2

theorem fc_of {a : List S} {h : List (List F)} (hf : Fine M Fits FitsF a h) {L : ℕ} (hle : a.length ≤ 2 ^ L) :
    FC Fits L (leaf (2 ^ L) a) := by
  intro lo hi h1 h2 h3
  obtain ⟨l, rfl⟩ : ∃ l, lo = l + 2 ^ L := ⟨lo - 2 ^ L, by omega⟩
  obtain ⟨r, rfl⟩ : ∃ r, hi = r + 2 ^ L := ⟨hi - 2 ^ L, by omega⟩
  rw [leaf_prod]
  rcases Nat.lt_or_ge a.length r with hr | hr
  · rw [rangeProd_ge (by omega)]
    rcases Nat.lt_or_ge a.length l with hl | hl
    · have : rangeProd a l a.length = rangeProd a a.length a.length := by
        unfold rangeProd
        rw [List.drop_of_length_le (by simp; omega), List.drop_of_length_le (by simp)]
      rw [this]
      exact hf.prods _ _ (Nat.le_refl _) (Nat.le_refl _)
    · exact hf.prods _ _ hl (Nat.le_refl _)
  · exact hf.prods _ _ (by omega) hr

theorem fh_of {a : List S} {h : List (List F)} (hf : Fine M Fits FitsF a h) {L : ℕ} : FH M FitsF L (leafL (2 ^ L) h) := by
  intro i _ _ r
  unfold leafL
  split
  · simpa [compAll] using hf.ident
  · rw [List.getD_eq_getElem?_getD]
    cases e : h[i - 2 ^ L]? with
    | none => simpa [compAll] using hf.ident
    | some x => exact hf.maps _ (List.mem_of_getElem? e) r

theorem W.dims {t : LazySegtree S F} {n L : ℕ} {c : ℕ → S} {h : ℕ → List F} {Bad P : ℕ → ℕ → Prop}
    (w : W M t n L c h Bad P) : t.n = n ∧ t.size = 2 ^ L ∧ t.log = L := by
  obtain ⟨v, h, _⟩ := w; exact ⟨h.n, h.size, h.log⟩

theorem from_sat (hC : Chk M Fits FitsF C) (hM : LawfulMap M) (hG : LawfulComp M) {a : List S} (hn : a.length < 2 ^ 32)
    (hf : Fine M Fits FitsF a (List.replicate a.length [])) :
    Sat (LazySegtree.from C a) (fun t => Rep M t a (List.replicate a.length [])) := by
  unfold LazySegtree.from
  have hlog : bitLen (a.length - 1) ≤ 32 := bitLen_le_iff.2 (by omega)
  simp only [Nat.mod_eq_of_lt hn, ceilLg_eq hn, ok_bind, Nat.one_shiftLeft, hC.e, hC.idMap]
  have hle := pow_bitLen (n := a.length)
  generalize hL : bitLen (a.length - 1) = L at *
  have hfc := fc_of hf hle
  have hws : writeSlice (List.replicate (2 * 2 ^ L) M.e) (2 ^ L) a =
      .ok (List.replicate (2 ^ L) M.e ++ a ++ List.replicate (2 ^ L - a.length) M.e) := by
    unfold writeSlice
    rw [if_pos (by simp; omega)]
    rw [List.take_replicate, List.drop_replicate]
    rw [show min (2 ^ L) (2 * 2 ^ L) = 2 ^ L by omega,
      show 2 * 2 ^ L - (2 ^ L + a.length) = 2 ^ L - a.length by omega]
  rw [hws, ok_bind]
  refine (forRangeRev_sat (I := fun i (t : LazySegtree S F) =>
      W M t a.length L (leaf (2 ^ L) a) (leafL (2 ^ L) (List.replicate a.length [])) (fun s x => 1 ≤ s ∧ x < i)
        (fun _ _ => True))
      (Nat.one_le_two_pow) ?_ ?_).mono ?_
  · refine ⟨⟨leaf (2 ^ L) a, fun _ => M.idMap⟩, ⟨rfl, rfl, rfl, by simp; omega, by simp, ?_, ?_⟩,
      ?_, ?_, fun _ _ _ _ => rfl, ?_⟩
    · intro k hk
      unfold leaf
      simp only
      split
      · rw [List.append_assoc, List.getElem?_append_left (by simpa), List.getElem?_replicate,
          if_pos (by assumption), hM.e_eq]
      · rename_i h'
        rw [List.append_assoc, List.getElem?_append_right (by simp; omega)]
        simp only [List.length_replicate]
        by_cases h : k - 2 ^ L < a.length
        · rw [List.getElem?_append_left h]
          simp [h]
        · rw [List.getElem?_append_right (by omega), List.getElem?_replicate, if_pos (by omega)]
          simp [List.getElem?_eq_none (show a.length ≤ k - 2 ^ L by omega), hM.e_eq]
    · intro k hk
      simp [hk]
    · intro i hi1 hi2
      rw [V_top hM (j := 0) (Nat.zero_le _) (fun _ _ _ => rfl)]; rfl
    · intro s x hx hb
      have hs : s = 0 := by
        apply Classical.byContradiction; intro hs
        exact hb ⟨by omega, hx.lt_of_pos (by omega)⟩
      subst hs
      simp [NI, V]
    · intro i _ _ s _
      exact ⟨0, by rw [K_id hG fun _ _ _ => rfl]; rfl⟩
  · intro i t hi1 hi2 ht
    obtain ⟨j, hlv⟩ := Lvl.exists_succ hi1 hi2
    refine (update_sat hC hM ht hfc hlv trivial (fun _ _ _ _ => trivial) (by rintro ⟨_, h⟩; omega)
      (by rintro ⟨_, h⟩; omega)).mono ?_
    intro t' ht'
    apply ht'.mono _ (fun _ _ _ h => h)
    rintro s x hx ⟨⟨hs, hlt⟩, hne⟩
    exact ⟨hs, by omega⟩
  · intro t ht
    refine ⟨L, ⟨hlog, hL.symm⟩, hle, by simp, ht.mono ?_ (fun _ _ _ h => h.elim)⟩
    rintro s x hx ⟨_, h⟩
    have := hx.pos; omega

section calls
variable {t : LazySegtree S F} {a : List S} {h : List (List F)}

theorem get_sat (hC : Chk M Fits FitsF C) (hM : LawfulMap M) (hG : LawfulComp M) (hf : Fine M Fits FitsF a h)
    (hr : Rep M t a h) {p : ℕ} (hp : p < a.length) :
    Sat (t.get C p) (fun o => Rep M o.1 a h ∧ o.2 = a[p]) := by
  unfold LazySegtree.get
  obtain ⟨L, hL, hle, hlen, hw⟩ := hr
  obtain ⟨d1, d2, d3⟩ := hw.dims
  rw [assert_true (by rw [d1]; exact hp), ok_bind, d2]
  simp only [sat_bind, sat_idx, sat_ok]
  refine (pushPath_sat hC hM hG hw (fc_of hf hle) (fh_of hf) (p := p + 2 ^ L) (by omega) (by omega)).mono ?_
  intro t' ht'
  refine ⟨_, ht'.leaf_get hM (by omega) (by omega), ⟨L, hL, hle, hlen, ht'.mono (fun _ _ _ h => h)
    (fun _ _ _ h => h.elim)⟩, leaf_at hp⟩

theorem leafL_set_eq {N : ℕ} {h : List (List F)} {p : ℕ} {x : List F} (hp : p < h.length) :
    Function.update (leafL N h) (p + N) x = leafL N (h.set p x) := by
  funext i
  unfold leafL
  by_cases e : i = p + N
  · subst e
    rw [Function.update_self, if_neg (by omega), Nat.add_sub_cancel]; simp [hp]
  · rw [Function.update_of_ne e]
    split
    · rfl
    · rw [List.getD_eq_getElem?_getD, List.getD_eq_getElem?_getD, List.getElem?_set_ne (by omega)]

theorem set_sat (hC : Chk M Fits FitsF C) (hM : LawfulMap M) (hG : LawfulComp M) (hf : Fine M Fits FitsF a h)
    (hr : Rep M t a h) {p : ℕ} {x : S} (hp : p < a.length) {g : List F}
    (hf' : Fine M Fits FitsF (a.set p x) (h.set p g)) :
    Sat (t.set C p x) (fun t' => Rep M t' (a.set p x) (h.set p g)) := by
  unfold LazySegtree.set
  obtain ⟨L, hL, hle, hlen, hw⟩ := hr
  obtain ⟨d1, d2, d3⟩ := hw.dims
  rw [assert_true (by rw [d1]; exact hp), ok_bind, d2]
  simp only [sat_bind, sat_upd]
  refine (pushPath_sat hC hM hG hw (fc_of hf hle) (fh_of hf) (p := p + 2 ^ L) (by omega) (by omega)).mono ?_
  intro t' ht'
  refine ⟨by obtain ⟨v, h, _⟩ := ht'; rw [h.dlen]; omega, ?_⟩
  refine (setLeaf_sat hC hM hG (y := x) (g := g) ht' ?_ (by omega) (by omega)).mono ?_
  · rw [leaf_set_eq hp]; exact fc_of hf' (by simpa using hle)
  intro t'' k
  refine ⟨L, by simpa using hL, by simpa using hle, by simpa using hlen, ?_⟩
  rw [leaf_set_eq hp, leafL_set_eq (by omega)] at k
  simpa using k

theorem apply_sat (hC : Chk M Fits FitsF C) (hM : LawfulMap M) (hG : LawfulComp M) (hf : Fine M Fits FitsF a h)
    (hr : Rep M t a h) {p : ℕ} {f : F} (hp : p < a.length) {g : List F}
    (hf' : Fine M Fits FitsF (a.set p (M.mapping f a[p])) (h.set p g)) :
    Sat (t.apply C p f) (fun t' => Rep M t' (a.set p (M.mapping f a[p])) (h.set p g)) := by
  unfold LazySegtree.apply
  obtain ⟨L, hL, hle, hlen, hw⟩ := hr
  obtain ⟨d1, d2, d3⟩ := hw.dims
  rw [assert_true (by rw [d1]; exact hp), ok_bind, d2]
  simp only [sat_bind, sat_upd, sat_idx]
  refine (pushPath_sat hC hM hG hw (fc_of hf hle) (fh_of hf) (p := p + 2 ^ L) (by omega) (by omega)).mono ?_
  intro t' ht'
  refine ⟨_, ht'.leaf_get hM (by omega) (by omega), ?_⟩
  have hfit : Fits (M.mapping f a[p]) := by
    have := fc_of hf' (L := L) (by simpa using hle) (p + 2 ^ L) (p + 2 ^ L + 1) (by omega) (by omega) (by omega)
    rw [← leaf_set_eq hp] at this
    simpa using this
  rw [leaf_at hp, hC.mapping _ _ hfit, sat_ok]
  refine ⟨by obtain ⟨v, h, _⟩ := ht'; rw [h.dlen]; omega, ?_⟩
  refine (setLeaf_sat hC hM hG (y := M.mapping f a[p]) (g := g) ht' ?_ (by omega) (by omega)).mono ?_
  · rw [leaf_set_eq hp]; exact fc_of hf' (by simpa using hle)
  intro t'' k
  refine ⟨L, by simpa using hL, by simpa using hle, by simpa using hlen, ?_⟩
  rw [leaf_set_eq hp, leafL_set_eq (by omega)] at k
  simpa using k

theorem allProd_sat (hM : LawfulMap M) (hr : Rep M t a h) : t.allProd = .ok a.prod := by
  unfold LazySegtree.allProd
  obtain ⟨L, hL, hle, hlen, hw⟩ := hr
  apply idx_of_some
  have hp := Nat.two_pow_pos L
  have := hw.node hM (j := L) (k := 1) ⟨by omega, by omega⟩ (fun h => h) ?_
  · rw [this, show 1 * 2 ^ L = 0 + 2 ^ L by omega, show (1 + 1) * 2 ^ L = 2 ^ L + 2 ^ L by omega,
      leaf_prod, rangeProd_ge hle]
    simp [rangeProd]
  · intro s x hs hx
    have := hx.j_le; omega

end calls

end Verif.LazyF
