import Verif.Model.LazySegtree
import Verif.Proof.LazyView
import Verif.Proof.Segtree
/-! The lazy segment tree refines a plain list. -/
namespace Verif.LazyP
open Res Model Spec
open SegP (leaf leaf_prod leaf_prod' leaf_prod'' rangeProd_ge and_one_ne pow_bitLen)

variable {S F : Type} [Monoid S] {M : MapOps S F}

/-- The arrays of `t` are given by the view `v`. -/
structure Is (t : LazySegtree S F) (n L : ℕ) (v : View S F) : Prop where
  n : t.n = n
  size : t.size = 2 ^ L
  log : t.log = L
  dlen : t.d.length = 2 * 2 ^ L
  zlen : t.lz.length = 2 ^ L
  d : ∀ k, k < 2 * 2 ^ L → t.d[k]? = some (v.D k)
  z : ∀ k, k < 2 ^ L → t.lz[k]? = some (v.Z k)

theorem get_set {α : Type} {l : List α} {g : ℕ → α} {k m : ℕ} {x : α} (hl : l.length = m)
    (hk : k < m) (h : ∀ i, i < m → l[i]? = some (g i)) :
    ∀ i, i < m → (l.set k x)[i]? = some (Function.update g k x i) := by
  intro i hi
  by_cases e : i = k
  · subst e; rw [List.getElem?_set_self (by omega)]; simp
  · rw [List.getElem?_set_ne (Ne.symm e), h i hi, Function.update_of_ne e]

section steps
variable {t : LazySegtree S F} {n L : ℕ} {v : View S F}

theorem Is.setD (h : Is t n L v) {k : ℕ} {x : S} (hk : k < 2 * 2 ^ L) :
    Is { t with d := t.d.set k x } n L { v with D := Function.update v.D k x } :=
  ⟨h.n, h.size, h.log, by simp [h.dlen], h.zlen, get_set h.dlen hk h.d, h.z⟩

theorem Is.setZ (h : Is t n L v) {k : ℕ} {x : F} (hk : k < 2 ^ L) :
    Is { t with lz := t.lz.set k x } n L { v with Z := Function.update v.Z k x } :=
  ⟨h.n, h.size, h.log, h.dlen, by simp [h.zlen], h.d, get_set h.zlen hk h.z⟩

theorem allApply_is (h : Is t n L v) {k : ℕ} {f : F} (hk : k < 2 * 2 ^ L) :
    Sat (t.allApply M k f) (fun t' => Is t' n L (applyV M (2 ^ L) v k f)) := by
  unfold LazySegtree.allApply
  simp only [MapOps.ops_op, MapOps.ops_mapping, MapOps.ops_comp, sat_bind, sat_idx, sat_upd, sat_ok]
  refine ⟨_, h.d k hk, by rw [h.dlen]; exact hk, ?_⟩
  have h1 := h.setD (x := M.mapping f (v.D k)) hk
  rw [sat_ite]
  constructor
  · intro hlt
    have hlt' : k < 2 ^ L := by have := h.size; omega
    simp only [MapOps.ops_op, MapOps.ops_mapping, MapOps.ops_comp, sat_bind, sat_idx, sat_upd, sat_ok]
    refine ⟨_, h1.z k hlt', by rw [h.zlen]; exact hlt', ?_⟩
    have := h1.setZ (x := M.comp f (v.Z k)) hlt'
    simpa [applyV, hlt'] using this
  · intro hlt
    have hlt' : ¬ k < 2 ^ L := by have := h.size; omega
    simp only [sat_ok]
    simpa [applyV, hlt'] using h1

theorem push_is (h : Is t n L v) {k : ℕ} (h0 : 0 < k) (hk : k < 2 ^ L) :
    Sat (t.push M k) (fun t' => Is t' n L (pushV M (2 ^ L) v k)) := by
  unfold LazySegtree.push
  simp only [sat_bind, sat_idx, sat_upd]
  refine ⟨_, h.z k hk, ?_⟩
  refine (allApply_is (M := M) h (k := 2 * k) (f := v.Z k) (by omega)).mono ?_
  intro t1 h1
  refine ⟨_, h1.z k hk, ?_⟩
  rw [applyV_Z_ne (by omega)]
  refine (allApply_is (M := M) h1 (k := 2 * k + 1) (f := v.Z k) (by omega)).mono ?_
  intro t2 h2
  refine ⟨by rw [h2.zlen]; exact hk, ?_⟩
  simp only [sat_ok]
  exact h2.setZ hk

theorem update_is (h : Is t n L v) {k : ℕ} (hk : k < 2 ^ L) :
    Sat (t.update M k) (fun t' => Is t' n L (updateV M v k)) := by
  unfold LazySegtree.update
  simp only [MapOps.ops_op, MapOps.ops_mapping, MapOps.ops_comp, sat_bind, sat_idx, sat_upd, sat_ok]
  refine ⟨_, h.d _ (by omega), _, h.d _ (by omega), by rw [h.dlen]; omega, ?_⟩
  exact h.setD (by omega)

end steps

/-- Working state: the leaves hold `c`, all nodes outside `Bad` are consistent, the nodes in `P` have
no pending map. -/
def W (M : MapOps S F) (t : LazySegtree S F) (n L : ℕ) (c : ℕ → S) (Bad P : ℕ → ℕ → Prop) : Prop :=
  ∃ v, Is t n L v ∧ (∀ i, 2 ^ L ≤ i → i < 2 * 2 ^ L → V M v L i = c i) ∧
    (∀ s x, Lvl (2 ^ L) s x → ¬ Bad s x → NI M v s x) ∧
    (∀ s x, Lvl (2 ^ L) s x → P s x → v.Z x = M.idMap)

abbrev none2 : ℕ → ℕ → Prop := fun _ _ => False

section W
variable {t : LazySegtree S F} {n L : ℕ} {c : ℕ → S} {Bad P : ℕ → ℕ → Prop}

theorem W.mono {Bad' P' : ℕ → ℕ → Prop} (h : W M t n L c Bad P)
    (hB : ∀ s x, Lvl (2 ^ L) s x → Bad s x → Bad' s x)
    (hP : ∀ s x, Lvl (2 ^ L) s x → P' s x → P s x) : W M t n L c Bad' P' := by
  obtain ⟨v, h1, h2, h3, h4⟩ := h
  exact ⟨v, h1, h2, fun s x hx hb => h3 s x hx (fun hb' => hb (hB s x hx hb')),
    fun s x hx hp => h4 s x hx (hP s x hx hp)⟩

theorem W.congr {c' : ℕ → S} (h : W M t n L c Bad P)
    (hc : ∀ i, 2 ^ L ≤ i → i < 2 * 2 ^ L → c i = c' i) : W M t n L c' Bad P := by
  obtain ⟨v, h1, h2, h3, h4⟩ := h
  exact ⟨v, h1, fun i a b => (h2 i a b).trans (hc i a b), h3, h4⟩

theorem push_sat (hM : LawfulMap M) (h : W M t n L c none2 P) {i k : ℕ} (hi : 0 < i)
    (hk : Lvl (2 ^ L) i k) (hP : ∀ s x, P s x → i ≤ s) :
    Sat (t.push M k) (fun t' => W M t' n L c none2 (fun s x => P s x ∨ (s = i ∧ x = k))) := by
  obtain ⟨v, h1, h2, h3, h4⟩ := h
  obtain ⟨j, rfl⟩ : ∃ j, i = j + 1 := ⟨i - 1, by omega⟩
  refine (push_is h1 hk.pos (hk.lt_of_pos hi)).mono ?_
  intro t' h'
  obtain ⟨p1, p2, p3, p4⟩ := push_spec (v := v) hM hk (fun s x hx => h3 s x hx (fun h => h))
  refine ⟨_, h', ?_, fun s x hx _ => p1 s x hx, ?_⟩
  · intro i hi1 hi2
    rw [p2 L i hk.j_le (Nat.le_refl _) hi1 hi2, h2 i hi1 hi2]
  · rintro s x hx (hp | ⟨rfl, rfl⟩)
    · exact p4 s x (hP s x hp) hx (h4 s x hx hp)
    · exact p3

theorem update_sat (hM : LawfulMap M) (h : W M t n L c Bad P) {j k : ℕ}
    (hk : Lvl (2 ^ L) (j + 1) k) (hz : P (j + 1) k) (hl : ¬ Bad j (2 * k))
    (hr : ¬ Bad j (2 * k + 1)) :
    Sat (t.update M k) (fun t' => W M t' n L c (fun s x => Bad s x ∧ x ≠ k) P) := by
  obtain ⟨v, h1, h2, h3, h4⟩ := h
  refine (update_is h1 (hk.lt_of_pos (Nat.succ_pos j))).mono ?_
  intro t' h'
  refine ⟨_, h', ?_, ?_, fun s x hx hp => h4 s x hx hp⟩
  · intro i hi1 hi2
    rw [updateV_V hk hi1, h2 i hi1 hi2]
  · intro s x hx hb
    by_cases e : x = k
    · subst e
      have := hx.unique hk; subst this
      exact update_NI_self hM hk (h4 _ _ hk hz) (h3 _ _ hk.left hl) (h3 _ _ hk.right hr)
    · exact update_NI_ne hk hx e (h3 s x hx (fun hb' => hb ⟨hb', e⟩))

/-- The value stored at a node all of whose strict ancestors are clean. -/
theorem W.node (hM : LawfulMap M) (h : W M t n L c Bad P) {j k : ℕ} (hk : Lvl (2 ^ L) j k)
    (hb : ¬ Bad j k)
    (ha : ∀ s x, j < s → Lvl (2 ^ L) s x → x * 2 ^ s ≤ k * 2 ^ j →
      (k + 1) * 2 ^ j ≤ (x + 1) * 2 ^ s → P s x) :
    t.d[k]? = some (rprod c (k * 2 ^ j) ((k + 1) * 2 ^ j)) := by
  obtain ⟨v, h1, h2, h3, h4⟩ := h
  rw [h1.d k hk.k_le, h3 j k hk hb]
  congr 1
  apply rprod_congr
  intro i hi1 hi2
  have hk1 := hk.1
  have hk2 := hk.end_le
  rw [← h2 i (by omega) (by omega)]
  symm
  apply V_top hM hk.j_le
  intro s hs1 hs2
  have hx := Lvl.shift (i := s) (p := i) (L := L) (by omega) (by omega) hs2
  have hsh := anc hs1 hi1 hi2
  exact h4 s _ hx (ha s _ hs1 hx hsh.1 hsh.2)

theorem pushPath_sat (hM : LawfulMap M) (h : W M t n L c none2 none2) {p : ℕ} (h1 : 2 ^ L ≤ p)
    (h2 : p < 2 * 2 ^ L) :
    Sat (t.pushPath M p)
      (fun t' => W M t' n L c none2 (fun s x => 1 ≤ s ∧ x = p >>> s)) := by
  unfold LazySegtree.pushPath
  have hlog : t.log = L := by obtain ⟨v, h, _⟩ := h; exact h.log
  rw [hlog]
  refine forRangeRev_sat (I := fun i (t : LazySegtree S F) =>
    W M t n L c none2 (fun s x => i ≤ s ∧ x = p >>> s)) (by omega) ?_ ?_
  · apply h.mono (fun _ _ _ h => h)
    rintro s x hx ⟨hs, _⟩
    have := hx.j_le; omega
  · intro i t hi1 hi2 ht
    refine (push_sat hM ht (i := i) (k := p >>> i) (by omega) (Lvl.shift h1 h2 (by omega)) ?_).mono ?_
    · rintro s x ⟨h, _⟩; omega
    · intro t' ht'
      apply ht'.mono (fun _ _ _ h => h)
      rintro s x hx ⟨hs, rfl⟩
      rcases Nat.lt_or_ge i s with h | h
      · exact Or.inl ⟨h, rfl⟩
      · have : s = i := by omega
        subst this; exact Or.inr ⟨rfl, rfl⟩

theorem W.leaf_get (hM : LawfulMap M) {p : ℕ}
    (h : W M t n L c none2 (fun s x => 1 ≤ s ∧ x = p >>> s)) (h1 : 2 ^ L ≤ p)
    (h2 : p < 2 * 2 ^ L) : t.d[p]? = some (c p) := by
  have := h.node hM (j := 0) (k := p) ⟨by simpa using h1, by simpa using h2⟩ (fun h => h) ?_
  · simpa using this
  · intro s x hs hx hx1 hx2
    simp only [Nat.pow_zero, Nat.mul_one] at hx1 hx2
    exact ⟨hs, (shift_unique hx1 (by omega)).symm⟩

theorem setLeaf_sat (hM : LawfulMap M) {p : ℕ} {y : S}
    (h : W M t n L c none2 (fun s x => 1 ≤ s ∧ x = p >>> s)) (h1 : 2 ^ L ≤ p)
    (h2 : p < 2 * 2 ^ L) :
    Sat (LazySegtree.updatePath M { t with d := t.d.set p y } p)
      (fun t' => W M t' n L (Function.update c p y) none2 none2) := by
  unfold LazySegtree.updatePath
  have hlog : t.log = L := by obtain ⟨v, h, _⟩ := h; exact h.log
  refine (forRange_sat (I := fun i (t : LazySegtree S F) =>
    W M t n L (Function.update c p y) (fun s x => i ≤ s ∧ x = p >>> s)
      (fun s x => 1 ≤ s ∧ x = p >>> s)) (by simp) ?_ ?_).mono ?_
  · obtain ⟨v, g1, g2, g3, g4⟩ := h
    refine ⟨_, g1.setD h2, ?_, ?_, g4⟩
    · intro i hi1 hi2
      by_cases e : i = p
      · subst e
        rw [V_top hM (j := 0) (Nat.zero_le _)]
        · simp [V]
        · intro s hs1 hs2
          exact g4 s _ (Lvl.shift h1 h2 hs2) ⟨hs1, rfl⟩
      · rw [Function.update_of_ne e, ← g2 i hi1 hi2]
        exact V_congr (by simp [e]) (fun _ _ _ => rfl)
    · intro s x hx hb
      rcases Nat.eq_zero_or_pos s with rfl | hs
      · simp [NI, V]
      · have hne : x ≠ p >>> s := fun e => hb ⟨hs, e⟩
        apply NI_congr hx _ _ (g3 s x hx (fun h => h))
        · have : x ≠ p := by have := hx.lt_of_pos hs; omega
          simp [this]
        · intro i hi1 hi2 hi
          have : i ≠ p := by rintro rfl; exact hne hi.symm
          exact V_congr (by simp [this]) (fun _ _ _ => rfl)
  · intro i t' hi1 hi2 ht
    simp only [hlog] at hi2
    obtain ⟨j, rfl⟩ : ∃ j, i = j + 1 := ⟨i - 1, by omega⟩
    refine (update_sat hM ht (j := j) (k := p >>> (j + 1)) (Lvl.shift h1 h2 (by omega))
      ⟨hi1, rfl⟩ (by rintro ⟨h, _⟩; omega) (by rintro ⟨h, _⟩; omega)).mono ?_
    intro t' ht'
    apply ht'.mono _ (fun _ _ _ h => h)
    rintro s x hx ⟨⟨hs, rfl⟩, hne⟩
    refine ⟨?_, rfl⟩
    apply Nat.lt_of_le_of_ne hs
    rintro rfl; exact hne rfl
  · intro t' ht'
    apply ht'.mono _ (fun _ _ _ h => h.elim)
    rintro s x hx ⟨hs, _⟩
    simp only [hlog] at hs
    have := hx.j_le; omega

end W

/-- The lazy segment tree `t` represents the plain list `a`. -/
def Rep (M : MapOps S F) (t : LazySegtree S F) (a : List S) : Prop :=
  ∃ L, (L ≤ 32 ∧ L = bitLen (a.length - 1)) ∧ a.length ≤ 2 ^ L ∧ W M t a.length L (leaf (2 ^ L) a) none2 none2

theorem leaf_at {N : ℕ} {a : List S} {p : ℕ} (hp : p < a.length) : leaf N a (p + N) = a[p] := by
  unfold leaf
  rw [if_neg (by omega), Nat.add_sub_cancel]
  simp [hp]

theorem W.dims {t : LazySegtree S F} {n L : ℕ} {c : ℕ → S} {Bad P : ℕ → ℕ → Prop}
    (h : W M t n L c Bad P) : t.n = n ∧ t.size = 2 ^ L ∧ t.log = L := by
  obtain ⟨v, h, _⟩ := h; exact ⟨h.n, h.size, h.log⟩

theorem Rep.n {t : LazySegtree S F} {a : List S} (h : Rep M t a) : t.n = a.length := by
  obtain ⟨L, _, _, h⟩ := h; exact h.dims.1

theorem from_sat (hM : LawfulMap M) {a : List S} (hn : a.length < 2 ^ 32) :
    Sat (LazySegtree.from M a) (fun t => Rep M t a) := by
  unfold LazySegtree.from
  have hlog : bitLen (a.length - 1) ≤ 32 := bitLen_le_iff.2 (by omega)
  simp only [Nat.mod_eq_of_lt hn, ceilLg_eq hn, ok_bind, Nat.one_shiftLeft]
  have hle := pow_bitLen (n := a.length)
  generalize hL : bitLen (a.length - 1) = L at *
  have hws : writeSlice (List.replicate (2 * 2 ^ L) M.e) (2 ^ L) a =
      .ok (List.replicate (2 ^ L) M.e ++ a ++ List.replicate (2 ^ L - a.length) M.e) := by
    unfold writeSlice
    rw [if_pos (by simp; omega)]
    rw [List.take_replicate, List.drop_replicate]
    rw [show min (2 ^ L) (2 * 2 ^ L) = 2 ^ L by omega,
      show 2 * 2 ^ L - (2 ^ L + a.length) = 2 ^ L - a.length by omega]
  rw [hws, ok_bind]
  refine (forRangeRev_sat (I := fun i (t : LazySegtree S F) =>
      W M t a.length L (leaf (2 ^ L) a) (fun s x => 1 ≤ s ∧ x < i) (fun _ _ => True))
      (Nat.one_le_two_pow) ?_ ?_).mono ?_
  · refine ⟨⟨leaf (2 ^ L) a, fun _ => M.idMap⟩, ⟨rfl, rfl, rfl, by simp; omega, by simp, ?_, ?_⟩,
      ?_, ?_, fun _ _ _ _ => rfl⟩
    · intro k hk
      unfold leaf
      simp only
      split
      · rw [List.append_assoc, List.getElem?_append_left (by simpa), List.getElem?_replicate,
          if_pos (by assumption), hM.e_eq]
      · rename_i h'
        rw [List.append_assoc, List.getElem?_append_right (by simp; omega)]
        simp only [List.length_replicate]
        by_cases h : k - 2 ^ L < a.length
        · rw [List.getElem?_append_left h]
          simp [h]
        · rw [List.getElem?_append_right (by omega), List.getElem?_replicate, if_pos (by omega)]
          simp [List.getElem?_eq_none (show a.length ≤ k - 2 ^ L by omega), hM.e_eq]
    · intro k hk
      simp [hk]
    · intro i hi1 hi2
      rw [V_top hM (j := 0) (Nat.zero_le _) (fun _ _ _ => rfl)]; rfl
    · intro s x hx hb
      have hs : s = 0 := by
        apply Classical.byContradiction; intro hs
        exact hb ⟨by omega, hx.lt_of_pos (by omega)⟩
      subst hs
      simp [NI, V]
  · intro i t hi1 hi2 ht
    obtain ⟨j, hlv⟩ := Lvl.exists_succ hi1 hi2
    refine (update_sat hM ht hlv trivial (by rintro ⟨_, h⟩; omega)
      (by rintro ⟨_, h⟩; omega)).mono ?_
    intro t' ht'
    apply ht'.mono _ (fun _ _ _ h => h)
    rintro s x hx ⟨⟨hs, hlt⟩, hne⟩
    exact ⟨hs, by omega⟩
  · intro t ht
    refine ⟨L, ⟨hlog, hL.symm⟩, hle, ht.mono ?_ (fun _ _ _ h => h.elim)⟩
    rintro s x hx ⟨_, h⟩
    have := hx.pos; omega

theorem get_sat (hM : LawfulMap M) {t : LazySegtree S F} {a : List S} (hr : Rep M t a) {p : ℕ}
    (hp : p < a.length) : Sat (t.get M p) (fun o => Rep M o.1 a ∧ o.2 = a[p]) := by
  unfold LazySegtree.get
  obtain ⟨L, hL, hle, hw⟩ := hr
  obtain ⟨d1, d2, d3⟩ := hw.dims
  rw [assert_true (by rw [d1]; exact hp), ok_bind, d2]
  simp only [sat_bind, sat_idx, sat_ok]
  refine (pushPath_sat hM hw (p := p + 2 ^ L) (by omega) (by omega)).mono ?_
  intro t' ht'
  refine ⟨_, ht'.leaf_get hM (by omega) (by omega), ⟨L, hL, hle, ht'.mono (fun _ _ _ h => h)
    (fun _ _ _ h => h.elim)⟩, leaf_at hp⟩

theorem leaf_set_eq {N : ℕ} {a : List S} {p : ℕ} {x : S} (hp : p < a.length) :
    Function.update (leaf N a) (p + N) x = leaf N (a.set p x) := by
  funext i
  by_cases e : i = p + N
  · subst e
    rw [Function.update_self, leaf_at (by simpa using hp)]; simp
  · rw [Function.update_of_ne e, SegP.leaf_set e]

theorem set_sat (hM : LawfulMap M) {t : LazySegtree S F} {a : List S} (hr : Rep M t a) {p : ℕ}
    {x : S} (hp : p < a.length) : Sat (t.set M p x) (fun t' => Rep M t' (a.set p x)) := by
  unfold LazySegtree.set
  obtain ⟨L, hL, hle, hw⟩ := hr
  obtain ⟨d1, d2, d3⟩ := hw.dims
  rw [assert_true (by rw [d1]; exact hp), ok_bind, d2]
  simp only [sat_bind, sat_upd]
  refine (pushPath_sat hM hw (p := p + 2 ^ L) (by omega) (by omega)).mono ?_
  intro t' ht'
  refine ⟨by obtain ⟨v, h, _⟩ := ht'; rw [h.dlen]; omega, ?_⟩
  refine (setLeaf_sat hM (y := x) ht' (by omega) (by omega)).mono ?_
  intro t'' h
  refine ⟨L, by simpa using hL, by simpa using hle, ?_⟩
  rw [leaf_set_eq hp] at h
  simpa using h

theorem apply_sat (hM : LawfulMap M) {t : LazySegtree S F} {a : List S} (hr : Rep M t a) {p : ℕ}
    {f : F} (hp : p < a.length) :
    Sat (t.apply M p f) (fun t' => Rep M t' (a.set p (M.mapping f a[p]))) := by
  unfold LazySegtree.apply
  obtain ⟨L, hL, hle, hw⟩ := hr
  obtain ⟨d1, d2, d3⟩ := hw.dims
  rw [assert_true (by rw [d1]; exact hp), ok_bind, d2]
  simp only [MapOps.ops_op, MapOps.ops_mapping, MapOps.ops_comp, sat_bind, sat_upd, sat_idx, sat_ok]
  refine (pushPath_sat hM hw (p := p + 2 ^ L) (by omega) (by omega)).mono ?_
  intro t' ht'
  refine ⟨_, ht'.leaf_get hM (by omega) (by omega), ?_⟩
  rw [leaf_at hp]
  refine ⟨by obtain ⟨v, h, _⟩ := ht'; rw [h.dlen]; omega, ?_⟩
  refine (setLeaf_sat hM (y := M.mapping f a[p]) ht' (by omega) (by omega)).mono ?_
  intro t'' h
  refine ⟨L, by simpa using hL, by simpa using hle, ?_⟩
  rw [leaf_set_eq hp] at h
  simpa using h

theorem allProd_sat (hM : LawfulMap M) {t : LazySegtree S F} {a : List S} (hr : Rep M t a) :
    t.allProd = .ok a.prod := by
  unfold LazySegtree.allProd
  obtain ⟨L, hL, hle, hw⟩ := hr
  apply idx_of_some
  have hp := Nat.two_pow_pos L
  have := hw.node hM (j := L) (k := 1) ⟨by omega, by omega⟩ (fun h => h) ?_
  · rw [this, show 1 * 2 ^ L = 0 + 2 ^ L by omega, show (1 + 1) * 2 ^ L = 2 ^ L + 2 ^ L by omega,
      leaf_prod, rangeProd_ge hle]
    simp [rangeProd]
  · intro s x hs hx
    have := hx.j_le; omega

end Verif.LazyP
