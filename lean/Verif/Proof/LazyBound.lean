import Verif.Spec.LazyBound
import Verif.Proof.LazySim
/-! Bounds on the values in a lazy segment tree: the measure of a node plus the measures of the maps pending
at its ancestors is at most the bound of some leaf below it. -/
namespace Verif.LazyB
open Res Model Spec LazySim

/-- Measures of the maps pending at the strict ancestors of `y`. -/
def pend (z : Nat → Nat) (y : Nat) : Nat :=
  if h : y ≤ 1 then 0 else z (y / 2) + pend z (y / 2)
termination_by y
decreasing_by omega

theorem pend_low {z : Nat → Nat} {y : Nat} (h : y ≤ 1) : pend z y = 0 := by
  rw [pend, dif_pos h]

theorem pend_high {z : Nat → Nat} {y : Nat} (h : 2 ≤ y) : pend z y = z (y / 2) + pend z (y / 2) := by
  rw [pend, dif_neg (by omega)]

theorem pend_left {z : Nat → Nat} {k : Nat} (h : 1 ≤ k) : pend z (2 * k) = z k + pend z k := by
  rw [pend_high (by omega), show 2 * k / 2 = k by omega]

theorem pend_right {z : Nat → Nat} {k : Nat} (h : 1 ≤ k) : pend z (2 * k + 1) = z k + pend z k := by
  rw [pend_high (by omega), show (2 * k + 1) / 2 = k by omega]

theorem pend_le_left (z : Nat → Nat) (k : Nat) : pend z k ≤ pend z (2 * k) := by
  by_cases h : 1 ≤ k
  · rw [pend_left h]; omega
  · rw [pend_low (by omega)]; omega

theorem pend_le_right (z : Nat → Nat) (k : Nat) : pend z k ≤ pend z (2 * k + 1) := by
  by_cases h : 1 ≤ k
  · rw [pend_right h]; omega
  · rw [pend_low (by omega)]; omega

theorem pend_push {z z' : Nat → Nat} {k : Nat} (hk : 1 ≤ k) (h0 : z' k = 0) (hl : z' (2 * k) ≤ z (2 * k) + z k)
    (hr : z' (2 * k + 1) ≤ z (2 * k + 1) + z k) (ho : ∀ j, j ≠ k → j ≠ 2 * k → j ≠ 2 * k + 1 → z' j ≤ z j) (y : Nat) :
    pend z' y + (if y = 2 * k ∨ y = 2 * k + 1 then z k else 0) ≤ pend z y := by
  induction y using Nat.strongRecOn with
  | ind y ih =>
    by_cases hy : y ≤ 1
    · rw [pend_low hy, pend_low hy, if_neg (by omega)]
    · rw [pend_high (by omega), pend_high (z := z) (by omega)]
      have h1 := ih (y / 2) (by omega)
      by_cases e : y / 2 = k
      · rw [e] at h1 ⊢
        rw [if_neg (by omega)] at h1
        rw [if_pos (by omega), h0]
        omega
      · rw [if_neg (by omega)]
        by_cases e1 : y / 2 = 2 * k
        · rw [if_pos (Or.inl e1)] at h1
          rw [e1] at h1 ⊢
          omega
        · by_cases e2 : y / 2 = 2 * k + 1
          · rw [if_pos (Or.inr e2)] at h1
            rw [e2] at h1 ⊢
            omega
          · rw [if_neg (by omega)] at h1
            have := ho _ e e1 e2
            omega

/-- `y` is below `k` or equal to it. -/
def Desc (k y : Nat) : Prop := ∃ s, y / 2 ^ s = k

theorem desc_half {k y : Nat} (h : y ≠ k) : Desc k y ↔ Desc k (y / 2) := by
  constructor
  · rintro ⟨s, hs⟩
    cases s with
    | zero => simp at hs; exact absurd hs h
    | succ s => exact ⟨s, by rw [Nat.div_div_eq_div_mul, ← Nat.pow_succ']; exact hs⟩
  · rintro ⟨s, hs⟩
    exact ⟨s + 1, by rw [Nat.pow_succ', ← Nat.div_div_eq_div_mul]; exact hs⟩

theorem not_desc_half {k : Nat} (hk : 1 ≤ k) : ¬ Desc k (k / 2) := by
  rintro ⟨s, hs⟩
  have : k / 2 / 2 ^ s ≤ k / 2 := Nat.div_le_self _ _
  omega

theorem pend_apply {z z' : Nat → Nat} {k f : Nat} (hk : 1 ≤ k) (h0 : z' k ≤ z k + f)
    (ho : ∀ j, j ≠ k → z' j ≤ z j) (y : Nat) :
    pend z' y ≤ pend z y ∨ (Desc k (y / 2) ∧ pend z' y ≤ pend z y + f) := by
  induction y using Nat.strongRecOn with
  | ind y ih =>
    by_cases hy : y ≤ 1
    · rw [pend_low hy]; exact .inl (Nat.zero_le _)
    · rw [pend_high (by omega), pend_high (z := z) (by omega)]
      have h1 := ih (y / 2) (by omega)
      by_cases e : y / 2 = k
      · rw [e] at h1 ⊢
        rcases h1 with h1 | ⟨h1, -⟩
        · exact .inr ⟨⟨0, by simp⟩, by omega⟩
        · exact absurd h1 (not_desc_half hk)
      · have := ho _ e
        rcases h1 with h1 | ⟨h1, h2⟩
        · exact .inl (by omega)
        · exact .inr ⟨(desc_half e).2 h1, by omega⟩

section
variable {S A F G : Type} {RS : S → A → Prop} {RF : F → G → Prop} {R : MapMonoidOps S F} {M : MapOps A G}
  (norm : S → Nat) (fnorm : F → Nat) {B : Nat} {t : LazySegtree S F} {t' : LazySegtree A G}

/-- Measure of an entry. -/
def at' (l : List S) (k : Nat) : Nat := (l[k]?.map norm).getD 0

theorem at_some {l : List S} {k : Nat} {x : S} (h : l[k]? = some x) : at' norm l k = norm x := by
  simp [at', h]

theorem at_set (l : List S) (k : Nat) (x : S) (j : Nat) :
    at' norm (l.set k x) j = if j = k ∧ k < l.length then norm x else at' norm l j := by
  unfold at'
  rw [List.getElem?_set]
  by_cases e : k = j
  · subst e
    by_cases h : k < l.length
    · simp [h]
    · simp [h, Nat.le_of_not_lt h]
  · rw [if_neg e, if_neg (fun h => e h.1.symm)]

/-- Sizes of the arrays. -/
structure Dims (N Z : Nat) (t : LazySegtree S F) : Prop where
  d : t.d.length = 2 * t.size
  lz : t.lz.length = t.size
  pow : t.size = 2 ^ t.log
  n : t.n = N
  sz : t.size = Z

/-- Bounds: `B` for every node, the bound of a leaf below for the nodes outside `Bad`. -/
structure Pot (N Z B : Nat) (c : Nat → Nat) (Bad : Nat → Prop) (t : LazySegtree S F) : Prop where
  dims : Dims N Z t
  all : ∀ y, y < 2 * t.size → at' norm t.d y + pend (at' fnorm t.lz) y ≤ B
  good : ∀ y, 1 ≤ y → y < 2 * t.size → ¬ Bad y → ∃ i, Desc y i ∧ t.size ≤ i ∧ i < 2 * t.size ∧
    at' norm t.d y + pend (at' fnorm t.lz) y ≤ c i

/-- Related trees, the first within bounds. -/
def TP (RS : S → A → Prop) (RF : F → G → Prop) (N Z B : Nat) (c : Nat → Nat) (Bad : Nat → Prop) (t : LazySegtree S F)
    (t' : LazySegtree A G) : Prop := TR RS RF t t' ∧ Pot norm fnorm N Z B c Bad t

variable {norm fnorm}

theorem op_sim (hR : Represents RS RF R M) (hB : Bounded norm fnorm B R) {x y : S} {a b : A} (hx : RS x a)
    (hy : RS y b) (h1 : norm x ≤ B) (h2 : norm y ≤ B) :
    Sim False False (fun z c => RS z c ∧ norm z ≤ max (norm x) (norm y)) (R.op x y) (M.ops.op a b) := by
  obtain ⟨z, e, hz⟩ := hB.op x y h1 h2
  rcases hR.op x y a b hx hy with h | ⟨s, e1, hs⟩
  · rw [e] at h; cases h
  · rw [e] at e1; cases e1
    rw [e]; exact sim_ok ⟨hs, hz⟩

theorem mapping_sim (hR : Represents RS RF R M) (hB : Bounded norm fnorm B R) {f : F} {x : S} {φ : G} {a : A}
    (hf : RF f φ) (hx : RS x a) (h1 : fnorm f + norm x ≤ B) :
    Sim False False (fun z c => RS z c ∧ norm z ≤ fnorm f + norm x) (R.mapping f x) (M.ops.mapping φ a) := by
  obtain ⟨z, e, hz⟩ := hB.mapping f x h1
  rcases hR.mapping f x φ a hf hx with h | ⟨s, e1, hs⟩
  · rw [e] at h; cases h
  · rw [e] at e1; cases e1
    rw [e]; exact sim_ok ⟨hs, hz⟩

theorem comp_sim (hR : Represents RS RF R M) (hB : Bounded norm fnorm B R) {f g : F} {φ γ : G}
    (hf : RF f φ) (hg : RF g γ) (h1 : fnorm f + fnorm g ≤ B) :
    Sim False False (fun z c => RF z c ∧ fnorm z ≤ fnorm f + fnorm g) (R.comp f g) (M.ops.comp φ γ) := by
  obtain ⟨z, e, hz⟩ := hB.comp f g h1
  rcases hR.comp f g φ γ hf hg with h | ⟨s, e1, hs⟩
  · rw [e] at h; cases h
  · rw [e] at e1; cases e1
    rw [e]; exact sim_ok ⟨hs, hz⟩

theorem Desc.up {k i : Nat} (h : Desc (2 * k) i ∨ Desc (2 * k + 1) i) : Desc k i := by
  rcases h with ⟨s, h⟩ | ⟨s, h⟩ <;>
  · refine ⟨s + 1, ?_⟩
    rw [Nat.pow_succ, ← Nat.div_div_eq_div_mul, h]
    omega

theorem update_b (hR : Represents RS RF R M) (hB : Bounded norm fnorm B R) {c : Nat → Nat} {Bad Bad' : Nat → Prop}
    (ht : TP norm fnorm RS RF N Z B c Bad t t') (k : Nat) (h1 : ∀ y, y ≠ k → ¬ Bad' y → ¬ Bad y)
    (h2 : ¬ Bad' k → ¬ Bad (2 * k) ∧ ¬ Bad (2 * k + 1)) :
    Sim False False (TP norm fnorm RS RF N Z B c Bad') (t.update R k) (t'.update M.ops k) := by
  obtain ⟨ht, hp⟩ := ht
  refine sim_bind (sim_idx' ht.d _) fun x x' hx => sim_bind (sim_idx' ht.d _) fun y y' hy => ?_
  have l1 := (List.getElem?_eq_some_iff.1 hx.2).1
  have l2 := (List.getElem?_eq_some_iff.1 hy.2).1
  rw [hp.dims.d] at l1 l2
  have b1 := hp.all _ l1
  have b2 := hp.all _ l2
  rw [at_some norm hx.2] at b1
  rw [at_some norm hy.2] at b2
  refine sim_bind (op_sim hR hB hx.1 hy.1 (by omega) (by omega)) fun s s' hs => ?_
  refine sim_bind (sim_upd' ht.d _ hs.1) fun d d' hd => sim_ok ⟨⟨ht.n, ht.size, ht.log, hd.1, ht.lz⟩, ?_⟩
  obtain ⟨hd, rfl⟩ := hd
  have c1 := pend_le_left (at' fnorm t.lz) k
  have c2 := pend_le_right (at' fnorm t.lz) k
  refine ⟨⟨by simp [hp.dims.d], hp.dims.lz, hp.dims.pow, hp.dims.n, hp.dims.sz⟩, ?_, ?_⟩
  · intro j hj
    simp only [at_set]
    by_cases e : j = k
    · subst e
      rw [if_pos ⟨rfl, by rw [hp.dims.d]; exact hj⟩]
      have := hs.2
      omega
    · rw [if_neg (fun h => e h.1)]
      exact hp.all j hj
  · intro j hj1 hj hb
    simp only [at_set]
    by_cases e : j = k
    · subst e
      rw [if_pos ⟨rfl, by rw [hp.dims.d]; exact hj⟩]
      obtain ⟨b3, b4⟩ := h2 hb
      have hm := hs.2
      by_cases hc : norm x ≤ norm y
      · obtain ⟨i, i1, i2, i3, i4⟩ := hp.good _ (by omega) l2 b4
        rw [at_some norm hy.2] at i4
        exact ⟨i, Desc.up (.inr i1), i2, i3, by omega⟩
      · obtain ⟨i, i1, i2, i3, i4⟩ := hp.good _ (by omega) l1 b3
        rw [at_some norm hx.2] at i4
        exact ⟨i, Desc.up (.inl i1), i2, i3, by omega⟩
    · rw [if_neg (fun h => e h.1)]
      exact hp.good j hj1 hj (h1 j e hb)

/-- What `all_apply` does to the measures. -/
structure Applied (norm : S → Nat) (fnorm : F → Nat) (N Z : Nat) (t t1 : LazySegtree S F) (k f : Nat) : Prop where
  dims : Dims N Z t1
  size : t1.size = t.size
  log : t1.log = t.log
  d : at' norm t1.d k ≤ at' norm t.d k + f
  dne : ∀ j, j ≠ k → at' norm t1.d j = at' norm t.d j
  z : at' fnorm t1.lz k ≤ at' fnorm t.lz k + f
  zne : ∀ j, j ≠ k → at' fnorm t1.lz j = at' fnorm t.lz j

theorem allApply_b (hR : Represents RS RF R M) (hB : Bounded norm fnorm B R) (ht : TR RS RF t t') (hd : Dims N Z t)
    (k : Nat) {f : F} {φ : G} (hf : RF f φ) (h1 : k < 2 * t.size → fnorm f + at' norm t.d k ≤ B)
    (h2 : k < t.size → fnorm f + at' fnorm t.lz k ≤ B) :
    Sim False False (fun t1 t1' => TR RS RF t1 t1' ∧ Applied norm fnorm N Z t t1 k (fnorm f)) (t.allApply R k f)
      (t'.allApply M.ops k φ) := by
  unfold LazySegtree.allApply
  refine sim_bind (sim_idx' ht.d _) fun x x' hx => ?_
  have l1 := (List.getElem?_eq_some_iff.1 hx.2).1
  rw [hd.d] at l1
  have b1 := h1 l1
  rw [at_some norm hx.2] at b1
  refine sim_bind (mapping_sim hR hB hf hx.1 b1) fun y y' hy => ?_
  refine sim_bind (sim_upd' ht.d _ hy.1) fun d d' hdd => ?_
  obtain ⟨hdd, rfl⟩ := hdd
  have dk : at' norm (t.d.set k y) k ≤ at' norm t.d k + fnorm f := by
    rw [at_set, if_pos ⟨rfl, by rw [hd.d]; exact l1⟩, at_some norm hx.2]
    have := hy.2
    omega
  have dj : ∀ j, j ≠ k → at' norm (t.d.set k y) j = at' norm t.d j := by
    intro j hj
    rw [at_set, if_neg (fun h => hj h.1)]
  simp only [← ht.size]
  by_cases hk : k < t.size
  · rw [if_pos hk, if_pos hk]
    refine sim_bind (sim_idx' ht.lz _) fun z z' hz => ?_
    have b2 := h2 hk
    rw [at_some fnorm hz.2] at b2
    refine sim_bind (comp_sim hR hB hf hz.1 b2) fun w w' hw => ?_
    refine sim_bind (sim_upd' ht.lz _ hw.1) fun e e' he => ?_
    obtain ⟨he, rfl⟩ := he
    refine sim_ok ⟨⟨ht.n, rfl, ht.log, hdd, he⟩, ⟨⟨by simp [hd.d], by simp [hd.lz], hd.pow, hd.n, hd.sz⟩, rfl, rfl, dk, dj, ?_, ?_⟩⟩
    · simp only [at_set]
      rw [if_pos ⟨trivial, by rw [hd.lz]; exact hk⟩, at_some fnorm hz.2]
      have := hw.2
      omega
    · intro j hj
      simp only [at_set]
      rw [if_neg (fun h => hj h.1)]
  · rw [if_neg hk, if_neg hk]
    exact sim_ok ⟨⟨ht.n, rfl, ht.log, hdd, ht.lz⟩, ⟨⟨by simp [hd.d], hd.lz, hd.pow, hd.n, hd.sz⟩, rfl, rfl, dk, dj,
      Nat.le_add_right _ _, fun _ _ => rfl⟩⟩

/-- `all_apply` with a map given by the caller: the leaves below get its measure added. -/
theorem allApply_top (hR : Represents RS RF R M) (hB : Bounded norm fnorm B R) {c c' : Nat → Nat}
    (ht : TP norm fnorm RS RF N Z B c (fun _ => False) t t') {k : Nat} (hk : 1 ≤ k) {f : F} {φ : G} (hf : RF f φ)
    (hc : ∀ i, t.size ≤ i → i < 2 * t.size → c i ≤ c' i)
    (hd : ∀ i, t.size ≤ i → i < 2 * t.size → Desc k i → c i + fnorm f ≤ c' i)
    (hle : ∀ i, t.size ≤ i → i < 2 * t.size → c' i ≤ B) :
    Sim False False (fun t1 t1' => TP norm fnorm RS RF N Z B c' (fun _ => False) t1 t1' ∧ t1.size = t.size)
      (t.allApply R k f) (t'.allApply M.ops k φ) := by
  obtain ⟨ht, hp⟩ := ht
  refine (allApply_b hR hB ht hp.dims k hf ?_ ?_).mono ?_
  · intro hk2
    obtain ⟨i, i1, i2, i3, i4⟩ := hp.good k hk hk2 (fun h => h)
    have := hd i i2 i3 i1
    have := hle i i2 i3
    omega
  · intro hk2
    obtain ⟨i, i1, i2, i3, i4⟩ := hp.good (2 * k) (by omega) (by omega) (fun h => h)
    rw [pend_left hk] at i4
    have := hd i i2 i3 (Desc.up (.inl i1))
    have := hle i i2 i3
    omega
  · rintro t1 t1' ⟨h1, h2⟩
    refine ⟨⟨h1, ?_⟩, h2.size⟩
    have key : ∀ y, 1 ≤ y → y < 2 * t.size → ∃ i, Desc y i ∧ t.size ≤ i ∧ i < 2 * t.size ∧
        at' norm t1.d y + pend (at' fnorm t1.lz) y ≤ c' i := by
      intro y hy1 hy
      obtain ⟨i, i1, i2, i3, i4⟩ := hp.good y hy1 hy (fun h => h)
      refine ⟨i, i1, i2, i3, ?_⟩
      have hpe := pend_apply hk h2.z (fun j hj => Nat.le_of_eq (h2.zne j hj)) y
      have hdi : Desc k y → Desc k i := by
        rintro ⟨s, rfl⟩
        obtain ⟨r, rfl⟩ := i1
        exact ⟨r + s, by rw [Nat.pow_add, Nat.div_div_eq_div_mul]⟩
      by_cases e : y = k
      · subst e
        have := h2.d
        rcases hpe with hpe | ⟨hpe, -⟩
        · have := hd i i2 i3 i1
          omega
        · exact absurd hpe (not_desc_half hk)
      · rw [h2.dne y e]
        rcases hpe with hpe | ⟨h3, hpe⟩
        · have := hc i i2 i3
          omega
        · have := hd i i2 i3 (hdi ((desc_half e).2 h3))
          omega
    refine ⟨h2.dims, ?_, ?_⟩
    · intro y hy
      rw [h2.size] at hy
      by_cases hy1 : 1 ≤ y
      · obtain ⟨i, i1, i2, i3, i4⟩ := key y hy1 hy
        have := hle i i2 i3
        omega
      · have e : y = 0 := by omega
        subst e
        have := hp.all 0 hy
        rw [pend_low (by omega)] at this ⊢
        rw [h2.dne 0 (by omega)]
        exact this
    · intro y hy1 hy _
      rw [h2.size] at hy ⊢
      exact key y hy1 hy

/-- `push`: bounds stay, and nothing is pending at `k` afterwards. -/
theorem push_b (hR : Represents RS RF R M) (hB : Bounded norm fnorm B R) {c : Nat → Nat}
    (ht : TP norm fnorm RS RF N Z B c (fun _ => False) t t') {k : Nat} (hk : 1 ≤ k) :
    Sim False False (fun t1 t1' => TP norm fnorm RS RF N Z B c (fun _ => False) t1 t1' ∧ t1.size = t.size ∧
        t1.log = t.log ∧ at' fnorm t1.lz k = 0 ∧
        ∀ j, j ≠ 2 * k → j ≠ 2 * k + 1 → at' fnorm t1.lz j ≤ at' fnorm t.lz j)
      (t.push R k) (t'.push M.ops k) := by
  obtain ⟨ht, hp⟩ := ht
  unfold LazySegtree.push
  refine sim_bind (sim_idx' ht.lz _) fun z z' hz => ?_
  have hks := (List.getElem?_eq_some_iff.1 hz.2).1
  rw [hp.dims.lz] at hks
  have hzk := at_some fnorm hz.2
  refine sim_bind (allApply_b hR hB ht hp.dims (2 * k) hz.1 ?_ ?_) ?_
  · intro h
    have := hp.all _ h
    rw [pend_left hk, hzk] at this
    omega
  · intro h
    have := hp.all (2 * (2 * k)) (by omega)
    rw [pend_left (by omega), pend_left hk, hzk] at this
    omega
  rintro t1 t1' ⟨h1, a1⟩
  refine sim_bind (sim_idx' h1.lz _) fun y y' hy => ?_
  have hyk := at_some fnorm hy.2
  rw [a1.zne k (by omega), hzk] at hyk
  refine sim_bind (allApply_b hR hB h1 a1.dims (2 * k + 1) hy.1 ?_ ?_) ?_
  · intro h
    rw [a1.size] at h
    have := hp.all _ h
    rw [pend_right hk, hzk] at this
    rw [a1.dne _ (by omega)]
    omega
  · intro h
    rw [a1.size] at h
    have := hp.all (2 * (2 * k + 1)) (by omega)
    rw [pend_left (by omega), pend_right hk, hzk] at this
    rw [a1.zne _ (by omega)]
    omega
  rintro t2 t2' ⟨h2, a2⟩
  refine sim_bind (sim_upd' h2.lz k hR.idMap) fun l l' hl => ?_
  obtain ⟨hl, rfl⟩ := hl
  have z0 : at' fnorm (t2.lz.set k R.idMap) k = 0 := by
    rw [at_set, if_pos ⟨rfl, by rw [a2.dims.lz, a2.size, a1.size]; exact hks⟩, hB.idMap]
  have zj : ∀ j, j ≠ k → at' fnorm (t2.lz.set k R.idMap) j = at' fnorm t2.lz j := by
    intro j hj
    rw [at_set, if_neg (fun h => hj h.1)]
  have zl : at' fnorm (t2.lz.set k R.idMap) (2 * k) ≤ at' fnorm t.lz (2 * k) + at' fnorm t.lz k := by
    rw [zj _ (by omega), a2.zne _ (by omega), hzk]
    exact a1.z
  have zr : at' fnorm (t2.lz.set k R.idMap) (2 * k + 1) ≤ at' fnorm t.lz (2 * k + 1) + at' fnorm t.lz k := by
    rw [zj _ (by omega), hzk]
    have := a2.z
    rw [a1.zne _ (by omega), ← hyk] at this
    exact this
  have zo : ∀ j, j ≠ k → j ≠ 2 * k → j ≠ 2 * k + 1 → at' fnorm (t2.lz.set k R.idMap) j ≤ at' fnorm t.lz j := by
    intro j h1 h2 h3
    rw [zj j h1, a2.zne j h3, a1.zne j h2]
  have key : ∀ y, at' norm t2.d y + pend (at' fnorm (t2.lz.set k R.idMap)) y ≤ at' norm t.d y + pend (at' fnorm t.lz) y := by
    intro y
    have hpe := pend_push hk z0 zl zr zo y
    rw [hzk] at hpe
    by_cases e1 : y = 2 * k
    · subst e1
      rw [if_pos (.inl rfl)] at hpe
      have := a1.d
      rw [a2.dne _ (by omega)]
      omega
    · by_cases e2 : y = 2 * k + 1
      · subst e2
        rw [if_pos (.inr rfl)] at hpe
        have := a2.d
        rw [a1.dne _ (by omega), ← hyk] at this
        omega
      · rw [if_neg (by omega)] at hpe
        rw [a2.dne y e2, a1.dne y e1]
        exact Nat.add_le_add_left (by omega) _
  have es : t2.size = t.size := by rw [a2.size, a1.size]
  have el : t2.log = t.log := by rw [a2.log, a1.log]
  refine sim_ok ⟨⟨⟨h2.n, h2.size, h2.log, h2.d, hl⟩, ⟨⟨a2.dims.d, by simp [a2.dims.lz], a2.dims.pow, a2.dims.n, a2.dims.sz⟩, ?_, ?_⟩⟩, es, el, z0, ?_⟩
  · intro y hy
    simp only [es] at hy
    exact Nat.le_trans (key y) (hp.all y hy)
  · intro y hy1 hy hb
    simp only [es] at hy ⊢
    obtain ⟨i, i1, i2, i3, i4⟩ := hp.good y hy1 hy hb
    exact ⟨i, i1, i2, i3, Nat.le_trans (key y) i4⟩
  · intro j j1 j2
    by_cases e : j = k
    · subst e
      simp only [z0]
      exact Nat.zero_le _
    · exact zo j e j1 j2

end
end Verif.LazyB
