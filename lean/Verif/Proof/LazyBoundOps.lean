import Verif.Prelude.Level
import Verif.Proof.LazyBound
/-! The calls of the lazy segment tree stay within bounds and do not panic. -/
namespace Verif.LazyB
open Res Model Spec LazySim

variable {S A F G : Type} {RS : S → A → Prop} {RF : F → G → Prop} {R : MapMonoidOps S F} {M : MapOps A G}
  {norm : S → Nat} {fnorm : F → Nat} {N Z B : Nat} {t : LazySegtree S F} {t' : LazySegtree A G}

/-- No exception. -/
abbrev none1 : Nat → Prop := fun _ => False

theorem Pot.mono {c c' : Nat → Nat} {Bad Bad' : Nat → Prop} (h : Pot norm fnorm N Z B c Bad t)
    (hc : ∀ i, t.size ≤ i → i < 2 * t.size → c i ≤ c' i) (hb : ∀ y, Bad y → Bad' y) : Pot norm fnorm N Z B c' Bad' t := by
  refine ⟨h.dims, h.all, ?_⟩
  intro y h1 h2 h3
  obtain ⟨i, i1, i2, i3, i4⟩ := h.good y h1 h2 (fun h => h3 (hb y h))
  exact ⟨i, i1, i2, i3, Nat.le_trans i4 (hc i i2 i3)⟩

theorem shift_pos {L p i : Nat} (hp : 2 ^ L ≤ p) (hi : i ≤ L) : 1 ≤ p >>> i := by
  rw [Nat.shiftRight_eq_div_pow, Nat.one_le_div_iff (Nat.two_pow_pos i)]
  exact Nat.le_trans (Nat.pow_le_pow_right (by omega) hi) hp

theorem shift_anti (p : Nat) {i j : Nat} (h : i ≤ j) : p >>> j ≤ p >>> i := by
  rw [Nat.shiftRight_eq_div_pow, Nat.shiftRight_eq_div_pow]
  exact Nat.div_le_div_left (Nat.pow_le_pow_right (by omega) h) (Nat.two_pow_pos i)

theorem pushPath_b (hR : Represents RS RF R M) (hB : Bounded norm fnorm B R) {c : Nat → Nat}
    (ht : TP norm fnorm RS RF N Z B c none1 t t') {p : Nat} (hp : t.size ≤ p) :
    Sim False False (fun t1 t1' => TP norm fnorm RS RF N Z B c none1 t1 t1' ∧ t1.size = t.size ∧ t1.log = t.log ∧
        ∀ s, 1 ≤ s → s ≤ t.log → at' fnorm t1.lz (p >>> s) = 0)
      (t.pushPath R p) (t'.pushPath M.ops p) := by
  unfold LazySegtree.pushPath
  rw [← ht.1.log]
  refine (sim_forRangeRevI (Q := fun i t1 t1' => TP norm fnorm RS RF N Z B c none1 t1 t1' ∧ t1.size = t.size ∧
    t1.log = t.log ∧ ∀ s, i ≤ s → s ≤ t.log → at' fnorm t1.lz (p >>> s) = 0) (by omega) ⟨ht, rfl, rfl, by intro s; omega⟩ ?_)
  rintro i s s' hi hi2 ⟨h1, h2, h3, h4⟩
  have hk : 1 ≤ p >>> i := shift_pos (by rw [← ht.2.dims.pow]; exact hp) (by omega)
  refine (push_b hR hB h1 hk).mono ?_
  rintro t1 t1' ⟨k1, k2, k3, k4, k5⟩
  refine ⟨k1, k2.trans h2, k3.trans h3, ?_⟩
  intro j hj hj2
  by_cases e : j = i
  · rw [e]; exact k4
  · have := shift_anti p (show i ≤ j from hj)
    have h5 := k5 (p >>> j) (by omega) (by omega)
    rw [h4 j (by omega) hj2] at h5
    omega

/-- The two guarded pushes at the beginning of `prod` and `apply_range`. -/
theorem pushes_b (hR : Represents RS RF R M) (hB : Bounded norm fnorm B R) {c : Nat → Nat}
    (ht : TP norm fnorm RS RF N Z B c none1 t t') {c1 c2 : Nat → Prop} [DecidablePred c1] [DecidablePred c2]
    {f1 f2 : Nat → Nat} (h1 : ∀ i, i ≤ t.log → 1 ≤ f1 i) (h2 : ∀ i, i ≤ t.log → 1 ≤ f2 i) {hi : Nat} (hh : hi = t.log + 1) :
    Sim False False (fun t1 t1' => TP norm fnorm RS RF N Z B c none1 t1 t1' ∧ t1.size = t.size ∧ t1.log = t.log)
      (forRangeRev 1 hi t fun i t => do
        let t ← (if c1 i then t.push R (f1 i) else ok t : Res (LazySegtree S F))
        (if c2 i then t.push R (f2 i) else ok t : Res (LazySegtree S F)))
      (forRangeRev 1 hi t' fun i t => do
        let t ← (if c1 i then t.push M.ops (f1 i) else ok t : Res (LazySegtree A G))
        (if c2 i then t.push M.ops (f2 i) else ok t : Res (LazySegtree A G))) := by
  subst hh
  refine sim_forRangeRevI (Q := fun _ t1 t1' => TP norm fnorm RS RF N Z B c none1 t1 t1' ∧ t1.size = t.size ∧
    t1.log = t.log) (by omega) ⟨ht, rfl, rfl⟩ ?_
  rintro i s s' hi hi2 ⟨k1, k2, k3⟩
  refine sim_bind (Q := fun t1 t1' => TP norm fnorm RS RF N Z B c none1 t1 t1' ∧ t1.size = t.size ∧ t1.log = t.log)
    (sim_ite ((push_b hR hB k1 (h1 i (by omega))).mono ?_) (sim_ok ⟨k1, k2, k3⟩)) ?_
  · rintro t1 t1' ⟨j1, j2, j3, -⟩
    exact ⟨j1, j2.trans k2, j3.trans k3⟩
  · rintro s s' ⟨k1, k2, k3⟩
    refine sim_ite ((push_b hR hB k1 (h2 i (by omega))).mono ?_) (sim_ok ⟨k1, k2, k3⟩)
    rintro t1 t1' ⟨j1, j2, j3, -⟩
    exact ⟨j1, j2.trans k2, j3.trans k3⟩

/-- The ancestors of `p` at level `i` and above. -/
def Above (p i : Nat) (y : Nat) : Prop := ∃ s, i ≤ s ∧ y = p >>> s

theorem updatePath_b (hR : Represents RS RF R M) (hB : Bounded norm fnorm B R) {c : Nat → Nat} {p : Nat}
    (ht : TP norm fnorm RS RF N Z B c (Above p 1) t t') (hp : t.size ≤ p) (hp2 : p < 2 * t.size) :
    Sim False False (TP norm fnorm RS RF N Z B c none1) (t.updatePath R p) (t'.updatePath M.ops p) := by
  unfold LazySegtree.updatePath
  rw [← ht.1.log]
  have hpow := ht.2.dims.pow
  refine (sim_forRangeI (Q := fun i t1 t1' => TP norm fnorm RS RF N Z B c (Above p i) t1 t1') (by omega) ht ?_).mono ?_
  · rintro i s s' hi hi2 h1
    have hk : 1 ≤ p >>> i := shift_pos (by rw [← hpow]; exact hp) (by omega)
    refine update_b hR hB h1 _ ?_ ?_
    · rintro y hy hn ⟨s, hs, rfl⟩
      by_cases e : s = i
      · exact hy (by rw [e])
      · exact hn ⟨s, by omega, rfl⟩
    · intro _
      constructor
      all_goals
        rintro ⟨s, hs, e⟩
        have := shift_anti p hs
        omega
  · rintro t1 t1' ⟨k1, k2⟩
    refine ⟨k1, k2.dims, k2.all, ?_⟩
    intro y hy hy2 _
    refine k2.good y hy hy2 ?_
    rintro ⟨s, hs, rfl⟩
    have h1 := shift_anti p hs
    have h2 : p >>> (t.log + 1) = 0 := by
      rw [Nat.shiftRight_eq_div_pow, Nat.div_eq_of_lt]
      rw [Nat.pow_succ, ← hpow]; omega
    omega

theorem desc_leaf {N p i : Nat} (h : Desc p i) (hp : N ≤ p) (hi : i < 2 * N) : i = p := by
  obtain ⟨s, rfl⟩ := h
  cases s with
  | zero => simp
  | succ s =>
    have h1 : i / 2 ^ (s + 1) ≤ i / 2 := by
      rw [Nat.pow_succ', ← Nat.div_div_eq_div_mul]; exact Nat.div_le_self _ _
    omega

theorem desc_refl (p : Nat) : Desc p p := ⟨0, by simp⟩

theorem pend_zero {z : Nat → Nat} {p : Nat} (h : ∀ s, 1 ≤ s → 1 ≤ p >>> s → z (p >>> s) = 0) : pend z p = 0 := by
  induction p using Nat.strongRecOn with
  | ind p ih =>
    by_cases hp : p ≤ 1
    · exact pend_low hp
    · rw [pend_high (by omega), ih (p / 2) (by omega) ?_]
      · have := h 1 (by omega) (by rw [Nat.shiftRight_one]; omega)
        rw [Nat.shiftRight_one] at this
        rw [this]
      · intro s hs hs2
        have e : (p / 2) >>> s = p >>> (s + 1) := by
          rw [Nat.add_comm, Nat.shiftRight_add, Nat.shiftRight_one]
        rw [e] at hs2 ⊢
        exact h (s + 1) (by omega) hs2

theorem path_zero {t1 : LazySegtree S F} {p : Nat} (hp2 : p < 2 * t.size) (hpow : t.size = 2 ^ t.log)
    (h : ∀ s, 1 ≤ s → s ≤ t.log → at' fnorm t1.lz (p >>> s) = 0) : pend (at' fnorm t1.lz) p = 0 := by
  refine pend_zero fun s hs hs2 => h s hs ?_
  apply Nat.le_of_not_lt
  intro hlt
  have h1 := shift_anti p (show t.log + 1 ≤ s from hlt)
  have h2 : p >>> (t.log + 1) = 0 := by
    rw [Nat.shiftRight_eq_div_pow, Nat.div_eq_of_lt]
    rw [Nat.pow_succ, ← hpow]; omega
  omega

theorem set_b (hR : Represents RS RF R M) (hB : Bounded norm fnorm B R) {c : Nat → Nat}
    (ht : TP norm fnorm RS RF N Z B c none1 t t') {p : Nat} (hp : p < t.n) (hn : t.n ≤ t.size) {x : S} {a : A} (hx : RS x a)
    (hxB : norm x ≤ B) :
    Sim False False (TP norm fnorm RS RF N Z B (fun i => if i = p + t.size then norm x else c i) none1)
      (t.set R p x) (t'.set M.ops p a) := by
  unfold LazySegtree.set
  simp only [← ht.1.n, ← ht.1.size]
  refine sim_assert fun _ => sim_bind (pushPath_b hR hB ht (p := p + t.size) (by omega)) ?_
  rintro t1 t1' ⟨⟨h1, h2⟩, h3, h4, h5⟩
  refine sim_bind (sim_upd' h1.d _ hx) ?_
  rintro d d' ⟨hd, rfl⟩
  have hz := path_zero (t1 := t1) (p := p + t.size) (by omega) ht.2.dims.pow h5
  have dl := h2.dims.d
  have atp : at' norm (t1.d.set (p + t.size) x) (p + t.size) = norm x := by
    rw [at_set, if_pos ⟨rfl, by rw [dl, h3]; omega⟩]
  have ato : ∀ y, y ≠ p + t.size → at' norm (t1.d.set (p + t.size) x) y = at' norm t1.d y := by
    intro y hy
    rw [at_set, if_neg (fun h => hy h.1)]
  refine updatePath_b hR hB (p := p + t.size) ⟨⟨h1.n, h1.size, h1.log, hd, h1.lz⟩, ?_⟩ (by show t1.size ≤ _; omega) (by show _ < 2 * t1.size; omega)
  refine ⟨⟨by simp [dl], h2.dims.lz, h2.dims.pow, h2.dims.n, h2.dims.sz⟩, ?_, ?_⟩
  · intro y hy
    simp only at hy ⊢
    by_cases e : y = p + t.size
    · rw [e, atp, hz]; exact hxB
    · rw [ato y e]; exact h2.all y hy
  · intro y hy1 hy hb
    simp only at hy ⊢
    by_cases e : y = p + t.size
    · refine ⟨p + t.size, by rw [e]; exact desc_refl _, by omega, by omega, ?_⟩
      rw [if_pos rfl, e, atp, hz]
      exact Nat.le_refl _
    · rw [ato y e]
      obtain ⟨i, i1, i2, i3, i4⟩ := h2.good y hy1 hy (fun h => h)
      refine ⟨i, i1, i2, i3, ?_⟩
      rw [if_neg ?_]
      · exact i4
      · rintro rfl
        obtain ⟨s, hs⟩ := i1
        rw [← Nat.shiftRight_eq_div_pow] at hs
        refine hb ⟨s, ?_, hs.symm⟩
        rcases Nat.eq_zero_or_pos s with rfl | h
        · simp at hs; exact absurd hs.symm e
        · exact h

theorem apply_b (hR : Represents RS RF R M) (hB : Bounded norm fnorm B R) {c : Nat → Nat}
    (ht : TP norm fnorm RS RF N Z B c none1 t t') {p : Nat} (hp : p < t.n) (hn : t.n ≤ t.size) {f : F} {φ : G} (hf : RF f φ)
    (hfB : c (p + t.size) + fnorm f ≤ B) :
    Sim False False (TP norm fnorm RS RF N Z B (fun i => if i = p + t.size then c i + fnorm f else c i) none1)
      (t.apply R p f) (t'.apply M.ops p φ) := by
  unfold LazySegtree.apply
  simp only [← ht.1.n, ← ht.1.size]
  refine sim_assert fun _ => sim_bind (pushPath_b hR hB ht (p := p + t.size) (by omega)) ?_
  rintro t1 t1' ⟨⟨h1, h2⟩, h3, h4, h5⟩
  refine sim_bind (sim_idx' h1.d _) fun x x' hx => ?_
  have hz := path_zero (t1 := t1) (p := p + t.size) (by omega) ht.2.dims.pow h5
  have dl := h2.dims.d
  obtain ⟨i, i1, i2, i3, i4⟩ := h2.good (p + t.size) (by omega) (by omega) (fun h => h)
  have ei := desc_leaf i1 (N := t1.size) (by omega) i3
  rw [hz, at_some norm hx.2, ei] at i4
  refine sim_bind (mapping_sim hR hB hf hx.1 (by omega)) fun y y' hy => ?_
  refine sim_bind (sim_upd' h1.d _ hy.1) ?_
  rintro d d' ⟨hd, rfl⟩
  have hyn := hy.2
  have atp : at' norm (t1.d.set (p + t.size) y) (p + t.size) = norm y := by
    rw [at_set, if_pos ⟨rfl, by rw [dl, h3]; omega⟩]
  have ato : ∀ j, j ≠ p + t.size → at' norm (t1.d.set (p + t.size) y) j = at' norm t1.d j := by
    intro j hy
    rw [at_set, if_neg (fun h => hy h.1)]
  refine updatePath_b hR hB (p := p + t.size) ⟨⟨h1.n, h1.size, h1.log, hd, h1.lz⟩, ?_⟩ (by show t1.size ≤ _; omega) (by show _ < 2 * t1.size; omega)
  refine ⟨⟨by simp [dl], h2.dims.lz, h2.dims.pow, h2.dims.n, h2.dims.sz⟩, ?_, ?_⟩
  · intro y hy
    simp only at hy ⊢
    by_cases e : y = p + t.size
    · rw [e, atp, hz]; omega
    · rw [ato y e]; exact h2.all y hy
  · intro y hy1 hy hb
    simp only at hy ⊢
    by_cases e : y = p + t.size
    · refine ⟨p + t.size, by rw [e]; exact desc_refl _, by omega, by omega, ?_⟩
      rw [if_pos rfl, e, atp, hz]
      omega
    · rw [ato y e]
      obtain ⟨i, i1, i2, i3, i4⟩ := h2.good y hy1 hy (fun h => h)
      refine ⟨i, i1, i2, i3, ?_⟩
      split <;> omega

theorem get_b (hR : Represents RS RF R M) (hB : Bounded norm fnorm B R) {c : Nat → Nat}
    (ht : TP norm fnorm RS RF N Z B c none1 t t') {p : Nat} :
    Sim False False (fun o o' => TP norm fnorm RS RF N Z B c none1 o.1 o'.1 ∧ RS o.2 o'.2) (t.get R p) (t'.get M.ops p) := by
  unfold LazySegtree.get
  simp only [← ht.1.n, ← ht.1.size]
  refine sim_assert fun _ => sim_bind (pushPath_b hR hB ht (p := p + t.size) (by omega)) ?_
  rintro t1 t1' ⟨h1, -⟩
  exact sim_bind (sim_idx h1.1.d _) fun x x' hx => sim_ok ⟨h1, hx⟩

theorem entry_le {c : Nat → Nat} {Bad : Nat → Prop} (h : Pot norm fnorm N Z B c Bad t) {k : Nat} {x : S}
    (hx : t.d[k]? = some x) : norm x ≤ B := by
  have l1 := (List.getElem?_eq_some_iff.1 hx).1
  rw [h.dims.d] at l1
  have := h.all k l1
  rw [at_some norm hx] at this
  omega

theorem prod_b (hR : Represents RS RF R M) (hB : Bounded norm fnorm B R) {c : Nat → Nat}
    (ht : TP norm fnorm RS RF N Z B c none1 t t') (l r : Nat) :
    Sim False False (fun o o' => TP norm fnorm RS RF N Z B c none1 o.1 o'.1 ∧ RS o.2 o'.2) (t.prod R l r)
      (t'.prod M.ops l r) := by
  unfold LazySegtree.prod
  simp only [← ht.1.n, ← ht.1.size, ← ht.1.log]
  refine sim_assert fun _ => sim_ite (sim_ok ⟨ht, hR.e⟩) ?_
  have hpow := ht.2.dims.pow
  have he : norm R.e ≤ B := by rw [hB.e]; omega
  refine sim_bind (pushes_b hR hB ht (fun i hi => shift_pos (L := t.log) (by omega) hi)
    (fun i hi => shift_pos (L := t.log) (by omega) hi) rfl) ?_
  rintro t1 t1' ⟨⟨h1, h2⟩, -⟩
  refine sim_bind (Q := fun a b => a.1 = b.1 ∧ a.2.1 = b.2.1 ∧ (RS a.2.2.1 b.2.2.1 ∧ norm a.2.2.1 ≤ B) ∧
    (RS a.2.2.2 b.2.2.2 ∧ norm a.2.2.2 ≤ B)) (sim_while ⟨rfl, rfl, ⟨hR.e, he⟩, hR.e, he⟩ ?_ ?_) ?_
  · rintro ⟨a, b, c, d⟩ ⟨a', b', c', d'⟩ ⟨e1, e2, hc, hd⟩
    simp only at e1 e2
    subst e1; subst e2
    exact sim_refl
  · rintro ⟨a, b, c, d⟩ ⟨a', b', c', d'⟩ ⟨e1, e2, hc, hd⟩
    simp only at e1 e2 hc hd
    subst e1; subst e2
    refine sim_bind (Q := fun a b => a.1 = b.1 ∧ RS a.2 b.2 ∧ norm a.2 ≤ B) (sim_ite ?_ (sim_ok ⟨rfl, hc⟩)) ?_
    · refine sim_bind (sim_idx' h1.d _) fun x x' hx => ?_
      have hxb := entry_le h2 hx.2
      refine sim_bind (op_sim hR hB hc.1 hx.1 hc.2 hxb) fun y y' hy => sim_ok ⟨rfl, hy.1, ?_⟩
      have h8 := hy.2; have := hc.2
      simp only at this h8 ⊢; omega
    rintro ⟨l1, c1⟩ ⟨l1', c1'⟩ ⟨e1, hc1⟩
    simp only at e1 hc1
    subst e1
    refine sim_bind (Q := fun a b => a.1 = b.1 ∧ RS a.2 b.2 ∧ norm a.2 ≤ B) (sim_ite ?_ (sim_ok ⟨rfl, hd⟩)) ?_
    · refine sim_bind (sim_idx' h1.d _) fun x x' hx => ?_
      have hxb := entry_le h2 hx.2
      refine sim_bind (op_sim hR hB hx.1 hd.1 hxb hd.2) fun y y' hy => sim_ok ⟨rfl, hy.1, ?_⟩
      have h8 := hy.2; have := hd.2
      simp only at this h8 ⊢; omega
    rintro ⟨r1, d1⟩ ⟨r1', d1'⟩ ⟨e1, hd1⟩
    simp only at e1 hd1
    subst e1
    exact sim_ok ⟨rfl, rfl, hc1, hd1⟩
  · rintro ⟨a, b, c, d⟩ ⟨a', b', c', d'⟩ ⟨e1, e2, hc, hd⟩
    exact sim_bind (op_sim hR hB hc.1 hd.1 hc.2 hd.2) fun s s' hs => sim_ok ⟨⟨h1, h2⟩, hs.1⟩

/-- The leaves below a node at level `j`. -/
theorem desc_range {L j k i : Nat} (hk : Lvl (2 ^ L) j k) (hi : 2 ^ L ≤ i) (hi2 : i < 2 * 2 ^ L) (h : Desc k i) :
    k * 2 ^ j ≤ i ∧ i < (k + 1) * 2 ^ j := by
  obtain ⟨s, hs⟩ := h
  have hps := Nat.two_pow_pos s
  have h1 : k * 2 ^ s ≤ i := by rw [← hs]; exact Nat.div_mul_le_self _ _
  have h2 : i < (k + 1) * 2 ^ s := by
    rw [← hs, Nat.mul_comm]; exact Nat.lt_mul_div_succ i hps
  have hls : Lvl (2 ^ L) s k := ⟨?_, by omega⟩
  · have e : s = j := by
      rcases Nat.lt_trichotomy s j with h | h | h
      · have : k * 2 ^ (s + 1) ≤ k * 2 ^ j := Nat.mul_le_mul_left _ (Nat.pow_le_pow_right (by omega) h)
        rw [Nat.pow_succ, ← Nat.mul_assoc] at this
        have := hls.1; have := hk.2
        omega
      · exact h
      · have : k * 2 ^ (j + 1) ≤ k * 2 ^ s := Nat.mul_le_mul_left _ (Nat.pow_le_pow_right (by omega) h)
        rw [Nat.pow_succ, ← Nat.mul_assoc] at this
        have := hk.1; have := hls.2
        omega
    subst e
    exact ⟨h1, h2⟩
  · have hsL : s ≤ L := by
      apply Nat.le_of_not_lt; intro hlt
      have : 2 ^ (L + 1) ≤ 2 ^ s := Nat.pow_le_pow_right (by omega) hlt
      rw [Nat.pow_succ] at this
      have hk0 : k = 0 := by
        rw [← hs]; exact Nat.div_eq_of_lt (by omega)
      have := hk.1
      rw [hk0] at this
      have := Nat.two_pow_pos L
      omega
    have e : 2 ^ L = 2 ^ (L - s) * 2 ^ s := by rw [← Nat.pow_add]; congr 1; omega
    rw [e] at hi ⊢
    have : 2 ^ (L - s) * 2 ^ s < (k + 1) * 2 ^ s := by omega
    have := Nat.lt_of_mul_lt_mul_right this
    exact Nat.mul_le_mul_right _ (by omega)

/-- Bounds in the middle of `apply_range`: the leaves outside `lo..hi` are done. -/
def part (c : Nat → Nat) (l0 r0 f lo hi : Nat) (i : Nat) : Nat :=
  if (l0 ≤ i ∧ i < lo) ∨ (hi ≤ i ∧ i < r0) then c i + f else c i

theorem applyRange_b (hR : Represents RS RF R M) (hB : Bounded norm fnorm B R) {c : Nat → Nat}
    (ht : TP norm fnorm RS RF N Z B c none1 t t') {l r : Nat} (hl : l ≤ r) (hr : r ≤ t.n) (hn : t.n ≤ t.size) {f : F} {φ : G}
    (hf : RF f φ)
    (hfB : ∀ i, l + t.size ≤ i → i < r + t.size → c i + fnorm f ≤ B)
    (hcB : ∀ i, t.size ≤ i → i < 2 * t.size → c i ≤ B) :
    Sim False False (TP norm fnorm RS RF N Z B (fun i => if l + t.size ≤ i ∧ i < r + t.size then c i + fnorm f else c i) none1)
      (t.applyRange R l r f) (t'.applyRange M.ops l r φ) := by
  unfold LazySegtree.applyRange
  simp only [← ht.1.n, ← ht.1.size, ← ht.1.log]
  refine sim_assert fun _ => ?_
  have hpow := ht.2.dims.pow
  by_cases e : l = r
  · rw [if_pos e, if_pos e]
    refine sim_ok ⟨ht.1, ht.2.mono (fun i _ _ => ?_) (fun _ h => h)⟩
    rw [if_neg (by omega)]
  rw [if_neg e, if_neg e]
  refine sim_bind (pushes_b hR hB ht (fun i hi => shift_pos (L := t.log) (by omega) hi)
    (fun i hi => shift_pos (L := t.log) (by omega) hi) rfl) ?_
  rintro t1 t1' ⟨⟨h1, h2⟩, e1, e2⟩
  refine sim_bind (Q := fun a b => TP norm fnorm RS RF N Z B
      (fun i => if l + t.size ≤ i ∧ i < r + t.size then c i + fnorm f else c i) none1 a.2.2 b.2.2)
    (sim_whileC (Q := fun a b => a.1 = b.1 ∧ a.2.1 = b.2.1 ∧ a.2.2.size = t.size ∧ 1 ≤ a.1 ∧ a.1 ≤ a.2.1 ∧
      ∃ j, l + t.size ≤ a.1 * 2 ^ j ∧ a.2.1 * 2 ^ j ≤ r + t.size ∧
        TP norm fnorm RS RF N Z B (part c (l + t.size) (r + t.size) (fnorm f) (a.1 * 2 ^ j) (a.2.1 * 2 ^ j)) none1 a.2.2 b.2.2)
      ⟨rfl, rfl, e1, ?_, by simp only; omega, 0, by simp, by simp, h1, h2.mono (fun i _ _ => ?_) (fun _ h => h)⟩ ?_) ?_
  · have := Nat.two_pow_pos t.log
    simp only; omega
  · simp only [part]; split <;> omega
  · rintro ⟨a, b, s⟩ ⟨a', b', s'⟩ ⟨q1, q2, q3, q4, q5, j, q6, q7, q8⟩
    simp only at q1 q2 q3 q4 q5 q6 q7 q8
    subst q1; subst q2
    refine sim_ok ⟨rfl, ?_⟩
    have hpj := Nat.two_pow_pos j
    have hab : a * 2 ^ j ≤ b * 2 ^ j := Nat.mul_le_mul_right _ q5
    have hpartB : ∀ lo hi, lo ≤ r + t.size → l + t.size ≤ hi → ∀ i, t.size ≤ i → i < 2 * t.size →
        part c (l + t.size) (r + t.size) (fnorm f) lo hi i ≤ B := by
      intro lo hi h1 h2 i h3 h4
      unfold part
      split
      · exact hfB i (by omega) (by omega)
      · exact hcB i h3 h4
    by_cases hlt : a < b
    · simp only [hlt, decide_true, if_true]
      have hab2 : (a + 1) * 2 ^ j ≤ b * 2 ^ j := Nat.mul_le_mul_right _ hlt
      rw [Nat.add_mul, Nat.one_mul] at hab2
      refine sim_bind (Q := fun x y => x.1 = y.1 ∧ x.2.size = t.size ∧ x.1 ≤ b ∧ x.1 = a + (a &&& 1) ∧
          TP norm fnorm RS RF N Z B (part c (l + t.size) (r + t.size) (fnorm f) (x.1 * 2 ^ j) (b * 2 ^ j)) none1 x.2 y.2)
        ?_ ?_
      · by_cases ho : a &&& 1 ≠ 0
        · rw [if_pos ho, if_pos ho]
          have ha1 : a &&& 1 = 1 := by rw [Nat.and_one_is_mod] at ho ⊢; omega
          refine sim_bind (allApply_top hR hB q8 q4 hf
            (c' := part c (l + t.size) (r + t.size) (fnorm f) ((a + 1) * 2 ^ j) (b * 2 ^ j)) ?_ ?_ ?_) ?_
          · intro i _ _
            rw [Nat.add_mul, Nat.one_mul]
            unfold part
            split <;> split <;> omega
          · intro i i1 i2 i3
            rw [q3, hpow] at i1 i2
            obtain ⟨d1, d2⟩ := desc_range (L := t.log) (j := j) (k := a) ⟨by omega, by omega⟩ i1 i2 i3
            rw [Nat.add_mul, Nat.one_mul] at d2 ⊢
            unfold part
            rw [if_neg (by omega), if_pos (by omega)]
          · rw [q3]
            exact hpartB _ _ (by rw [Nat.add_mul, Nat.one_mul]; omega) (by omega)
          · rintro s1 s1' ⟨k1, k2⟩
            exact sim_ok ⟨rfl, k2.trans q3, hlt, by rw [ha1], k1⟩
        · rw [if_neg ho, if_neg ho]
          exact sim_ok ⟨rfl, q3, q5, by simp only; omega, q8⟩
      rintro ⟨x, s1⟩ ⟨x', s1'⟩ ⟨w1, w2, w3, w4, w5⟩
      simp only at w1 w2 w3 w4 w5
      subst w1
      have hx1 : a ≤ x := by omega
      have hxa : a * 2 ^ j ≤ x * 2 ^ j := Nat.mul_le_mul_right _ hx1
      have hxb : x * 2 ^ j ≤ b * 2 ^ j := Nat.mul_le_mul_right _ w3
      have hxe : x % 2 = 0 := by rw [w4, Nat.and_one_is_mod]; omega
      refine sim_bind (Q := fun y z => y.1 = z.1 ∧ y.2.size = t.size ∧ x ≤ y.1 ∧ y.1 ≤ b ∧ y.1 = b - (b &&& 1) ∧
          TP norm fnorm RS RF N Z B (part c (l + t.size) (r + t.size) (fnorm f) (x * 2 ^ j) (y.1 * 2 ^ j)) none1 y.2 z.2)
        ?_ ?_
      · by_cases ho : b &&& 1 ≠ 0
        · rw [if_pos ho, if_pos ho]
          have hb1 : b &&& 1 = 1 := by rw [Nat.and_one_is_mod] at ho ⊢; omega
          have hb2 : b % 2 = 1 := by rw [Nat.and_one_is_mod] at hb1; exact hb1
          have hxb' : x ≤ b - 1 := by omega
          have hm : (b - 1) * 2 ^ j + 2 ^ j = b * 2 ^ j := by
            rw [Nat.sub_mul, Nat.one_mul]
            have : 1 * 2 ^ j ≤ b * 2 ^ j := Nat.mul_le_mul_right _ (by omega)
            omega
          have hm2 : x * 2 ^ j ≤ (b - 1) * 2 ^ j := Nat.mul_le_mul_right _ hxb'
          refine sim_bind (allApply_top hR hB w5 (by omega) hf
            (c' := part c (l + t.size) (r + t.size) (fnorm f) (x * 2 ^ j) ((b - 1) * 2 ^ j)) ?_ ?_ ?_) ?_
          · intro i _ _
            unfold part
            split <;> split <;> omega
          · intro i i1 i2 i3
            rw [w2, hpow] at i1 i2
            obtain ⟨d1, d2⟩ := desc_range (L := t.log) (j := j) (k := b - 1) ⟨by omega, by omega⟩ i1 i2 i3
            rw [Nat.add_mul, Nat.one_mul] at d2
            unfold part
            rw [if_neg (by omega), if_pos (by omega)]
          · rw [w2]
            exact hpartB _ _ (by omega) (by omega)
          · rintro s2 s2' ⟨k1, k2⟩
            exact sim_ok ⟨rfl, k2.trans w2, hxb', by simp only; omega, by rw [hb1], k1⟩
        · rw [if_neg ho, if_neg ho]
          exact sim_ok ⟨rfl, w2, w3, Nat.le_refl _, by simp only; omega, w5⟩
      rintro ⟨y, s2⟩ ⟨y', s2'⟩ ⟨v1, v2, v3, v4, v5, v6⟩
      simp only at v1 v2 v3 v4 v5 v6
      subst v1
      have hye : y % 2 = 0 := by rw [v5, Nat.and_one_is_mod]; omega
      have hyb : y * 2 ^ j ≤ b * 2 ^ j := Nat.mul_le_mul_right _ v4
      have ex : x >>> 1 * 2 ^ (j + 1) = x * 2 ^ j := by
        rw [Nat.shiftRight_one, Nat.pow_succ', ← Nat.mul_assoc]
        congr 1; omega
      have ey : y >>> 1 * 2 ^ (j + 1) = y * 2 ^ j := by
        rw [Nat.shiftRight_one, Nat.pow_succ', ← Nat.mul_assoc]
        congr 1; omega
      refine sim_ok ⟨rfl, rfl, v2, ?_, ?_, j + 1, ?_, ?_, ?_⟩
      · simp only [Nat.shiftRight_one]; omega
      · simp only [Nat.shiftRight_one]; omega
      · simp only; rw [ex]; omega
      · simp only; rw [ey]; omega
      · simp only; rw [ex, ey]; exact v6
    · simp only [hlt, decide_false, Bool.false_eq_true, if_false]
      have eab : a = b := by omega
      subst eab
      refine ⟨q8.1, q8.2.mono (fun i _ _ => ?_) (fun _ h => h)⟩
      unfold part
      split <;> split <;> omega
  · rintro ⟨a, b, s⟩ ⟨a', b', s'⟩ hs
    simp only at hs
    simp only [← hs.1.log]
    refine sim_forRange hs fun i s t hst => ?_
    refine sim_bind (sim_ite (update_b hR hB hst _ (fun _ _ h => h) (fun _ => ⟨fun h => h, fun h => h⟩)) (sim_ok hst)) fun s s' hs => ?_
    exact sim_ite (update_b hR hB hs _ (fun _ _ h => h) (fun _ => ⟨fun h => h, fun h => h⟩)) (sim_ok hs)


theorem and_wneg_one : 1 &&& wnegU 64 1 = 1 := by decide

theorem maxRight_b (hR : Represents RS RF R M) (hB : Bounded norm fnorm B R) {c : Nat → Nat}
    (ht : TP norm fnorm RS RF N Z B c none1 t t') (l : Nat) {g : S → Bool} {g' : A → Bool}
    (hg : ∀ x x', RS x x' → g x = g' x') :
    Sim False False (fun o o' => TP norm fnorm RS RF N Z B c none1 o.1 o'.1 ∧ o.2 = o'.2) (t.maxRight R l g)
      (t'.maxRight M.ops l g') := by
  unfold LazySegtree.maxRight
  have hge : g R.e = g' M.ops.e := hg _ _ hR.e
  simp only [← ht.1.n, ← ht.1.size, hge]
  have hpow := ht.2.dims.pow
  have hps := Nat.two_pow_pos t.log
  refine sim_assert fun _ => sim_assert fun _ => sim_ite (sim_ok ⟨ht, rfl⟩) ?_
  refine sim_bind (pushPath_b hR hB ht (by omega)) ?_
  rintro t1 t1' ⟨h1, -⟩
  simp only [← h1.1.size]
  refine sim_loop (Q := fun a b => a.1 = b.1 ∧ 1 ≤ a.1 ∧ RS a.2 b.2 ∧ norm a.2 ≤ B)
    ⟨rfl, by simp only; omega, hR.e, by simp only [hB.e]; omega⟩ ?_
  rintro ⟨a, s⟩ ⟨a', s'⟩ ⟨e1, ha, hs, hsB⟩
  simp only at e1 ha hs hsB
  subst e1
  refine sim_bind (Q := fun x y => x = y ∧ 1 ≤ x)
    (sim_whileC (Q := fun x y => x = y ∧ 1 ≤ x) ⟨rfl, ha⟩ ?_) ?_
  · rintro x _ ⟨rfl, hx⟩
    refine sim_ok ⟨rfl, ?_⟩
    by_cases h : x % 2 = 0
    · simp only [h, decide_true, if_true]
      exact sim_ok ⟨rfl, by rw [Nat.shiftRight_one]; omega⟩
    · simp only [h, decide_false, Bool.false_eq_true, if_false]
      exact ⟨trivial, hx⟩
  rintro a _ ⟨rfl, ha⟩
  refine sim_bind (sim_idx' h1.1.d _) fun x x' hx => ?_
  have hxb := entry_le h1.2 hx.2
  refine sim_bind (op_sim hR hB hs hx.1 hsB hxb) fun y y' hy => ?_
  rw [hg _ _ hy.1]
  refine sim_ite ?_ ?_
  · refine sim_bind (Q := fun a b => a.1 = b.1 ∧ 1 ≤ a.1 ∧ (RS a.2.1 b.2.1 ∧ norm a.2.1 ≤ B) ∧
      TP norm fnorm RS RF N Z B c none1 a.2.2 b.2.2) (sim_while ⟨rfl, ha, ⟨hs, hsB⟩, h1⟩ ?_ ?_) ?_
    · rintro ⟨a, b, c⟩ ⟨a', b', c'⟩ ⟨e1, ha, hb, hc⟩
      simp only at e1 hc
      subst e1
      simp only [hc.1.size]
      exact sim_refl
    · rintro ⟨a, b, c⟩ ⟨a', b', c'⟩ ⟨e1, ha, hb, hc⟩
      simp only at e1 ha hb hc
      subst e1
      refine sim_bind (push_b hR hB hc ha) ?_
      rintro t2 t2' ⟨h2, -⟩
      refine sim_bind (sim_idx' h2.1.d _) fun x x' hx => ?_
      have hxb := entry_le h2.2 hx.2
      refine sim_bind (op_sim hR hB hb.1 hx.1 hb.2 hxb) fun y y' hy => ?_
      rw [hg _ _ hy.1]
      have h8 := hy.2
      have h9 := hb.2
      exact sim_ite (sim_ok ⟨rfl, by simp only; omega, ⟨hy.1, by simp only at h8 h9 ⊢; omega⟩, h2⟩)
        (sim_ok ⟨rfl, by simp only; omega, hb, h2⟩)
    · rintro ⟨a, b, c⟩ ⟨a', b', c'⟩ ⟨e1, ha, hb, hc⟩
      simp only at e1 hc
      subst e1
      simp only [hc.1.size]
      refine sim_bind sim_refl ?_
      rintro r _ rfl
      exact sim_ok ⟨hc, rfl⟩
  · refine sim_bind (sim_idx' h1.1.d _) fun x x' hx => ?_
    have hxb := entry_le h1.2 hx.2
    refine sim_bind (op_sim hR hB hs hx.1 hsB hxb) fun y y' hy => ?_
    have h8 := hy.2
    simp only at h8
    refine sim_ite (sim_ok ⟨h1, h1.1.n⟩) (sim_ok ⟨rfl, by simp only; omega, hy.1, by simp only; omega⟩)

theorem minLeft_b (hR : Represents RS RF R M) (hB : Bounded norm fnorm B R) {c : Nat → Nat}
    (ht : TP norm fnorm RS RF N Z B c none1 t t') (r : Nat) {g : S → Bool} {g' : A → Bool}
    (hg : ∀ x x', RS x x' → g x = g' x') :
    Sim False False (fun o o' => TP norm fnorm RS RF N Z B c none1 o.1 o'.1 ∧ o.2 = o'.2) (t.minLeft R r g)
      (t'.minLeft M.ops r g') := by
  unfold LazySegtree.minLeft
  have hge : g R.e = g' M.ops.e := hg _ _ hR.e
  simp only [← ht.1.n, ← ht.1.size, hge]
  have hpow := ht.2.dims.pow
  have hps := Nat.two_pow_pos t.log
  refine sim_assert fun _ => sim_assert fun _ => ?_
  by_cases hr0 : r = 0
  · rw [if_pos hr0, if_pos hr0]; exact sim_ok ⟨ht, rfl⟩
  rw [if_neg hr0, if_neg hr0]
  refine sim_bind (pushPath_b hR hB ht (by omega)) ?_
  rintro t1 t1' ⟨h1, -⟩
  simp only [← h1.1.size]
  refine sim_loop (Q := fun a b => a.1 = b.1 ∧ 2 ≤ a.1 ∧ RS a.2 b.2 ∧ norm a.2 ≤ B)
    ⟨rfl, by simp only; omega, hR.e, by simp only [hB.e]; omega⟩ ?_
  rintro ⟨a, s⟩ ⟨a', s'⟩ ⟨e1, ha, hs, hsB⟩
  simp only at e1 ha hs hsB
  subst e1
  refine sim_bind (Q := fun x y => x = y ∧ 1 ≤ x) ?_ ?_
  · rw [show subU a 1 = ok (a - 1) from by unfold subU; rw [if_pos (by omega)]]
    exact sim_ok ⟨rfl, by omega⟩
  rintro a _ ⟨rfl, ha⟩
  refine sim_bind (Q := fun x y => x = y ∧ 1 ≤ x)
    (sim_whileC (Q := fun x y => x = y ∧ 1 ≤ x) ⟨rfl, by omega⟩ ?_) ?_
  · rintro x _ ⟨rfl, hx⟩
    refine sim_ok ⟨rfl, ?_⟩
    by_cases h : x > 1 ∧ x % 2 ≠ 0
    · rw [if_pos (by simpa using h)]
      exact sim_ok ⟨rfl, by rw [Nat.shiftRight_one]; omega⟩
    · rw [if_neg (by simpa using h)]
      exact ⟨rfl, hx⟩
  rintro a _ ⟨rfl, ha⟩
  refine sim_bind (sim_idx' h1.1.d _) fun x x' hx => ?_
  have hxb := entry_le h1.2 hx.2
  refine sim_bind (op_sim hR hB hx.1 hs hxb hsB) fun y y' hy => ?_
  rw [hg _ _ hy.1]
  refine sim_ite ?_ ?_
  · refine sim_bind (Q := fun a b => a.1 = b.1 ∧ 1 ≤ a.1 ∧ (RS a.2.1 b.2.1 ∧ norm a.2.1 ≤ B) ∧
      TP norm fnorm RS RF N Z B c none1 a.2.2 b.2.2) (sim_while ⟨rfl, ha, ⟨hs, hsB⟩, h1⟩ ?_ ?_) ?_
    · rintro ⟨a, b, c⟩ ⟨a', b', c'⟩ ⟨e1, ha, hb, hc⟩
      simp only at e1 hc
      subst e1
      simp only [hc.1.size]
      exact sim_refl
    · rintro ⟨a, b, c⟩ ⟨a', b', c'⟩ ⟨e1, ha, hb, hc⟩
      simp only at e1 ha hb hc
      subst e1
      refine sim_bind (push_b hR hB hc ha) ?_
      rintro t2 t2' ⟨h2, -⟩
      refine sim_bind (sim_idx' h2.1.d _) fun x x' hx => ?_
      have hxb := entry_le h2.2 hx.2
      refine sim_bind (op_sim hR hB hx.1 hb.1 hxb hb.2) fun y y' hy => ?_
      rw [hg _ _ hy.1]
      have h8 := hy.2
      have h9 := hb.2
      refine sim_ite ?_ (sim_ok ⟨rfl, by simp only; omega, hb, h2⟩)
      refine sim_bind (Q := fun x y => x = y ∧ 1 ≤ x) ?_ ?_
      · rw [show subU (2 * a + 1) 1 = ok (2 * a) from by unfold subU; rw [if_pos (by omega)]; rfl]
        exact sim_ok ⟨rfl, by omega⟩
      rintro r _ ⟨rfl, hr⟩
      exact sim_ok ⟨rfl, hr, ⟨hy.1, by simp only at h8 h9 ⊢; omega⟩, h2⟩
    · rintro ⟨a, b, c⟩ ⟨a', b', c'⟩ ⟨e1, ha, hb, hc⟩
      simp only at e1 hc
      subst e1
      simp only [hc.1.size]
      refine sim_bind sim_refl ?_
      rintro r _ rfl
      exact sim_ok ⟨hc, rfl⟩
  · refine sim_bind (sim_idx' h1.1.d _) fun x x' hx => ?_
    have hxb := entry_le h1.2 hx.2
    refine sim_bind (op_sim hR hB hx.1 hs hxb hsB) fun y y' hy => ?_
    have h8 := hy.2
    simp only at h8
    by_cases e : a &&& wnegU 64 a = a
    · rw [if_pos e, if_pos e]; exact sim_ok ⟨h1, rfl⟩
    · rw [if_neg e, if_neg e]
      refine sim_ok ⟨rfl, ?_, hy.1, by simp only; omega⟩
      simp only
      have : a ≠ 1 := by
        rintro rfl
        exact e and_wneg_one
      omega

theorem pend_const {z : Nat → Nat} (h : ∀ k, z k = 0) (y : Nat) : pend z y = 0 := pend_zero fun _ _ _ => h _

/-- Bound of the leaf `i` of a tree of `size` leaves, from the bounds of the elements. -/
def leafB (Z : Nat) (b : List Nat) (i : Nat) : Nat := b.getD (i - Z) 0

theorem desc_exists {L y : Nat} (h1 : 1 ≤ y) (h2 : y < 2 * 2 ^ L) : ∃ i, Desc y i ∧ 2 ^ L ≤ i ∧ i < 2 * 2 ^ L := by
  induction L with
  | zero => exact ⟨y, desc_refl y, by simpa using h1, by simpa using h2⟩
  | succ L ih =>
    by_cases h : y < 2 * 2 ^ L
    · obtain ⟨i, ⟨s, hs⟩, i2, i3⟩ := ih h
      refine ⟨2 * i, ⟨s + 1, ?_⟩, by rw [Nat.pow_succ]; omega, by rw [Nat.pow_succ]; omega⟩
      rw [Nat.pow_succ', ← Nat.div_div_eq_div_mul, Nat.mul_div_cancel_left _ (by omega), hs]
    · exact ⟨y, desc_refl y, by rw [Nat.pow_succ]; omega, h2⟩

theorem from_b (hR : Represents RS RF R M) (hB : Bounded norm fnorm B R) {v : List S} {a : List A}
    (hv : ListRel RS v a) (hvB : ∀ x ∈ v, norm x ≤ B) :
    Sim False False (fun t t' => ∃ Z, v.length ≤ Z ∧ TP norm fnorm RS RF v.length Z B (leafB Z (v.map norm)) none1 t t')
      (LazySegtree.from R v) (LazySegtree.from M.ops a) := by
  unfold LazySegtree.from
  simp only [hv.1]
  refine sim_bind sim_refl ?_
  rintro L _ rfl
  rw [Nat.one_shiftLeft]
  have hlen : v.length = a.length := hv.1
  refine sim_bind (Q := fun d d' => ListRel RS d d' ∧ a.length ≤ 2 ^ L ∧ d.length = 2 * 2 ^ L ∧
    ∀ k, at' norm d k = if k < 2 ^ L then 0 else leafB (2 ^ L) (v.map norm) k) ?_ ?_
  · have hw := writeSlice_sim (p := False) (q := False) (ListRel.replicate hR.e (2 * 2 ^ L)) hv (2 ^ L)
    by_cases hle : a.length ≤ 2 ^ L
    · have hws : writeSlice (List.replicate (2 * 2 ^ L) R.e) (2 ^ L) v =
          .ok (List.replicate (2 ^ L) R.e ++ v ++ List.replicate (2 ^ L - v.length) R.e) := by
        unfold writeSlice
        rw [if_pos (by simp; omega)]
        rw [List.take_replicate, List.drop_replicate]
        rw [show min (2 ^ L) (2 * 2 ^ L) = 2 ^ L by omega,
          show 2 * 2 ^ L - (2 ^ L + v.length) = 2 ^ L - v.length by omega]
      rcases hw with ⟨h, -⟩ | ⟨h, -⟩ | ⟨e, -⟩ | ⟨e, -⟩ | ⟨d, d', e, e', hd⟩
      · exact h.elim
      · exact h.elim
      · rw [hws] at e; cases e
      · rw [hws] at e; cases e
      · rw [e, e']
        refine sim_ok ⟨hd, hle, ?_⟩
        rw [hws] at e; cases e
        refine ⟨by simp; omega, ?_⟩
        intro k
        unfold at' leafB
        by_cases h : k < 2 ^ L
        · rw [if_pos h, List.append_assoc, List.getElem?_append_left (by simpa), List.getElem?_replicate, if_pos h]
          simp [hB.e]
        · rw [if_neg h, List.append_assoc, List.getElem?_append_right (by simp; omega)]
          simp only [List.length_replicate, List.getD_eq_getElem?_getD, List.getElem?_map]
          by_cases h2 : k - 2 ^ L < v.length
          · rw [List.getElem?_append_left h2]
          · rw [List.getElem?_append_right (by omega), List.getElem?_replicate,
              List.getElem?_eq_none (show v.length ≤ k - 2 ^ L by omega)]
            split <;> simp [hB.e]
    · have hws : writeSlice (List.replicate (2 * 2 ^ L) R.e) (2 ^ L) v = .panic := by
        unfold writeSlice
        rw [if_neg (by simp; omega)]
      have hws2 : writeSlice (List.replicate (2 * 2 ^ L) M.ops.e) (2 ^ L) a = .panic := by
        unfold writeSlice
        rw [if_neg (by simp; omega)]
      rw [hws, hws2]; exact sim_panic
  rintro d d' ⟨hd, hle, hdl, hdk⟩
  have hz : ∀ k, at' fnorm (List.replicate (2 ^ L) R.idMap) k = 0 := by
    intro k
    unfold at'
    rw [List.getElem?_replicate]
    split <;> simp [hB.idMap]
  have hlB : ∀ k, leafB (2 ^ L) (v.map norm) k ≤ B := by
    intro k
    unfold leafB
    rw [List.getD_eq_getElem?_getD, List.getElem?_map]
    cases e : v[k - 2 ^ L]? with
    | none => simp
    | some x => simpa using hvB x (List.mem_of_getElem? e)
  refine (sim_forRangeRev (Q := TP norm fnorm RS RF v.length (2 ^ L) B (leafB (2 ^ L) (v.map norm)) none1)
    ⟨⟨rfl, rfl, rfl, hd, ListRel.replicate hR.idMap _⟩, ⟨⟨hdl, by simp, rfl, hlen.symm, rfl⟩, ?_, ?_⟩⟩ ?_).mono ?_
  · intro y hy
    simp only
    rw [pend_const hz, hdk]
    split
    · omega
    · exact hlB y
  · intro y hy1 hy _
    simp only at hy ⊢
    rw [pend_const hz, hdk]
    obtain ⟨i, i1, i2, i3⟩ := desc_exists hy1 hy
    split
    · exact ⟨i, i1, i2, i3, by omega⟩
    · have := desc_leaf i1 (N := 2 ^ L) (by omega) i3
      subst this
      exact ⟨i, i1, i2, i3, by omega⟩
  · intro i s s' hs
    exact update_b hR hB hs _ (fun _ _ h => h) (fun _ => ⟨fun h => h, fun h => h⟩)
  · intro t t' h
    exact ⟨2 ^ L, by omega, hlen ▸ h⟩

end Verif.LazyB
