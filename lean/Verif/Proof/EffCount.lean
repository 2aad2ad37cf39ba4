import Verif.Prelude.Bits
import Verif.Prelude.Post
import Verif.Proof.Util
import Verif.Proof.SegtreeAny
import Verif.Spec.Eff
/-! How often the functions of the trees call the user's operations. -/
namespace Verif.EffP
open Res Model Spec

variable {S F T U α β σ : Type}

/-! ### Rules -/

theorem post_forRange {I : Nat → σ → Prop} {f : Nat → σ → Res σ} {lo hi : Nat} {s : σ} (hle : lo ≤ hi) (h : I lo s)
    (hf : ∀ i s, lo ≤ i → i < hi → I i s → Post (f i s) (I (i + 1))) : Post (forRange lo hi s f) (I hi) := by
  unfold forRange
  have : ∀ cnt i s, i + cnt = hi → lo ≤ i → I i s → Post (forCount cnt i s f) (I hi) := by
    intro cnt
    induction cnt with
    | zero => intro i s e _ h; cases e; exact post_ok h
    | succ cnt ih =>
      intro i s e hi h
      exact post_bind ((hf i s hi (by omega) h).mono fun s' h' => ih (i + 1) s' (by omega) (by omega) h')
  exact this _ lo s (by omega) (Nat.le_refl _) h

theorem post_forRangeRev {I : Nat → σ → Prop} {f : Nat → σ → Res σ} {lo hi : Nat} {s : σ} (hle : lo ≤ hi)
    (h : I hi s) (hf : ∀ i s, lo ≤ i → i < hi → I (i + 1) s → Post (f i s) (I i)) :
    Post (forRangeRev lo hi s f) (I lo) := by
  unfold forRangeRev
  have : ∀ cnt s, cnt ≤ hi - lo → I (lo + cnt) s → Post (forRevCount cnt lo s f) (I lo) := by
    intro cnt
    induction cnt with
    | zero => intro s _ h; exact post_ok h
    | succ cnt ih =>
      intro s hc h
      exact post_bind ((hf (lo + cnt) s (by omega) (by omega) h).mono fun s' h' => ih s' (by omega) h')
  exact this _ s (Nat.le_refl _) (by rw [show lo + (hi - lo) = hi by omega]; exact h)

theorem post_while {I Q : σ → Prop} {c : σ → Res Bool} {f : σ → Res σ} {fuel : Nat} {s : σ} (h : I s)
    (hc : ∀ s, I s → Post (c s) fun b => if b then Post (f s) I else Q s) : Post (whileLoop fuel s c f) Q := by
  induction fuel generalizing s with
  | zero => intro a e; cases e
  | succ fuel ih =>
    unfold whileLoop
    refine post_bind ((hc s h).mono ?_)
    intro b hb
    cases b
    · exact post_ok hb
    · exact post_bind (Post.mono hb fun s' h' => ih h')

theorem post_any {x : Res α} : Post x fun _ => True := fun _ _ => trivial

theorem post_ite {c : Prop} [Decidable c] {x y : Res α} {P : α → Prop} (h : c → Post x P) (h' : ¬ c → Post y P) :
    Post (if c then x else y) P := by
  split
  · exact h ‹_›
  · exact h' ‹_›

/-- A step that does not matter. -/
theorem post_skip {x : Res α} {f : α → Res β} {P : β → Prop} (h : ∀ a, Post (f a) P) : Post (x >>= f) P :=
  post_bind fun a _ => h a

theorem post_add {f : T → U → Res S} {x : T} {y : U} {w : Calls} {k : S × Calls → Res β} {P : β → Prop}
    (h : ∀ z, Post (k (z, ⟨w.op + 1, w.map, w.comp, w.pred⟩)) P) : Post (countAdd f x y w >>= k) P := by
  unfold countAdd
  rw [bind_bind_res]
  exact post_skip fun z => h z

/-! ### Levels -/

/-- Node `k` has height `j` in the tree with `2 ^ L` leaves. -/
structure At (L j k : Nat) : Prop where
  le : j ≤ L
  lo : 2 ^ (L - j) ≤ k
  hi : k < 2 * 2 ^ (L - j)

theorem At.leaf {L p : Nat} (h : p < 2 ^ L) : At L 0 (p + 2 ^ L) := ⟨Nat.zero_le _, by simp, by simp; omega⟩

theorem At.up {L j k : Nat} (h : At L j k) (hj : j < L) : At L (j + 1) (k / 2) := by
  have e : 2 ^ (L - j) = 2 * 2 ^ (L - (j + 1)) := by rw [← Nat.pow_succ']; congr 1; omega
  have := h.lo; have := h.hi
  exact ⟨hj, by omega, by omega⟩

theorem At.shift {L p : Nat} (h : At L 0 p) : ∀ j, j ≤ L → At L j (p >>> j) := by
  intro j
  induction j with
  | zero => intro _; exact h
  | succ j ih =>
    intro hj
    have := (ih (by omega)).up (by omega)
    rwa [Nat.shiftRight_succ]

theorem At.left {L j k : Nat} (h : At L (j + 1) k) : At L j (2 * k) ∧ At L j (2 * k + 1) := by
  have h1 := h.le; have h2 := h.lo; have h3 := h.hi
  have e : 2 ^ (L - j) = 2 * 2 ^ (L - (j + 1)) := by rw [← Nat.pow_succ']; congr 1; omega
  exact ⟨⟨by omega, by omega, by omega⟩, by omega, by omega, by omega⟩

theorem At.lt_iff {L j k : Nat} (h : At L j k) : k < 2 ^ L ↔ 1 ≤ j := by
  have h1 := h.le; have h2 := h.lo; have h3 := h.hi
  constructor
  · intro hk
    rcases Nat.eq_zero_or_pos j with rfl | hp
    · simp at h2; omega
    · exact hp
  · intro hj
    have e : 2 ^ (L - j) * 2 ≤ 2 ^ L := by
      rw [← Nat.pow_succ]; exact Nat.pow_le_pow_right (by omega) (by omega)
    omega

theorem At.pos {L j k : Nat} (h : At L j k) : 0 < k := by
  have := h.lo; have := Nat.two_pow_pos (L - j); omega

/-- A node of height at least one that is even, or not the root, has a parent. -/
theorem At.lt_top {L j k : Nat} (h : At L j k) (hk : 2 ≤ k) : j < L := by
  have h1 := h.le; have h3 := h.hi
  by_contra hc
  obtain rfl : j = L := by omega
  simp at h3; omega

/-! ### The lazy segment tree: single nodes -/

/-- The numbers that never change. -/
structure SameShape (t t' : LazySegtree S F) : Prop where
  n : t'.n = t.n
  size : t'.size = t.size
  log : t'.log = t.log

theorem SameShape.rfl' {t : LazySegtree S F} : SameShape t t := ⟨rfl, rfl, rfl⟩
theorem SameShape.trans {a b c : LazySegtree S F} (h : SameShape a b) (h' : SameShape b c) : SameShape a c :=
  ⟨h'.n.trans h.n, h'.size.trans h.size, h'.log.trans h.log⟩

section
variable {M : MapMonoidOps S F} {t : LazySegtree S F} {w : Calls}

theorem update_post {k : Nat} : Post (t.updateE (countMaps M) k w) fun o =>
    SameShape t o.1 ∧ o.2 = ⟨w.op + 1, w.map, w.comp, w.pred⟩ := by
  unfold LazySegtree.updateE
  refine post_skip fun x => post_skip fun y => post_add fun z => post_skip fun d => post_ok ⟨⟨rfl, rfl, rfl⟩, rfl⟩

theorem allApply_post {k : Nat} {f : F} : Post (t.allApplyE (countMaps M) k f w) fun o =>
    SameShape t o.1 ∧ o.2 = ⟨w.op, w.map + 1, w.comp + (if k < t.size then 1 else 0), w.pred⟩ := by
  unfold LazySegtree.allApplyE
  refine post_skip fun x => ?_
  unfold countMaps
  simp only [bind_bind_res]
  refine post_skip fun y => ?_
  simp only [ok_bind]
  refine post_skip fun d => ?_
  refine post_ite (fun h => ?_) fun h => ?_
  · refine post_skip fun z => post_skip fun c => post_skip fun lz => post_ok ⟨⟨rfl, rfl, rfl⟩, ?_⟩
    rw [if_pos h]
  · refine post_ok ⟨⟨rfl, rfl, rfl⟩, ?_⟩
    rw [if_neg h]; rfl

theorem push_post {j k : Nat} (hs : t.size = 2 ^ t.log) (hk : At t.log (j + 1) k) :
    Post (t.pushE (countMaps M) k w) fun o =>
      SameShape t o.1 ∧ o.2 = ⟨w.op, w.map + 2, w.comp + (if j = 0 then 0 else 2), w.pred⟩ := by
  unfold LazySegtree.pushE
  refine post_skip fun x => post_bind (allApply_post.mono ?_)
  rintro ⟨t1, w1⟩ ⟨h1, rfl⟩
  refine post_skip fun x => post_bind (allApply_post.mono ?_)
  rintro ⟨t2, w2⟩ ⟨h2, rfl⟩
  refine post_skip fun x => post_ok ⟨⟨?_, ?_, ?_⟩, ?_⟩
  · exact h2.n.trans h1.n
  · exact h2.size.trans h1.size
  · exact h2.log.trans h1.log
  · simp only
    have e1 := hk.left.1.lt_iff
    have e2 := hk.left.2.lt_iff
    rw [h1.size, hs]
    simp only [e1, e2]
    by_cases h0 : j = 0
    · simp [h0]
    · have h1 : 1 ≤ j := by omega
      simp [h0, h1]

theorem pushPath_post {p : Nat} (hs : t.size = 2 ^ t.log) (hp : At t.log 0 p) :
    Post (t.pushPathE (countMaps M) p w) fun o =>
      SameShape t o.1 ∧ o.2 = ⟨w.op, w.map + 2 * t.log, w.comp + 2 * (t.log - 1), w.pred⟩ := by
  unfold LazySegtree.pushPathE
  refine (post_forRangeRev (I := fun i o => SameShape t o.1 ∧ o.2 = ⟨w.op, w.map + 2 * (t.log + 1 - i),
    w.comp + 2 * (if i = 1 then t.log - 1 else t.log + 1 - i), w.pred⟩) (by omega) ⟨.rfl', ?_⟩ ?_).mono ?_
  · by_cases h0 : t.log = 0
    · simp [h0]
    · simp [h0]
  · rintro i ⟨t1, w1⟩ hi hi' ⟨h1, rfl⟩
    simp only at h1 ⊢
    obtain ⟨j, rfl⟩ : ∃ j, i = j + 1 := ⟨i - 1, by omega⟩
    have ha := hp.shift (j + 1) (by omega)
    rw [← h1.log] at ha
    refine (push_post (by rw [h1.size, h1.log, hs]) ha).mono ?_
    rintro ⟨t2, w2⟩ ⟨h2, rfl⟩
    refine ⟨h1.trans h2, ?_⟩
    simp only [Calls.mk.injEq, true_and, and_true]
    refine ⟨by omega, ?_⟩
    by_cases h0 : j = 0
    · subst h0; simp
    · simp [h0]; omega
  · rintro ⟨t1, w1⟩ ⟨h1, rfl⟩
    exact ⟨h1, by simp⟩

theorem updatePath_post {p : Nat} : Post (t.updatePathE (countMaps M) p w) fun o =>
    SameShape t o.1 ∧ o.2 = ⟨w.op + t.log, w.map, w.comp, w.pred⟩ := by
  unfold LazySegtree.updatePathE
  refine (post_forRange (I := fun i o => SameShape t o.1 ∧ o.2 = ⟨w.op + (i - 1), w.map, w.comp, w.pred⟩)
    (by omega) ⟨.rfl', by simp⟩ ?_).mono ?_
  · rintro i ⟨t1, w1⟩ hi hi' ⟨h1, rfl⟩
    refine update_post.mono ?_
    rintro ⟨t2, w2⟩ ⟨h2, rfl⟩
    refine ⟨h1.trans h2, ?_⟩
    simp only [Calls.mk.injEq, and_true]
    omega
  · rintro ⟨t1, w1⟩ ⟨h1, rfl⟩
    exact ⟨h1, by simp⟩

theorem lz_set_post {p : Nat} {x : S} (hs : t.size = 2 ^ t.log) (hn : t.n ≤ t.size) :
    Post (t.setE (countMaps M) p x w) fun o =>
      SameShape t o.1 ∧ o.2 = ⟨w.op + t.log, w.map + 2 * t.log, w.comp + 2 * (t.log - 1), w.pred⟩ := by
  unfold LazySegtree.setE
  refine post_bind (post_assert.mono fun _ hp => ?_)
  have ha : At t.log 0 (p + t.size) := by rw [hs]; exact .leaf (by omega)
  refine post_bind ((pushPath_post hs ha).mono ?_)
  rintro ⟨t1, w1⟩ ⟨h1, rfl⟩
  refine post_skip fun d => updatePath_post.mono ?_
  rintro ⟨t2, w2⟩ ⟨h2, rfl⟩
  have e := h1.log
  simp only at e
  refine ⟨h1.trans ⟨h2.n, h2.size, h2.log⟩, ?_⟩
  simp only [e]

theorem lz_get_post {p : Nat} (hs : t.size = 2 ^ t.log) (hn : t.n ≤ t.size) :
    Post (t.getE (countMaps M) p w) fun o =>
      SameShape t o.1.1 ∧ o.2 = ⟨w.op, w.map + 2 * t.log, w.comp + 2 * (t.log - 1), w.pred⟩ := by
  unfold LazySegtree.getE
  refine post_bind (post_assert.mono fun _ hp => ?_)
  have ha : At t.log 0 (p + t.size) := by rw [hs]; exact .leaf (by omega)
  refine post_bind ((pushPath_post hs ha).mono ?_)
  rintro ⟨t1, w1⟩ ⟨h1, rfl⟩
  exact post_skip fun d => post_ok ⟨h1, rfl⟩

theorem lz_apply_post {p : Nat} {f : F} (hs : t.size = 2 ^ t.log) (hn : t.n ≤ t.size) :
    Post (t.applyE (countMaps M) p f w) fun o =>
      SameShape t o.1 ∧ o.2 = ⟨w.op + t.log, w.map + 2 * t.log + 1, w.comp + 2 * (t.log - 1), w.pred⟩ := by
  unfold LazySegtree.applyE
  refine post_bind (post_assert.mono fun _ hp => ?_)
  have ha : At t.log 0 (p + t.size) := by rw [hs]; exact .leaf (by omega)
  refine post_bind ((pushPath_post hs ha).mono ?_)
  rintro ⟨t1, w1⟩ ⟨h1, rfl⟩
  refine post_skip fun x => ?_
  have em : ∀ a b c, (countMaps M).mapping a b c = (M.mapping a b >>= fun y => ok (y, { c with map := c.map + 1 })) :=
    fun _ _ _ => rfl
  simp only [em, bind_bind_res, ok_bind]
  refine post_skip fun y => post_skip fun d => updatePath_post.mono ?_
  rintro ⟨t2, w2⟩ ⟨h2, rfl⟩
  have e := h1.log
  simp only at e
  refine ⟨h1.trans ⟨h2.n, h2.size, h2.log⟩, ?_⟩
  simp only [e]

theorem ceil_post {v : List S} {e : S} : Post (ceilLg (v.length % 2 ^ 32)) fun L =>
    Post (writeSlice (List.replicate (2 * 1 <<< L) e) (1 <<< L) v) fun _ => Balanced v.length L (1 <<< L) := by
  intro L e1 d e2
  have hm : v.length % 2 ^ 32 < 2 ^ 32 := Nat.mod_lt _ (by omega)
  rw [ceilLg_eq hm] at e1
  cases e1
  rw [Nat.one_shiftLeft] at e2 ⊢
  unfold writeSlice at e2
  split at e2
  · rename_i h
    rw [List.length_replicate] at h
    have hl : v.length < 2 ^ 32 := by
      by_contra hc
      have := SegAny.size_lt (Nat.le_of_not_lt hc)
      omega
    rw [Nat.mod_eq_of_lt hl] at h ⊢
    refine ⟨rfl, by omega, ?_, bitLen_le_iff.2 (by omega)⟩
    intro k hk
    have := Nat.two_pow_pos k
    exact bitLen_le_iff.2 (by omega)
  · cases e2

theorem lz_from_post {v : List S} : Post (LazySegtree.fromE (countMaps M) v w) fun o =>
    Balanced o.1.n o.1.log o.1.size ∧ o.1.n = v.length ∧ o.2 = ⟨w.op + (o.1.size - 1), w.map, w.comp, w.pred⟩ := by
  unfold LazySegtree.fromE
  refine post_bind (ceil_post.mono fun L h => post_bind (Post.mono h fun d hb => ?_))
  have hp : 1 ≤ 1 <<< L := by rw [Nat.one_shiftLeft]; exact Nat.two_pow_pos L
  refine (post_forRangeRev (I := fun i o => o.1.n = v.length ∧ o.1.log = L ∧ o.1.size = 1 <<< L ∧
    o.2 = ⟨w.op + (1 <<< L - i), w.map, w.comp, w.pred⟩) hp ⟨rfl, rfl, rfl, by simp⟩ ?_).mono ?_
  · rintro i ⟨t1, w1⟩ hi hi' ⟨h1, h2, h3, rfl⟩
    refine update_post.mono ?_
    rintro ⟨t2, w2⟩ ⟨k, rfl⟩
    refine ⟨k.n.trans h1, k.log.trans h2, k.size.trans h3, ?_⟩
    simp only [Calls.mk.injEq, and_true]
    omega
  · rintro ⟨t1, w1⟩ ⟨h1, h2, h3, rfl⟩
    simp only at h1 h2 h3 ⊢
    rw [h1, h2, h3]
    exact ⟨hb, rfl, rfl⟩

/-! ### Ranges -/

/-- The number `c` of nodes taken so far by the loop over a range, at the pair `l`, `r`. -/
structure Nodes (L l r c : Nat) : Prop where
  le : l ≤ r
  all : c ≤ max 1 (2 * (L - 1))
  lvl : l < r → ∃ j, j ≤ L ∧ 2 ^ (L - j) ≤ l ∧ r ≤ 2 * 2 ^ (L - j) ∧ c ≤ 2 * j ∧
    (r = 2 * 2 ^ (L - j) → c ≤ j) ∧ (l = 2 ^ (L - j) → c ≤ j) ∧ (r = 2 * 2 ^ (L - j) → l = 2 ^ (L - j) → c = 0)

theorem Nodes.start {L l r : Nat} (h : l ≤ r) (hr : r ≤ 2 ^ L) : Nodes L (l + 2 ^ L) (r + 2 ^ L) 0 :=
  ⟨by omega, by omega, fun _ => ⟨0, by omega, by simp, by simp; omega, by simp, by simp, by simp, by simp⟩⟩

theorem Nodes.step {L l r c : Nat} (h : Nodes L l r c) (hlr : l < r) :
    Nodes L ((l + l % 2) >>> 1) ((r - r % 2) >>> 1) (c + l % 2 + r % 2) := by
  obtain ⟨j, h1, h2, h3, h4, h5, h6, h7⟩ := h.lvl hlr
  rw [Nat.shiftRight_one, Nat.shiftRight_one]
  by_cases hj : j = L
  · subst hj
    simp at h2 h3 h5 h6 h7
    obtain rfl : l = 1 := by omega
    obtain rfl : r = 2 := by omega
    have := h7 rfl rfl
    subst this
    exact ⟨by omega, by omega, fun h => by omega⟩
  · have e : 2 ^ (L - j) = 2 * 2 ^ (L - (j + 1)) := by rw [← Nat.pow_succ']; congr 1; omega
    have hX := Nat.two_pow_pos (L - (j + 1))
    generalize hx : 2 ^ (L - (j + 1)) = X at *
    rw [e] at h2 h3 h5 h6 h7
    refine ⟨by omega, ?_, fun _ => ⟨j + 1, by omega, by omega, by omega, by omega, by omega, by omega, by omega⟩⟩
    by_cases hj' : j + 1 = L
    · have hX1 : X = 1 := by rw [← hx, hj']; simp
      subst hX1
      omega
    · omega

theorem odd_bit {l : Nat} : (l &&& 1 ≠ 0) ↔ l % 2 = 1 := by
  rw [Nat.and_one_is_mod]; omega

theorem shape_shift {L l i : Nat} (h : (l >>> i) <<< i ≠ l) : l % 2 ^ i ≠ 0 := by
  intro e
  apply h
  rw [Nat.shiftRight_eq_div_pow, Nat.shiftLeft_eq]
  exact Nat.div_mul_cancel (Nat.dvd_of_mod_eq_zero e)

/-- A right end that is not a multiple of `2 ^ i` is a leaf. -/
theorem right_leaf {L r i : Nat} (hi : i ≤ L) (h1 : 2 ^ L ≤ r) (h2 : r ≤ 2 * 2 ^ L) (h : (r >>> i) <<< i ≠ r) :
    2 ^ L < r ∧ r < 2 * 2 ^ L := by
  have hm := shape_shift (L := L) h
  have hd : 2 ^ i ∣ 2 ^ L := Nat.pow_dvd_pow 2 hi
  constructor
  · rcases Nat.lt_or_eq_of_le h1 with h | rfl
    · exact h
    · exact absurd (Nat.mod_eq_zero_of_dvd hd) hm
  · rcases Nat.lt_or_eq_of_le h2 with h | rfl
    · exact h
    · exact absurd (Nat.mod_eq_zero_of_dvd (Dvd.dvd.mul_left hd 2)) hm

theorem optPush {c : Prop} [Decidable c] {j k : Nat} (hs : t.size = 2 ^ t.log) (hk : c → At t.log (j + 1) k) :
    Post (if c then t.pushE (countMaps M) k w else ok (t, w)) fun o =>
      SameShape t o.1 ∧ o.2.op = w.op ∧ o.2.map ≤ w.map + 2 ∧ o.2.comp ≤ w.comp + (if j = 0 then 0 else 2) ∧
        o.2.pred = w.pred := by
  refine post_ite (fun h => (push_post hs (hk h)).mono ?_) fun _ => post_ok ⟨.rfl', rfl, by simp, by simp, rfl⟩
  rintro ⟨t1, w1⟩ ⟨h1, rfl⟩
  exact ⟨h1, rfl, Nat.le_refl _, Nat.le_refl _, rfl⟩

/-- The pushes before a range operation. -/
theorem pushes_post {l r : Nat} {q : Nat → Nat} (hs : t.size = 2 ^ t.log) (hl : At t.log 0 l) 
    (hq : ∀ i, 1 ≤ i → i ≤ t.log → (r >>> i) <<< i ≠ r → At t.log i (q i)) :
    Post (forRangeRev 1 (t.log + 1) ((t, w) : LazySegtree S F × Calls) fun i (t, w) => do
      let (t, w) ← (if (l >>> i) <<< i ≠ l then t.pushE (countMaps M) (l >>> i) w else ok (t, w) :
        Res (LazySegtree S F × Calls))
      (if (r >>> i) <<< i ≠ r then t.pushE (countMaps M) (q i) w else ok (t, w) :
        Res (LazySegtree S F × Calls))) fun o =>
      SameShape t o.1 ∧ o.2.op = w.op ∧ o.2.map ≤ w.map + 4 * t.log ∧ o.2.comp ≤ w.comp + 4 * (t.log - 1) ∧
        o.2.pred = w.pred := by
  refine (post_forRangeRev (I := fun i o => SameShape t o.1 ∧ o.2.op = w.op ∧ o.2.map ≤ w.map + 4 * (t.log + 1 - i) ∧
    o.2.comp ≤ w.comp + 4 * (if i = 1 then t.log - 1 else t.log + 1 - i) ∧ o.2.pred = w.pred) (by omega)
      ⟨.rfl', rfl, by simp, by simp, rfl⟩ ?_).mono ?_
  · rintro i ⟨t1, w1⟩ hi hi' ⟨h1, h2, h3, h4, h5⟩
    obtain ⟨j, rfl⟩ : ∃ j, i = j + 1 := ⟨i - 1, by omega⟩
    simp only at h1 h2 h3 h4 h5 ⊢
    rw [if_neg (by omega)] at h4
    have hs1 : t1.size = 2 ^ t1.log := by rw [h1.size, h1.log, hs]
    refine post_bind ((optPush (j := j) hs1 fun _ => ?_).mono ?_)
    · rw [h1.log]; exact hl.shift _ (by omega)
    rintro ⟨t2, w2⟩ ⟨g1, g2, g3, g4, g5⟩
    simp only at g1 g2 g3 g4 g5
    refine (optPush (j := j) (by rw [g1.size, g1.log, hs1]) fun h => ?_).mono ?_
    · rw [g1.log, h1.log]; exact hq _ (by omega) (by omega) h
    rintro ⟨t3, w3⟩ ⟨k1, k2, k3, k4, k5⟩
    simp only at k1 k2 k3 k4 k5
    refine ⟨(h1.trans g1).trans k1, k2.trans (g2.trans h2), ?_, ?_, k5.trans (g5.trans h5)⟩
    · simp only; omega
    by_cases h0 : j = 0
    · subst h0; simp at g4 k4 h4 ⊢; omega
    · simp [h0] at g4 k4 h4 ⊢; omega
  · rintro ⟨t1, w1⟩ ⟨h1, h2, h3, h4, h5⟩
    exact ⟨h1, h2, by simpa using h3, by simpa using h4, h5⟩

theorem optOpL {d : List S} {f : S → S → Res S} {l : Nat} {s : S} :
    Post (if l &&& 1 ≠ 0 then do
        let x ← idx d l
        let (s, w) ← countAdd f s x w
        ok (l + 1, s, w)
      else ok (l, s, w) : Res (Nat × S × Calls)) fun o =>
      o.1 = l + l % 2 ∧ o.2.2 = ⟨w.op + l % 2, w.map, w.comp, w.pred⟩ := by
  refine post_ite (fun h => ?_) fun h => ?_
  · have := odd_bit.1 h
    exact post_skip fun x => post_add fun z => post_ok ⟨by simp only; omega, by simp only [this]⟩
  · have : l % 2 = 0 := by have := mt odd_bit.2 h; omega
    exact post_ok ⟨by simp only; omega, by simp [this]⟩

theorem optOpR {d : List S} {f : S → S → Res S} {r : Nat} {s : S} :
    Post (if r &&& 1 ≠ 0 then do
        let x ← idx d (r - 1)
        let (s, w) ← countAdd f x s w
        ok (r - 1, s, w)
      else ok (r, s, w) : Res (Nat × S × Calls)) fun o =>
      o.1 = r - r % 2 ∧ o.2.2 = ⟨w.op + r % 2, w.map, w.comp, w.pred⟩ := by
  refine post_ite (fun h => ?_) fun h => ?_
  · have := odd_bit.1 h
    exact post_skip fun x => post_add fun z => post_ok ⟨by simp only; omega, by simp only [this]⟩
  · have : r % 2 = 0 := by have := mt odd_bit.2 h; omega
    exact post_ok ⟨by simp only; omega, by simp [this]⟩

theorem lz_prod_post {l r : Nat} (hs : t.size = 2 ^ t.log) (hn : t.n ≤ t.size) :
    Post (t.prodE (countMaps M) l r w) fun o => SameShape t o.1.1 ∧
      o.2.op ≤ w.op + max 2 (2 * t.log - 1) ∧ o.2.map ≤ w.map + 4 * t.log ∧ o.2.comp ≤ w.comp + 4 * (t.log - 1) ∧
      o.2.pred = w.pred ∧ (l = r → o.2 = w) := by
  unfold LazySegtree.prodE
  refine post_bind (post_assert.mono fun _ ⟨hl, hr⟩ => ?_)
  refine post_ite (fun e => post_ok ⟨.rfl', by simp, by simp, by simp, rfl, fun _ => rfl⟩) fun e => ?_
  have hlr : l < r := by omega
  simp only
  have ha : At t.log 0 (l + t.size) := by rw [hs]; exact .leaf (by omega)
  refine post_bind ((pushes_post (q := fun i => (r + t.size) >>> i) hs ha ?_).mono ?_)
  · intro i h1 h2 h3
    have := right_leaf h2 (by omega) (by omega) h3
    exact At.shift ⟨by omega, by simp; omega, by simp; omega⟩ i h2
  rintro ⟨t1, w1⟩ ⟨h1, h2, h3, h4, h5⟩
  simp only at h1 h2 h3 h4 h5 ⊢
  refine post_bind ((post_while (I := fun s => ∃ c, Nodes t.log s.1 s.2.1 c ∧
      s.2.2.2.2 = ⟨w.op + c, w1.map, w1.comp, w1.pred⟩)
    (Q := fun s => ∃ c, c ≤ max 1 (2 * (t.log - 1)) ∧ s.2.2.2.2 = ⟨w.op + c, w1.map, w1.comp, w1.pred⟩)
    ⟨0, by rw [hs]; exact .start hl (by omega), by simp [← h2]⟩ ?_).mono ?_)
  · rintro ⟨l, r, a, b, w2⟩ ⟨c, hN, rfl⟩
    refine post_ok ?_
    simp only at hN ⊢
    by_cases hlt : l < r
    · simp only [hlt, decide_true, if_true]
      refine post_bind (optOpL.mono ?_)
      rintro ⟨l1, s1, w1⟩ ⟨e1, e2⟩
      simp only at e1 e2
      subst e1; subst e2
      refine post_bind (optOpR.mono ?_)
      rintro ⟨r1, s1, w1⟩ ⟨e1, e2⟩
      simp only at e1 e2
      subst e1; subst e2
      exact post_ok ⟨_, hN.step hlt, by simp only [Nat.add_assoc]⟩
    · simp only [hlt, decide_false]
      exact ⟨c, hN.all, rfl⟩
  · rintro ⟨l, r, a, b, w2⟩ ⟨c, hc, rfl⟩
    simp only
    refine post_add fun z => post_ok ⟨h1, ?_, h3, h4, h5, fun h => absurd h e⟩
    simp only
    omega

theorem optApplyL {l : Nat} {f : F} :
    Post (if l &&& 1 ≠ 0 then do
        let (t, w) ← t.allApplyE (countMaps M) l f w
        ok (l + 1, t, w)
      else ok (l, t, w) : Res (Nat × LazySegtree S F × Calls)) fun o =>
      o.1 = l + l % 2 ∧ SameShape t o.2.1 ∧ o.2.2.op = w.op ∧ o.2.2.map = w.map + l % 2 ∧
        o.2.2.comp ≤ w.comp + l % 2 ∧ o.2.2.pred = w.pred := by
  refine post_ite (fun h => ?_) fun h => ?_
  · have e := odd_bit.1 h
    refine post_bind (allApply_post.mono ?_)
    rintro ⟨t1, w1⟩ ⟨h1, rfl⟩
    refine post_ok ⟨by simp only; omega, h1, rfl, by simp only [e], ?_, rfl⟩
    simp only [e]
    split <;> omega
  · have : l % 2 = 0 := by have := mt odd_bit.2 h; omega
    exact post_ok ⟨by simp only; omega, .rfl', rfl, by simp [this], by simp, rfl⟩

theorem optApplyR {r : Nat} {f : F} :
    Post (if r &&& 1 ≠ 0 then do
        let (t, w) ← t.allApplyE (countMaps M) (r - 1) f w
        ok (r - 1, t, w)
      else ok (r, t, w) : Res (Nat × LazySegtree S F × Calls)) fun o =>
      o.1 = r - r % 2 ∧ SameShape t o.2.1 ∧ o.2.2.op = w.op ∧ o.2.2.map = w.map + r % 2 ∧
        o.2.2.comp ≤ w.comp + r % 2 ∧ o.2.2.pred = w.pred := by
  refine post_ite (fun h => ?_) fun h => ?_
  · have e := odd_bit.1 h
    refine post_bind (allApply_post.mono ?_)
    rintro ⟨t1, w1⟩ ⟨h1, rfl⟩
    refine post_ok ⟨by simp only; omega, h1, rfl, by simp only [e], ?_, rfl⟩
    simp only [e]
    split <;> omega
  · have : r % 2 = 0 := by have := mt odd_bit.2 h; omega
    exact post_ok ⟨by simp only; omega, .rfl', rfl, by simp [this], by simp, rfl⟩

theorem optUpdate {c : Prop} [Decidable c] {k : Nat} :
    Post (if c then t.updateE (countMaps M) k w else ok (t, w)) fun o =>
      SameShape t o.1 ∧ o.2.op ≤ w.op + 1 ∧ o.2.map = w.map ∧ o.2.comp = w.comp ∧ o.2.pred = w.pred := by
  refine post_ite (fun h => update_post.mono ?_) fun _ => post_ok ⟨.rfl', by simp, rfl, rfl, rfl⟩
  rintro ⟨t1, w1⟩ ⟨h1, rfl⟩
  exact ⟨h1, Nat.le_refl _, rfl, rfl, rfl⟩

theorem lz_applyRange_post {l r : Nat} {f : F} (hs : t.size = 2 ^ t.log) (hn : t.n ≤ t.size) :
    Post (t.applyRangeE (countMaps M) l r f w) fun o => SameShape t o.1 ∧
      o.2.op ≤ w.op + 2 * t.log ∧ o.2.map ≤ w.map + 4 * t.log + max 1 (2 * (t.log - 1)) ∧
      o.2.comp ≤ w.comp + 4 * (t.log - 1) + max 1 (2 * (t.log - 1)) ∧
      o.2.pred = w.pred ∧ (l = r → o.2 = w) := by
  unfold LazySegtree.applyRangeE
  refine post_bind (post_assert.mono fun _ ⟨hl, hr⟩ => ?_)
  refine post_ite (fun e => post_ok ⟨.rfl', by simp, by simp; omega, by simp; omega, rfl, fun _ => rfl⟩) fun e => ?_
  have hlr : l < r := by omega
  simp only
  have ha : At t.log 0 (l + t.size) := by rw [hs]; exact .leaf (by omega)
  refine post_bind ((pushes_post (q := fun i => (r + t.size - 1) >>> i) hs ha ?_).mono ?_)
  · intro i h1 h2 h3
    have := right_leaf h2 (by omega) (by omega) h3
    exact At.shift ⟨by omega, by simp; omega, by simp; omega⟩ i h2
  rintro ⟨t1, w1⟩ ⟨h1, h2, h3, h4, h5⟩
  simp only at h1 h2 h3 h4 h5 ⊢
  refine post_bind ((post_while (I := fun s => ∃ c, Nodes t.log s.1 s.2.1 c ∧ SameShape t s.2.2.1 ∧
      s.2.2.2.op = w.op ∧ s.2.2.2.map = w1.map + c ∧ s.2.2.2.comp ≤ w1.comp + c ∧ s.2.2.2.pred = w.pred)
    (Q := fun s => ∃ c, c ≤ max 1 (2 * (t.log - 1)) ∧ SameShape t s.2.2.1 ∧
      s.2.2.2.op = w.op ∧ s.2.2.2.map = w1.map + c ∧ s.2.2.2.comp ≤ w1.comp + c ∧ s.2.2.2.pred = w.pred)
    ⟨0, by rw [hs]; exact .start hl (by omega), h1, h2, rfl, Nat.le_refl _, h5⟩ ?_).mono ?_)
  · rintro ⟨l, r, t2, w2⟩ ⟨c, hN, g1, g2, g3, g4, g5⟩
    refine post_ok ?_
    simp only at hN g1 g2 g3 g4 g5 ⊢
    by_cases hlt : l < r
    · simp only [hlt, decide_true, if_true]
      refine post_bind (optApplyL.mono ?_)
      rintro ⟨l1, t3, w3⟩ ⟨e1, k1, k2, k3, k4, k5⟩
      simp only at e1 k1 k2 k3 k4 k5
      subst e1
      refine post_bind (optApplyR.mono ?_)
      rintro ⟨r1, t4, w4⟩ ⟨e1, m1, m2, m3, m4, m5⟩
      simp only at e1 m1 m2 m3 m4 m5
      subst e1
      refine post_ok ⟨_, hN.step hlt, (g1.trans k1).trans m1, ?_⟩
      simp only
      omega
    · simp only [hlt, decide_false]
      exact ⟨c, hN.all, g1, g2, g3, g4, g5⟩
  · rintro ⟨l', r', t2, w2⟩ ⟨c, hc, g1, g2, g3, g4, g5⟩
    simp only at g1 g2 g3 g4 g5 ⊢
    rw [g1.log]
    refine (post_forRange (I := fun i o => SameShape t o.1 ∧ o.2.op ≤ w.op + 2 * (i - 1) ∧ o.2.map = w2.map ∧
      o.2.comp = w2.comp ∧ o.2.pred = w2.pred) (by omega) ⟨g1, by simp [g2], rfl, rfl, rfl⟩ ?_).mono ?_
    · rintro i ⟨t3, w3⟩ hi hi' ⟨k1, k2, k3, k4, k5⟩
      simp only at k1 k2 k3 k4 k5 ⊢
      refine post_bind (optUpdate.mono ?_)
      rintro ⟨t4, w4⟩ ⟨m1, m2, m3, m4, m5⟩
      refine optUpdate.mono ?_
      rintro ⟨t5, w5⟩ ⟨n1, n2, n3, n4, n5⟩
      simp only at m1 m2 m3 m4 m5 n1 n2 n3 n4 n5 ⊢
      exact ⟨(k1.trans m1).trans n1, by omega, by omega, by omega, by omega⟩
    · rintro ⟨t3, w3⟩ ⟨k1, k2, k3, k4, k5⟩
      simp only at k1 k2 k3 k4 k5 ⊢
      exact ⟨k1, by omega, by omega, by omega, by omega, fun h => absurd h e⟩

/-! ### Searches -/

/-- A search to the right that has taken `a` nodes is at node `l`. -/
def ClimbR (L l a : Nat) : Prop :=
  ∃ j, At L j l ∧ (a ≤ j ∨ (l % 2 = 0 ∧ a ≤ j + 1)) ∧ (0 < a → 2 ^ (L - j) < l)

theorem stripR_post {L l a fuel : Nat} (h : ClimbR L l a) :
    Post (whileLoop fuel l (fun l => ok (decide (l % 2 = 0))) (fun l => ok (l >>> 1))) fun l =>
      l % 2 = 1 ∧ ∃ j, At L j l ∧ a ≤ j ∧ (0 < a → j < L) := by
  refine post_while (I := fun l => ClimbR L l a) h ?_
  rintro l ⟨j, h1, h2, h3⟩
  refine post_ok ?_
  by_cases he : l % 2 = 0
  · simp only [he, decide_true, if_true]
    have hp := h1.pos
    have hj := h1.lt_top (by omega)
    have e : 2 ^ (L - j) = 2 * 2 ^ (L - (j + 1)) := by rw [← Nat.pow_succ']; congr 1; omega
    refine post_ok ⟨j + 1, h1.up hj, by omega, fun ha => ?_⟩
    have := h3 ha
    rw [Nat.shiftRight_one]
    omega
  · simp only [he, decide_false]
    refine ⟨by omega, j, h1, by omega, fun ha => ?_⟩
    have h4 := h3 ha
    refine h1.lt_top ?_
    have := Nat.two_pow_pos (L - j)
    omega

theorem wneg_pow {k : Nat} (h : k < 64) : 2 ^ k &&& wnegU 64 (2 ^ k) = 2 ^ k := by
  rw [and_wneg _ (Nat.two_pow_pos k) (Nat.pow_lt_pow_right (by omega) h)]
  exact (low_eq_self_iff (Nat.two_pow_pos k)).2 ⟨k, rfl⟩

theorem ClimbR.next {L l j a : Nat} (hL : L ≤ 32) (ho : l % 2 = 1) (h : At L j l) (ha : a ≤ j)
    (hw : (l + 1) &&& wnegU 64 (l + 1) ≠ l + 1) : ClimbR L (l + 1) (a + 1) := by
  have h1 := h.lo; have h2 := h.hi
  have : l + 1 ≠ 2 * 2 ^ (L - j) := by
    intro e
    apply hw
    rw [e, ← Nat.pow_succ']
    exact wneg_pow (by omega)
  exact ⟨j, ⟨h.le, by omega, by omega⟩, .inr ⟨by omega, by omega⟩, fun _ => by omega⟩

/-- A search to the left that has taken `a` nodes is right after node `x`. -/
def ClimbL (L x a : Nat) : Prop :=
  ∃ j, At L j x ∧ (a ≤ j ∨ (x % 2 = 1 ∧ 1 < x ∧ a ≤ j + 1)) ∧ (0 < a → x + 1 < 2 * 2 ^ (L - j))

theorem stripL_post {L x a fuel : Nat} {p : Nat → Prop} [DecidablePred p] (hp : ∀ r, p r ↔ r > 1 ∧ r % 2 = 1)
    (h : ClimbL L x a) :
    Post (whileLoop fuel x (fun r => ok (decide (p r))) (fun r => ok (r >>> 1))) fun x =>
      (x % 2 = 0 ∨ x = 1) ∧ ∃ j, At L j x ∧ a ≤ j ∧ (0 < a → j < L) := by
  refine post_while (I := fun x => ClimbL L x a) h ?_
  rintro x ⟨j, h1, h2, h3⟩
  refine post_ok ?_
  have h0 := h1.pos
  by_cases he : p x
  · simp only [he, decide_true, if_true]
    have he := (hp x).1 he
    have hj := h1.lt_top (by omega)
    have e : 2 ^ (L - j) = 2 * 2 ^ (L - (j + 1)) := by rw [← Nat.pow_succ']; congr 1; omega
    refine post_ok ⟨j + 1, h1.up hj, by omega, fun ha => ?_⟩
    have := h3 ha
    rw [Nat.shiftRight_one]
    omega
  · simp only [he, decide_false]
    have he := mt (hp x).2 he
    refine ⟨by omega, j, h1, by omega, fun ha => ?_⟩
    have h4 := h3 ha
    by_contra hc
    have hj : j = L := by have := h1.le; omega
    subst hj
    simp at h4; omega

theorem ClimbL.next {L x j a : Nat} (ho : x % 2 = 0 ∨ x = 1) (h : At L j x) (hL : L ≤ 32) (ha : a ≤ j)
    (hw : x &&& wnegU 64 x ≠ x) : ClimbL L (x - 1) (a + 1) := by
  have h1 := h.lo; have h2 := h.hi
  have e0 : x ≠ 2 ^ (L - j) := by
    intro e
    apply hw
    rw [e]
    exact wneg_pow (by omega)
  have e1 : x ≠ 1 := by
    rintro rfl; exact hw (wneg_pow (k := 0) (by omega))
  have e2 : x ≠ 2 := by
    rintro rfl; exact hw (wneg_pow (k := 1) (by omega))
  have := h.pos
  exact ⟨j, ⟨h.le, by omega, by omega⟩, .inr ⟨by omega, by omega, by omega⟩, fun _ => by omega⟩

theorem pred_bind {g : S → Bool} {x : S} {k : Bool × Calls → Res β} :
    (countPred g x w >>= k) = k (g x, ⟨w.op, w.map, w.comp, w.pred + 1⟩) := rfl

theorem post_subU {a b : Nat} : Post (subU a b) fun v => v = a - b := by
  unfold subU
  split
  · exact post_ok rfl
  · intro _ h; cases h

/-- The bounds on the work of a search over `2 ^ L` leaves. -/
structure SearchLe (L : Nat) (w w' : Calls) : Prop where
  op : w'.op ≤ w.op + max 2 (3 * L - 2)
  map : w'.map ≤ w.map + 4 * L
  comp : w'.comp ≤ w.comp + 4 * (L - 1)
  pred : w'.pred ≤ w.pred + max (L + 2) (2 * L)

theorem lz_maxRight_post {l : Nat} {g : S → Bool} (hs : t.size = 2 ^ t.log) (hn : t.n ≤ t.size) (hL : t.log ≤ 32) :
    Post (t.maxRightE (countMaps M) l (countPred g) w) fun o => SameShape t o.1.1 ∧ SearchLe t.log w o.2 := by
  unfold LazySegtree.maxRightE
  refine post_bind (post_assert.mono fun _ hl => ?_)
  rw [pred_bind]
  refine post_skip fun _ => ?_
  refine post_ite (fun e => post_ok ⟨.rfl', by simp, by simp, by simp, by simp⟩) fun e => ?_
  simp only
  have ha : At t.log 0 (l + t.size) := by rw [hs]; exact .leaf (by omega)
  refine post_bind ((pushPath_post hs ha).mono ?_)
  rintro ⟨t1, w1⟩ ⟨h1, rfl⟩
  simp only at h1 ⊢
  refine post_loop (I := fun s => ∃ a, ClimbR t.log s.1 a ∧ s.2.2 = ⟨w.op + 2 * a, w.map + 2 * t.log,
    w.comp + 2 * (t.log - 1), w.pred + 1 + a⟩) ⟨0, ⟨0, ha, .inl (by omega), by simp⟩, rfl⟩ ?_
  rintro ⟨l, sm, w2⟩ ⟨a, hc, rfl⟩
  simp only at hc ⊢
  refine post_bind ((stripR_post hc).mono ?_)
  rintro l ⟨ho, j, hj, haj, hal⟩
  refine post_skip fun x => post_add fun y => ?_
  rw [pred_bind]
  have hjL := hj.le
  refine post_ite (fun _ => ?_) fun _ => ?_
  · refine post_bind ((post_while (I := fun s => SameShape t s.2.2.1 ∧ ∃ i, i ≤ j ∧ At t.log i s.1 ∧
        s.2.2.2.op = w.op + 2 * a + 1 + (j - i) ∧ s.2.2.2.map = w.map + 2 * t.log + 2 * (j - i) ∧
        s.2.2.2.comp ≤ w.comp + 2 * (t.log - 1) + 2 * (j - max i 1) ∧
        s.2.2.2.pred = w.pred + 2 + a + (j - i))
      (Q := fun s => SameShape t s.2.2.1 ∧ 
        s.2.2.2.op = w.op + 2 * a + 1 + j ∧ s.2.2.2.map = w.map + 2 * t.log + 2 * j ∧
        s.2.2.2.comp ≤ w.comp + 2 * (t.log - 1) + 2 * (j - 1) ∧
        s.2.2.2.pred = w.pred + 2 + a + j) ?_ ?_).mono ?_)
    · refine ⟨h1, j, Nat.le_refl _, hj, ?_⟩
      simp only
      omega
    · rintro ⟨l, sm, t2, w3⟩ ⟨g1, i, g2, g3, g4, g5, g6, g7⟩
      refine post_ok ?_
      simp only at g1 g2 g3 g4 g5 g6 g7 ⊢
      have hlt := g3.lt_iff
      rw [← hs, ← g1.size] at hlt
      by_cases hc : l < t2.size
      · simp only [hc, decide_true, if_true]
        obtain ⟨i, rfl⟩ : ∃ k, i = k + 1 := ⟨i - 1, by have := hlt.1 hc; omega⟩
        refine post_bind ((push_post (j := i) (by rw [g1.size, g1.log, hs]) (by rw [g1.log]; exact g3)).mono ?_)
        rintro ⟨t3, w4⟩ ⟨k1, rfl⟩
        refine post_skip fun x => post_add fun y => ?_
        rw [pred_bind]
        have hcomp : w3.comp + (if i = 0 then 0 else 2) ≤ w.comp + 2 * (t.log - 1) + 2 * (j - max i 1) := by
          by_cases h0 : i = 0
          · subst h0; simp at g6 ⊢; omega
          · simp only [h0, if_false]; omega
        have hL := g3.left
        refine post_ite (fun _ => post_ok ?_) fun _ => post_ok ?_
        · refine ⟨g1.trans k1, i, by omega, by simp only; rw [Nat.mul_comm]; exact hL.2, ?_⟩
          simp only
          omega
        · refine ⟨g1.trans k1, i, by omega, by simp only; rw [Nat.mul_comm]; exact hL.1, ?_⟩
          simp only
          omega
      · simp only [hc, decide_false]
        obtain rfl : i = 0 := by
          rcases Nat.eq_zero_or_pos i with h | h
          · exact h
          · exact absurd (hlt.2 h) hc
        exact ⟨g1, by omega, by omega, by omega, by omega⟩
    · rintro ⟨l, sm, t2, w3⟩ ⟨g1, g2, g3, g4, g5⟩
      simp only at g1 g2 g3 g4 g5 ⊢
      refine post_skip fun r => post_ok ⟨g1, ?_, ?_, ?_, ?_⟩
      all_goals simp only; omega
  · refine post_skip fun x => post_add fun sm => ?_
    simp only
    refine post_ite (fun _ => post_ok ⟨h1, ?_, ?_, ?_, ?_⟩) fun hw => post_ok ⟨a + 1, ClimbR.next hL ho hj haj hw, ?_⟩
    · simp only; omega
    · simp only; omega
    · simp only; omega
    · simp only; omega
    · simp only [Calls.mk.injEq]; exact ⟨by omega, trivial, trivial, by omega⟩

theorem lz_minLeft_post {r : Nat} {g : S → Bool} (hs : t.size = 2 ^ t.log) (hn : t.n ≤ t.size) (hL : t.log ≤ 32) :
    Post (t.minLeftE (countMaps M) r (countPred g) w) fun o => SameShape t o.1.1 ∧ SearchLe t.log w o.2 := by
  unfold LazySegtree.minLeftE
  refine post_bind (post_assert.mono fun _ hl => ?_)
  rw [pred_bind]
  refine post_skip fun _ => ?_
  refine post_ite (fun e => post_ok ⟨.rfl', by simp, by simp, by simp, by simp⟩) fun e => ?_
  simp only
  have ha : At t.log 0 (r + t.size - 1) := by
    rw [hs, show r + 2 ^ t.log - 1 = (r - 1) + 2 ^ t.log by omega]; exact .leaf (by omega)
  refine post_bind ((pushPath_post hs ha).mono ?_)
  rintro ⟨t1, w1⟩ ⟨h1, rfl⟩
  simp only at h1 ⊢
  refine post_loop (I := fun s => ∃ a, ClimbL t.log (s.1 - 1) a ∧ s.2.2 = ⟨w.op + 2 * a, w.map + 2 * t.log,
    w.comp + 2 * (t.log - 1), w.pred + 1 + a⟩) ⟨0, ⟨0, ha, .inl (by omega), by simp⟩, rfl⟩ ?_
  rintro ⟨l, sm, w2⟩ ⟨a, hc, rfl⟩
  simp only at hc ⊢
  refine post_bind ?_
  refine post_subU.mono ?_
  rintro _ rfl
  refine post_bind ((stripL_post (fun r => by rw [show (r % 2 ≠ 0) = (r % 2 = 1) by simp]) hc).mono ?_)
  rintro l ⟨ho, j, hj, haj, hal⟩
  refine post_skip fun x => post_add fun y => ?_
  rw [pred_bind]
  have hjL := hj.le
  refine post_ite (fun _ => ?_) fun _ => ?_
  · refine post_bind ((post_while (I := fun s => SameShape t s.2.2.1 ∧ ∃ i, i ≤ j ∧ At t.log i s.1 ∧
        s.2.2.2.op = w.op + 2 * a + 1 + (j - i) ∧ s.2.2.2.map = w.map + 2 * t.log + 2 * (j - i) ∧
        s.2.2.2.comp ≤ w.comp + 2 * (t.log - 1) + 2 * (j - max i 1) ∧
        s.2.2.2.pred = w.pred + 2 + a + (j - i))
      (Q := fun s => SameShape t s.2.2.1 ∧ 
        s.2.2.2.op = w.op + 2 * a + 1 + j ∧ s.2.2.2.map = w.map + 2 * t.log + 2 * j ∧
        s.2.2.2.comp ≤ w.comp + 2 * (t.log - 1) + 2 * (j - 1) ∧
        s.2.2.2.pred = w.pred + 2 + a + j) ?_ ?_).mono ?_)
    · refine ⟨h1, j, Nat.le_refl _, hj, ?_⟩
      simp only
      omega
    · rintro ⟨l, sm, t2, w3⟩ ⟨g1, i, g2, g3, g4, g5, g6, g7⟩
      refine post_ok ?_
      simp only at g1 g2 g3 g4 g5 g6 g7 ⊢
      have hlt := g3.lt_iff
      rw [← hs, ← g1.size] at hlt
      by_cases hc : l < t2.size
      · simp only [hc, decide_true, if_true]
        obtain ⟨i, rfl⟩ : ∃ k, i = k + 1 := ⟨i - 1, by have := hlt.1 hc; omega⟩
        refine post_bind ((push_post (j := i) (by rw [g1.size, g1.log, hs]) (by rw [g1.log]; exact g3)).mono ?_)
        rintro ⟨t3, w4⟩ ⟨k1, rfl⟩
        refine post_skip fun x => post_add fun y => ?_
        rw [pred_bind]
        have hcomp : w3.comp + (if i = 0 then 0 else 2) ≤ w.comp + 2 * (t.log - 1) + 2 * (j - max i 1) := by
          by_cases h0 : i = 0
          · subst h0; simp at g6 ⊢; omega
          · simp only [h0, if_false]; omega
        have hL := g3.left
        refine post_ite (fun _ => ?_) fun _ => post_ok ?_
        · rw [show subU (2 * l + 1) 1 = ok (2 * l) from subU_of_le (by omega)]
          refine post_ok ⟨g1.trans k1, i, by omega, hL.1, ?_⟩
          simp only
          omega
        · refine ⟨g1.trans k1, i, by omega, hL.2, ?_⟩
          simp only
          omega
      · simp only [hc, decide_false]
        obtain rfl : i = 0 := by
          rcases Nat.eq_zero_or_pos i with h | h
          · exact h
          · exact absurd (hlt.2 h) hc
        exact ⟨g1, by omega, by omega, by omega, by omega⟩
    · rintro ⟨l, sm, t2, w3⟩ ⟨g1, g2, g3, g4, g5⟩
      simp only at g1 g2 g3 g4 g5 ⊢
      refine post_skip fun r => post_ok ⟨g1, ?_, ?_, ?_, ?_⟩
      all_goals simp only; omega
  · refine post_skip fun x => post_add fun sm => ?_
    simp only
    refine post_ite (fun _ => post_ok ⟨h1, ?_, ?_, ?_, ?_⟩) fun hw => post_ok ⟨a + 1, ClimbL.next ho hj hL haj hw, ?_⟩
    · simp only; omega
    · simp only; omega
    · simp only; omega
    · simp only; omega
    · simp only [Calls.mk.injEq]; exact ⟨by omega, trivial, trivial, by omega⟩

end
end Verif.EffP
