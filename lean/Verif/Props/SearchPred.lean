import Verif.Proof.SearchSeg
import Verif.Proof.SearchLazy
import Verif.Proof.SearchFenwick
import Verif.Proof.SearchPure
import Verif.Props.Segtree
import Verif.Props.LazySegtree
import Verif.Props.Fenwick
/-! C68: the binary searches on trees with a closure that has a state and may panic (`Verif/Spec/SearchPred.lean`). -/
namespace Verif.Props
open Res Model Spec

variable {S F σ : Type} [Monoid S] {Fits : S → Prop}

/-- C68: when the calls on the products of the ranges `l..k` answer `p k`, `max_right` returns a boundary of
`p`, after at most `max(2L, L + 2)` calls for a list of at most `2^L` elements. Nothing is asked of other calls. -/
theorem C68_max_right {M : MonoidOps S} (a : List S) (ops : List (Nat × S)) (h : SegHyp M Fits a ops)
    (t : Segtree S) (ht : SegReached M a ops t) (l : Nat) (hl : l ≤ a.length) (f : σ → S → Res (Bool × σ))
    (p : Nat → Bool) (Inv : Nat → σ → Prop)
    (hf : Answers Inv f (fun k => rangeProd (setAll a ops) l k) l a.length (fun k b => b = p k))
    (hp : p l = true) (s : σ) (hs : Inv 0 s) :
    ∃ r s' c, t.maxRightS M l f s = ok (r, s') ∧ l ≤ r ∧ r ≤ a.length ∧ p r = true ∧
      (r = a.length ∨ p (r + 1) = false) ∧ Inv c s' ∧ ∀ L, a.length ≤ 2 ^ L → c ≤ max (2 * L) (L + 2) := by
  have hlen := setAll_length a ops
  obtain ⟨b1, s1, e1, hb1, hI1⟩ := hf 0 s l (Nat.le_refl _) hl hs
  rw [hp] at hb1
  subst hb1
  simp only [SegP.rangeProd_self] at e1
  have hrep := ht.rep h
  rw [← hlen] at hl hf ⊢
  obtain ⟨⟨r, s'⟩, e, ⟨g1, g2, g3⟩, c, hc, hI⟩ := SegP.maxRightS_sat (c0 := 0) h.lawful hrep
    (h.fits ops (List.prefix_refl _)) hl hf e1 hp.symm hI1
  simp only at g1 g2 g3 hI
  have hlt : r ≤ (setAll a ops).length ∧ (r = (setAll a ops).length ∨ p (r + 1) = false) := by
    rcases g3 with g3 | ⟨-, g3⟩
    · exact ⟨by omega, Or.inl g3⟩
    · rcases Nat.lt_or_ge r (setAll a ops).length with h' | h'
      · rw [Nat.min_eq_left (by omega)] at g3
        exact ⟨by omega, Or.inr g3.symm⟩
      · rw [Nat.min_eq_right (by omega)] at g2 g3
        rw [← g2] at g3
        cases g3
  rw [Nat.min_eq_left hlt.1] at g2
  refine ⟨r, s', c, e, g1, hlt.1, g2.symm, hlt.2, hI, fun L hL => ?_⟩
  have : t.log ≤ L := by
    rw [hrep.logn]
    have := Nat.two_pow_pos L
    exact bitLen_le_iff.2 (by omega)
  omega

/-- C68: mirror image for `min_left`. -/
theorem C68_min_left {M : MonoidOps S} (a : List S) (ops : List (Nat × S)) (h : SegHyp M Fits a ops)
    (t : Segtree S) (ht : SegReached M a ops t) (r : Nat) (hr : r ≤ a.length) (f : σ → S → Res (Bool × σ))
    (p : Nat → Bool) (Inv : Nat → σ → Prop)
    (hf : Answers Inv f (fun k => rangeProd (setAll a ops) k r) 0 r (fun k b => b = p k))
    (hp : p r = true) (s : σ) (hs : Inv 0 s) :
    ∃ l s' c, t.minLeftS M r f s = ok (l, s') ∧ l ≤ r ∧ p l = true ∧ (l = 0 ∨ p (l - 1) = false) ∧ Inv c s' ∧
      ∀ L, a.length ≤ 2 ^ L → c ≤ max (2 * L) (L + 2) := by
  have hlen := setAll_length a ops
  obtain ⟨b1, s1, e1, hb1, hI1⟩ := hf 0 s r (Nat.zero_le _) (Nat.le_refl _) hs
  rw [hp] at hb1
  subst hb1
  simp only [SegP.rangeProd_self] at e1
  have hrep := ht.rep h
  rw [← hlen] at hr ⊢
  obtain ⟨⟨l, s'⟩, e, ⟨g1, g2, g3⟩, c, hc, hI⟩ := SegP.minLeftS_sat (c0 := 0) h.lawful hrep
    (h.fits ops (List.prefix_refl _)) hr hf e1 hp.symm hI1
  refine ⟨l, s', c, e, g1, g2.symm, g3.imp_right Eq.symm, hI, fun L hL => ?_⟩
  have : t.log ≤ L := by
    rw [hrep.logn]
    have := Nat.two_pow_pos L
    exact bitLen_le_iff.2 (by omega)
  omega

/-- C68: `max_right` of the lazy segment tree; later calls find the same list. -/
theorem C68_lazy_max_right {M : MapOps S F} (hM : LawfulMap M) (a : List S) (ops : List (LOp S F))
    (t : LazySegtree S F) (ht : LReached M a ops t) (l : Nat) (hl : l ≤ a.length) (f : σ → S → Res (Bool × σ))
    (p : Nat → Bool) (Inv : Nat → σ → Prop)
    (hf : Answers Inv f (fun k => rangeProd (lContents M a ops) l k) l a.length (fun k b => b = p k))
    (hp : p l = true) (s : σ) (hs : Inv 0 s) :
    ∃ t' r s' c, t.maxRightS M l f s = ok ((t', r), s') ∧ l ≤ r ∧ r ≤ a.length ∧ p r = true ∧
      (r = a.length ∨ p (r + 1) = false) ∧ Inv c s' ∧ (∀ L, a.length ≤ 2 ^ L → c ≤ max (2 * L) (L + 2)) ∧
      ∀ ops', (∀ op ∈ ops', op.Pre a.length) →
        ∃ t2 outs, lRun M t' ops' = ok (t2, outs) ∧ LRunOk M (lContents M a ops) ops' outs := by
  have hlen := lContents_length (M := M) a ops
  obtain ⟨b1, s1, e1, hb1, hI1⟩ := hf 0 s l (Nat.le_refl _) hl hs
  rw [hp] at hb1
  subst hb1
  simp only [SegP.rangeProd_self] at e1
  have hrep := ht.rep hM
  rw [← hlen] at hl hf ⊢
  obtain ⟨⟨⟨t', r⟩, s'⟩, e, ⟨g0, g1, g2, g3⟩, c, hc, hI⟩ := LazyP.maxRightS_sat (c0 := 0) hM hrep hl hf e1 hp.symm hI1
  simp only at g0 g1 g2 g3 hI
  have hlt : r ≤ (lContents M a ops).length ∧ (r = (lContents M a ops).length ∨ p (r + 1) = false) := by
    rcases g3 with g3 | ⟨-, g3⟩
    · exact ⟨by omega, Or.inl g3⟩
    · rcases Nat.lt_or_ge r (lContents M a ops).length with h' | h'
      · rw [Nat.min_eq_left (by omega)] at g3
        exact ⟨by omega, Or.inr g3.symm⟩
      · rw [Nat.min_eq_right (by omega)] at g2 g3
        rw [← g2] at g3
        cases g3
  rw [Nat.min_eq_left hlt.1] at g2
  refine ⟨t', r, s', c, e, g1, hlt.1, g2.symm, hlt.2, hI, fun L hL => ?_, fun ops' ho => ?_⟩
  · obtain ⟨L', ⟨-, hL'⟩, -, hw⟩ := hrep
    have : t.log ≤ L := by
      rw [hw.dims.2.2, hL']
      have := Nat.two_pow_pos L
      exact bitLen_le_iff.2 (by omega)
    omega
  · obtain ⟨⟨t2, outs⟩, e2, -, h2⟩ := lRun_sat hM g0 ho
    exact ⟨t2, outs, e2, h2⟩

/-- C68: `min_left` of the lazy segment tree; later calls find the same list. -/
theorem C68_lazy_min_left {M : MapOps S F} (hM : LawfulMap M) (a : List S) (ops : List (LOp S F))
    (t : LazySegtree S F) (ht : LReached M a ops t) (r : Nat) (hr : r ≤ a.length) (f : σ → S → Res (Bool × σ))
    (p : Nat → Bool) (Inv : Nat → σ → Prop)
    (hf : Answers Inv f (fun k => rangeProd (lContents M a ops) k r) 0 r (fun k b => b = p k))
    (hp : p r = true) (s : σ) (hs : Inv 0 s) :
    ∃ t' l s' c, t.minLeftS M r f s = ok ((t', l), s') ∧ l ≤ r ∧ p l = true ∧ (l = 0 ∨ p (l - 1) = false) ∧
      Inv c s' ∧ (∀ L, a.length ≤ 2 ^ L → c ≤ max (2 * L) (L + 2)) ∧
      ∀ ops', (∀ op ∈ ops', op.Pre a.length) →
        ∃ t2 outs, lRun M t' ops' = ok (t2, outs) ∧ LRunOk M (lContents M a ops) ops' outs := by
  have hlen := lContents_length (M := M) a ops
  obtain ⟨b1, s1, e1, hb1, hI1⟩ := hf 0 s r (Nat.zero_le _) (Nat.le_refl _) hs
  rw [hp] at hb1
  subst hb1
  simp only [SegP.rangeProd_self] at e1
  have hrep := ht.rep hM
  rw [← hlen] at hr ⊢
  obtain ⟨⟨⟨t', l⟩, s'⟩, e, ⟨g0, g1, g2, g3⟩, c, hc, hI⟩ := LazyP.minLeftS_sat (c0 := 0) hM hrep hr hf e1 hp.symm hI1
  refine ⟨t', l, s', c, e, g1, g2.symm, g3.imp_right Eq.symm, hI, fun L hL => ?_, fun ops' ho => ?_⟩
  · obtain ⟨L', ⟨-, hL'⟩, -, hw⟩ := hrep
    have : t.log ≤ L := by
      rw [hw.dims.2.2, hL']
      have := Nat.two_pow_pos L
      exact bitLen_le_iff.2 (by omega)
    omega
  · obtain ⟨⟨t2, outs⟩, e2, -, h2⟩ := lRun_sat hM g0 ho
    exact ⟨t2, outs, e2, h2⟩

/-- C68: `partition_point` of a Fenwick tree: only calls on the sums of the first `k ≥ 1` elements matter, at most
`L + 1` of them for fewer than `2^(L+1)` elements; the result is a boundary even when `p` is not monotone. -/
theorem C68_partition_point {A : Type} [AddCommMonoid A] {add sub : A → A → Res A} {Fits : A → Prop} (a : List A)
    (ops : List (Nat × A)) (h : FenwickHyp add sub Fits a ops) (t : Fenwick A) (hr : FenwickReached add a ops t)
    (hne : a ≠ []) (f : σ → A → Res (Bool × σ)) (p : Nat → Bool) (Inv : Nat → σ → Prop)
    (hf : Answers Inv f (fun k => ((addAll a ops).take k).sum) 1 a.length (fun k b => b = p k)) (s : σ)
    (hs : Inv 0 s) :
    ∃ r s' c, t.partitionPointS add 0 f s = ok (r, s') ∧ r ≤ a.length ∧ (r = 0 ∨ p r = true) ∧
      (r = a.length ∨ p (r + 1) = false) ∧ Inv c s' ∧ ∀ L, a.length < 2 ^ (L + 1) → c ≤ L + 1 := by
  have hlen := addAll_length a ops
  have hpos : 0 < a.length := List.length_pos_iff.2 hne
  have hL0 := h.len
  rw [← hlen] at hf hpos hL0 ⊢
  obtain ⟨⟨r, s'⟩, e, ⟨g1, g2, g3⟩, c, hc, hI⟩ := FenwickP.partitionPointS_sat (c0 := 0) h.ops_ok (hr.rep h)
    (h.fits ops (List.prefix_refl _)) hL0 hpos hf hs
  refine ⟨r, s', c, e, g1, g2.imp_right Eq.symm, g3.imp_right Eq.symm, hI, fun L hL => ?_⟩
  have : Nat.log2 (addAll a ops).length < L + 1 := (Nat.log2_lt (by omega)).2 hL
  omega

/-- C68: a closure that returns on these products may answer anything, after a first `true`: `max_right` and
`min_left` still return, with as few calls; `max_right` then stays below `2^L` or returns the length. -/
theorem C68_any_answers {M : MonoidOps S} (a : List S) (ops : List (Nat × S)) (h : SegHyp M Fits a ops)
    (t : Segtree S) (ht : SegReached M a ops t) (f : σ → S → Res (Bool × σ)) (Inv : Nat → σ → Prop) (s s1 : σ)
    (h1 : f s 1 = ok (true, s1)) (hs : Inv 1 s1) :
    (∀ l ≤ a.length, Answers Inv f (fun k => rangeProd (setAll a ops) l k) l a.length (fun _ _ => True) →
      ∃ r s' c, t.maxRightS M l f s = ok (r, s') ∧ l ≤ r ∧ Inv c s' ∧
        ∀ L, a.length ≤ 2 ^ L → (r = a.length ∨ r < 2 ^ L) ∧ c ≤ max (2 * L) (L + 2)) ∧
    (∀ r ≤ a.length, Answers Inv f (fun k => rangeProd (setAll a ops) k r) 0 r (fun _ _ => True) →
      ∃ l s' c, t.minLeftS M r f s = ok (l, s') ∧ l ≤ r ∧ Inv c s' ∧
        ∀ L, a.length ≤ 2 ^ L → c ≤ max (2 * L) (L + 2)) := by
  have hlen := setAll_length a ops
  have hrep := ht.rep h
  rw [← hlen]
  have hlog : ∀ L, (setAll a ops).length ≤ 2 ^ L → t.log ≤ L := by
    intro L hL
    rw [hrep.logn]
    have := Nat.two_pow_pos L
    exact bitLen_le_iff.2 (by omega)
  refine ⟨fun l hl hf => ?_, fun r hr hf => ?_⟩
  · obtain ⟨⟨r, s'⟩, e, ⟨g1, -, g3⟩, c, hc, hI⟩ := SegP.maxRightS_sat (c0 := 0) h.lawful hrep
      (h.fits ops (List.prefix_refl _)) hl hf h1 trivial hs
    refine ⟨r, s', c, e, g1, hI, fun L hL => ⟨?_, ?_⟩⟩
    · refine g3.imp_right fun g => Nat.lt_of_lt_of_le g.1 ?_
      rw [hrep.size]
      exact Nat.pow_le_pow_right (by omega) (hlog L hL)
    · have := hlog L hL
      omega
  · obtain ⟨⟨l, s'⟩, e, ⟨g1, -, g3⟩, c, hc, hI⟩ := SegP.minLeftS_sat (c0 := 0) h.lawful hrep
      (h.fits ops (List.prefix_refl _)) hr hf h1 trivial hs
    refine ⟨l, s', c, e, g1, hI, fun L hL => ?_⟩
    have := hlog L hL
    omega

/-- The closure of `g` that records its arguments. -/
def recording (g : S → Bool) : List S → S → Res (Bool × List S) := fun s x => ok (g x, s ++ [x])

/-- C68: the arguments of the calls of `max_right(l, g)`: products of ranges starting at `l`, first the empty one,
at most `max(2L, L + 2)` of them; the result is that of `max_right` in `Model/Segtree.lean`. -/
theorem C68_trace {M : MonoidOps S} (a : List S) (ops : List (Nat × S)) (h : SegHyp M Fits a ops)
    (t : Segtree S) (ht : SegReached M a ops t) (l : Nat) (hl : l ≤ a.length) (g : S → Bool) (hg : g 1 = true) :
    ∃ r tr, t.maxRightS M l (recording g) [] = ok (r, tr) ∧ t.maxRight M l g = ok r ∧
      (∀ x ∈ tr, ∃ k, l ≤ k ∧ k ≤ a.length ∧ x = rangeProd (setAll a ops) l k) ∧
      ∀ L, a.length ≤ 2 ^ L → tr.length ≤ max (2 * L) (L + 2) := by
  obtain ⟨r, tr, c, e, -, -, -, -, ⟨hc1, hc2⟩, hL⟩ := C68_max_right a ops h t ht l hl (recording g)
    (fun k => g (rangeProd (setAll a ops) l k))
    (fun c tr => tr.length = c ∧ ∀ x ∈ tr, ∃ k, l ≤ k ∧ k ≤ a.length ∧ x = rangeProd (setAll a ops) l k)
    (by
      rintro c tr k hk1 hk2 ⟨h1, h2⟩
      refine ⟨_, _, rfl, rfl, by simp [h1], ?_⟩
      intro x hx
      rw [List.mem_append, List.mem_singleton] at hx
      rcases hx with hx | rfl
      · exact h2 x hx
      · exact ⟨k, hk1, hk2, rfl⟩)
    (by rw [SegP.rangeProd_self]; exact hg) [] ⟨rfl, by simp⟩
  refine ⟨r, tr, e, ?_, hc2, fun L h' => by rw [hc1]; exact hL L h'⟩
  rw [SearchP.maxRight_pure M t l (f := recording g) (nx := fun s x => s ++ [x]) (fun _ _ => rfl) [], e]
  rfl

/-- C68: a start beyond the length panics before any call; a first call that panics or answers `false` makes the
search panic. -/
theorem C68_panics {M : MonoidOps S} (a : List S) (ops : List (Nat × S)) (h : SegHyp M Fits a ops)
    (t : Segtree S) (ht : SegReached M a ops t) (f : σ → S → Res (Bool × σ)) (s : σ) (i : Nat)
    (hbad : a.length < i ∨ f s 1 = .panic ∨ ∃ s', f s 1 = ok (false, s')) :
    t.maxRightS M i f s = .panic ∧ t.minLeftS M i f s = .panic := by
  have hn := (ht.rep h).n
  rw [setAll_length] at hn
  unfold Segtree.maxRightS Segtree.minLeftS
  rw [h.lawful.e_eq]
  by_cases hi : i ≤ t.n
  · rw [assert_true hi]
    rcases hbad with hb | hb | ⟨s', hb⟩
    · omega
    · simp [hb]
    · simp only [hb, ok_bind]
      rw [assert_false (by simp)]
      exact ⟨rfl, rfl⟩
  · rw [assert_false hi]
    exact ⟨rfl, rfl⟩

/-- C68: with answers that do not depend on the state, these are the searches of C03, C05, C06 and C08. -/
theorem C68_pure {S F σ : Type} {f : σ → S → Res (Bool × σ)} {g : S → Bool} {nx : σ → S → σ}
    (hf : ∀ s x, f s x = ok (g x, nx s x)) (s : σ) (i : Nat) :
    (∀ (M : MonoidOps S) (t : Segtree S), t.maxRight M i g = Prod.fst <$> t.maxRightS M i f s ∧
      t.minLeft M i g = Prod.fst <$> t.minLeftS M i f s) ∧
    (∀ (M : MapMonoidOps S F) (t : LazySegtree S F), t.maxRight M i g = Prod.fst <$> t.maxRightS M i f s ∧
      t.minLeft M i g = Prod.fst <$> t.minLeftS M i f s) ∧
    (∀ (add : S → S → Res S) (zero : S) (t : Fenwick S),
      t.partitionPoint add zero g = Prod.fst <$> t.partitionPointS add zero f s) :=
  ⟨fun M t => ⟨SearchP.maxRight_pure M t i hf s, SearchP.minLeft_pure M t i hf s⟩,
    fun M t => ⟨SearchP.lazy_maxRight_pure M t i hf s, SearchP.lazy_minLeft_pure M t i hf s⟩,
    fun add zero t => SearchP.partitionPoint_pure add zero t hf s⟩

/-- A closure that contradicts itself: the second call answers `false`, all others `true`. -/
def wavering : Nat → S → Res (Bool × Nat) := fun c _ => ok (c ≠ 1, c + 1)

/-- C68: with a closure whose answers change, `max_right` may return more than the length. -/
theorem C68_needs_consistency : (do
    let t ← Segtree.from catOps ([1, 2, 3, 4, 5].map FreeMonoid.of)
    t.maxRightS catOps 0 wavering 0) = ok (7, 5) := by decide +kernel

/-- The bound is attained: six calls on eight elements. -/
example : (do
    let t ← Segtree.from catOps ([1, 2, 3, 4, 5, 6, 7, 8].map FreeMonoid.of)
    let x ← t.maxRightS catOps 1 (recording fun w => w.toList.length < 6) []
    let y ← t.minLeftS catOps 7 (recording fun w => w.toList.length < 6) []
    ok (x.1, x.2.map (·.toList.length), y.1, y.2.map (·.toList.length)) : Res _) =
    ok (6, [0, 1, 3, 7, 5, 6], 2, [0, 1, 3, 7, 5, 6]) := by decide +kernel

/-- A closure that panics on the product `[2, 4]`, which is of no range starting at index 1, and counts. -/
example : (do
    let t ← Segtree.from catOps ([1, 2, 3, 4, 5].map FreeMonoid.of)
    t.maxRightS catOps 1 (fun (c : Nat) w =>
      if w.toList = [2, 4] then Res.panic else ok (w.toList.length < 3, c + 1)) 0) = ok (3, 4) := by
  decide +kernel

example : Answers (fun c s => s = c) (fun (c : Nat) w =>
      if w.toList = [2, 4] then Res.panic else ok (decide (w.toList.length < 3), c + 1))
    (fun k => rangeProd ([1, 2, 3, 4, 5].map FreeMonoid.of) 1 k) 1 5 (fun k b => b = decide (k < 4)) := by
  rintro c s k h1 h2 rfl
  obtain rfl | rfl | rfl | rfl | rfl : k = 1 ∨ k = 2 ∨ k = 3 ∨ k = 4 ∨ k = 5 := by omega
  all_goals exact ⟨_, _, rfl, rfl, rfl⟩

/-- The lazy tree and the Fenwick tree. -/
example : (do
    let t ← LazySegtree.from shiftOps lArr
    let ((_, x), c) ← LazySegtree.maxRightS shiftOps.ops t 1 (fun (c : Nat) w => ok (w.toList.length < 3, c + 1)) 0
    let ((_, y), d) ← LazySegtree.minLeftS shiftOps.ops t 5 (fun (c : Nat) w => ok (w.toList.length < 4, c + 1)) 0
    ok (x, c, y, d) : Res _) = ok (3, 4, 2, 5) := by decide +kernel

example : (do
    let t ← Fenwick.from (fun a b => ckI 32 (a + b)) 0 [3, 1, 4, 1, 5]
    t.partitionPointS (fun a b => ckI 32 (a + b)) 0 (fun (c : List Int) x => ok (x < 9, c ++ [x])) [] : Res _) =
    ok (3, [9, 4, 8]) := by decide +kernel

end Verif.Props
