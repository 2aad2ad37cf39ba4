import Verif.Prelude.Sim
import Verif.Prelude.Bits
import Verif.Model.LazySegtree
/-! A lazy segment tree without pending maps runs like a segment tree. -/
namespace Verif.TwoP
open Res Model

variable {S F : Type} {M : MapMonoidOps S F} {s : Segtree S}

/-- The binary operation alone. -/
def plain (M : MapMonoidOps S F) : MonoidOps S := ⟨M.e, M.op⟩

/-- The lazy tree with the same products and no pending map. -/
def lazy (M : MapMonoidOps S F) (s : Segtree S) : LazySegtree S F :=
  ⟨s.n, s.size, s.log, s.d, List.replicate s.size M.idMap⟩

/-- The dimensions of a tree. -/
structure Dim (s : Segtree S) : Prop where
  size : s.size = 2 ^ s.log
  n : s.n ≤ s.size
  d : s.d.length = 2 * s.size

/-- The identity map does nothing. -/
structure IdOk (M : MapMonoidOps S F) : Prop where
  mapping : ∀ x, M.mapping M.idMap x = ok x
  comp : M.comp M.idMap M.idMap = ok M.idMap

/-- Both runs return, with the lazy tree of the plain one; or both panic. -/
def TL (M : MapMonoidOps S F) (N L n : Nat) (t : LazySegtree S F) (s : Segtree S) : Prop :=
  t = lazy M s ∧ Dim s ∧ s.size = N ∧ s.log = L ∧ s.n = n

theorem set_same {α : Type} {l : List α} {k : Nat} (h : k < l.length) : l.set k l[k] = l := by simp

theorem allApply_clean (hI : IdOk M) (hd : Dim s) {k : Nat} (hk : k < 2 * s.size) :
    (lazy M s).allApply M k M.idMap = ok (lazy M s) := by
  unfold LazySegtree.allApply
  have hk' : k < s.d.length := by rw [hd.d]; exact hk
  show (idx s.d k >>= _) = _
  rw [idx_of_lt hk', ok_bind, hI.mapping, ok_bind]
  show (upd s.d k _ >>= _) = _
  rw [upd_of_lt hk', ok_bind, set_same]
  by_cases h : k < s.size
  · refine Eq.trans (if_pos h) ?_
    show (idx (List.replicate s.size M.idMap) k >>= fun z => M.comp M.idMap z >>= fun c =>
      upd (List.replicate s.size M.idMap) k c >>= fun lz => ok (LazySegtree.mk s.n s.size s.log s.d lz)) =
      ok (LazySegtree.mk s.n s.size s.log s.d (List.replicate s.size M.idMap))
    rw [idx_of_lt (by simpa using h), ok_bind, List.getElem_replicate, hI.comp, ok_bind, upd_of_lt (by simpa using h), ok_bind]
    congr 2
    apply List.ext_getElem?
    intro i
    by_cases e : k = i
    · subst e; rw [List.getElem?_set_self (by simpa using h)]; simp [h]
    · rw [List.getElem?_set_ne e]
  · exact if_neg h

theorem push_clean (hI : IdOk M) (hd : Dim s) {k : Nat} (hk : k < s.size) :
    (lazy M s).push M k = ok (lazy M s) := by
  unfold LazySegtree.push
  have e : idx (lazy M s).lz k = ok M.idMap := by
    rw [lazy, idx_of_lt (by simpa using hk), List.getElem_replicate]
  rw [e, ok_bind, allApply_clean hI hd (by omega), ok_bind, e, ok_bind, allApply_clean hI hd (by omega), ok_bind]
  have : k < (lazy M s).lz.length := by simpa [lazy] using hk
  rw [upd_of_lt this, ok_bind]
  simp only [lazy]
  congr 2
  apply List.ext_getElem?
  intro i
  by_cases e : k = i
  · subst e; rw [List.getElem?_set_self (by simpa using hk)]; simp [hk]
  · rw [List.getElem?_set_ne e]

theorem shift_lt {k N i : Nat} (hk : k < 2 * N) (hi : 1 ≤ i) : k >>> i < N := by
  rw [Nat.shiftRight_eq_div_pow]
  refine Nat.div_lt_of_lt_mul (Nat.lt_of_lt_of_le hk (Nat.mul_le_mul_right _ ?_))
  calc 2 = 2 ^ 1 := rfl
    _ ≤ 2 ^ i := Nat.pow_le_pow_right (by omega) hi

theorem forRev_const {σ : Type} {f : Nat → σ → Res σ} {x : σ} {lo hi : Nat}
    (h : ∀ i, lo ≤ i → i < hi → f i x = ok x) : forRangeRev lo hi x f = ok x := by
  unfold forRangeRev
  have : ∀ cnt, cnt ≤ hi - lo → forRevCount cnt lo x f = ok x := by
    intro cnt
    induction cnt with
    | zero => intro _; rfl
    | succ cnt ih =>
      intro hc
      simp only [forRevCount]
      rw [h _ (by omega) (by omega), ok_bind, ih (by omega)]
  exact this _ (Nat.le_refl _)

theorem pushPath_clean (hI : IdOk M) (hd : Dim s) {k : Nat} (hk : k < 2 * s.size) :
    (lazy M s).pushPath M k = ok (lazy M s) :=
  forRev_const fun i hi _ => push_clean hI hd (shift_lt hk hi)

variable {N L n : Nat} {t : LazySegtree S F}

theorem update_tl (h : TL M N L n t s) (k : Nat) :
    Sim False False (TL M N L n) (t.update M k) (s.update (plain M) k) := by
  obtain ⟨rfl, hd, h1, h2, h3⟩ := h
  refine sim_bind sim_refl ?_
  rintro x _ rfl
  refine sim_bind sim_refl ?_
  rintro y _ rfl
  refine sim_bind sim_refl ?_
  rintro z _ rfl
  show Sim _ _ _ (upd s.d k z >>= _) (upd s.d k z >>= _)
  by_cases hk : k < s.d.length
  · rw [upd_of_lt hk, ok_bind, ok_bind]
    exact sim_ok ⟨rfl, ⟨hd.size, hd.n, by simpa using hd.d⟩, h1, h2, h3⟩
  · rw [upd_panic (by omega)]; exact sim_panic

theorem from_tl (v : List S) :
    Sim False False (fun t s => t = lazy M s ∧ Dim s) (LazySegtree.from M v) (Segtree.from (plain M) v) := by
  unfold LazySegtree.from Segtree.from
  refine sim_bind sim_refl ?_
  rintro L _ rfl
  simp only
  show Sim _ _ _ (writeSlice (List.replicate (2 * 1 <<< L) M.e) _ v >>= _) (writeSlice (List.replicate (2 * 1 <<< L) M.e) _ v >>= _)
  unfold writeSlice
  by_cases hl : 1 <<< L + v.length ≤ (List.replicate (2 * 1 <<< L) M.e).length
  · rw [if_pos hl, ok_bind, ok_bind]
    rw [List.length_replicate] at hl
    refine Sim.mono (sim_forRangeRev (Q := TL M (1 <<< L) L v.length) ⟨rfl, ⟨Nat.one_shiftLeft L, ?_, ?_⟩, rfl, rfl, rfl⟩
      fun i t s h => update_tl h i) fun t s h => ⟨h.1, h.2.1⟩
    · show v.length ≤ 1 <<< L
      omega
    · simp; omega
  · rw [if_neg hl]; exact sim_panic

theorem updates_tl (h : TL M N L n t s) (k : Nat) :
    Sim False False (TL M N L n) (forRange 1 (L + 1) t fun i t => t.update M (k >>> i))
      (forRange 1 (L + 1) s fun i s => s.update (plain M) (k >>> i)) :=
  sim_forRange h fun i t s h => update_tl h _

theorem set_tl (hI : IdOk M) (hd : Dim s) (k : Nat) (x : S) :
    Sim False False (fun t s => t = lazy M s ∧ Dim s) ((lazy M s).set M k x) (s.set (plain M) k x) := by
  unfold LazySegtree.set Segtree.set
  show Sim _ _ _ (assert (k < s.n) >>= _) (assert (k < s.n) >>= _)
  refine sim_assert fun hk => ?_
  have hn := hd.n
  simp only
  show Sim _ _ _ ((lazy M s).pushPath M (k + s.size) >>= _) (upd s.d (k + s.size) x >>= _)
  rw [pushPath_clean hI hd (by omega), ok_bind]
  show Sim _ _ _ (upd s.d (k + s.size) x >>= _) (upd s.d (k + s.size) x >>= _)
  rw [upd_of_lt (by rw [hd.d]; omega), ok_bind, ok_bind]
  have hd' : Dim { s with d := s.d.set (k + s.size) x } := ⟨hd.size, hd.n, by simpa using hd.d⟩
  exact Sim.mono (updates_tl (M := M) (N := s.size) (n := s.n) ⟨rfl, hd', rfl, rfl, rfl⟩ (k + s.size))
    fun t s h => ⟨h.1, h.2.1⟩

theorem get_tl (hI : IdOk M) (hd : Dim s) (k : Nat) :
    Sim False False (fun o x => o = (lazy M s, x)) ((lazy M s).get M k) (s.get k) := by
  unfold LazySegtree.get Segtree.get
  show Sim _ _ _ (assert (k < s.n) >>= _) (assert (k < s.n) >>= _)
  refine sim_assert fun hk => ?_
  have hn := hd.n
  simp only
  show Sim _ _ _ ((lazy M s).pushPath M (k + s.size) >>= _) (idx s.d (k + s.size))
  rw [pushPath_clean hI hd (by omega), ok_bind]
  show Sim _ _ _ (idx s.d (k + s.size) >>= _) (idx s.d (k + s.size))
  rw [idx_of_lt (by rw [hd.d]; omega)]
  exact sim_ok rfl

/-- `get`, the map, `set`. -/
def mapAt (M : MapMonoidOps S F) (s : Segtree S) (k : Nat) (f : F) : Res (Segtree S) := do
  let x ← s.get k
  let y ← M.mapping f x
  s.set (plain M) k y

theorem apply_tl (hI : IdOk M) (hd : Dim s) (k : Nat) (f : F) :
    Sim False False (fun t s => t = lazy M s ∧ Dim s) ((lazy M s).apply M k f) (mapAt M s k f) := by
  unfold LazySegtree.apply mapAt Segtree.get
  show Sim _ _ _ (assert (k < s.n) >>= _) _
  by_cases hk : k < s.n
  · rw [assert_true hk, ok_bind, ok_bind]
    have hn := hd.n
    have hl : k + s.size < s.d.length := by rw [hd.d]; omega
    simp only
    show Sim _ _ _ ((lazy M s).pushPath M (k + s.size) >>= _) (idx s.d (k + s.size) >>= _)
    rw [pushPath_clean hI hd (by omega), ok_bind]
    show Sim _ _ _ (idx s.d (k + s.size) >>= _) (idx s.d (k + s.size) >>= _)
    rw [idx_of_lt hl, ok_bind, ok_bind]
    refine sim_bind sim_refl ?_
    rintro y _ rfl
    unfold Segtree.set
    rw [assert_true hk, ok_bind]
    show Sim _ _ _ (upd s.d (k + s.size) y >>= _) (upd s.d (k + s.size) y >>= _)
    rw [upd_of_lt hl, ok_bind, ok_bind]
    have hd' : Dim { s with d := s.d.set (k + s.size) y } := ⟨hd.size, hd.n, by simpa using hd.d⟩
    exact Sim.mono (updates_tl (M := M) (N := s.size) (n := s.n) ⟨rfl, hd', rfl, rfl, rfl⟩ (k + s.size))
      fun t s h => ⟨h.1, h.2.1⟩
  · rw [assert_false hk]; exact sim_panic

theorem sim_pair {α β : Type} (c : α) (r : Res β) :
    Sim False False (fun o x => o = (c, x)) (r >>= fun x => ok (c, x)) r := by
  cases r
  · exact sim_ok rfl
  · exact sim_panic
  · exact sim_diverge

theorem prod_tl (hI : IdOk M) (hd : Dim s) (l r : Nat) (he : l = r → M.op M.e M.e = ok M.e) :
    Sim False False (fun o x => o = (lazy M s, x)) ((lazy M s).prod M l r) (s.prod (plain M) l r) := by
  unfold LazySegtree.prod Segtree.prod
  show Sim _ _ _ (assert (l ≤ r ∧ r ≤ s.n) >>= _) (assert (l ≤ r ∧ r ≤ s.n) >>= _)
  refine sim_assert fun hk => ?_
  have hn := hd.n
  by_cases hlr : l = r
  · rw [if_pos hlr]
    subst hlr
    rw [show ∀ (f : Nat × Nat × S × S → Res (Nat × Nat × S × S)), whileLoop (l + s.size + 1) (l + s.size, l + s.size, (plain M).e, (plain M).e)
        (fun (l, r, _, _) => ok (decide (l < r))) f = ok (l + s.size, l + s.size, (plain M).e, (plain M).e) from
      fun f => by simp [whileLoop], ok_bind]
    simp only
    rw [show (plain M).op (plain M).e (plain M).e = ok M.e from he rfl]
    exact sim_ok rfl
  · rw [if_neg hlr]
    simp only
    have hp : ∀ {x : Nat}, x ≤ 2 * s.size → ∀ i, 1 ≤ i → i < s.log + 1 →
        (if (x >>> i) <<< i ≠ x then (lazy M s).push M (x >>> i) else ok (lazy M s)) = ok (lazy M s) := by
      intro x hx i h1 h2
      split
      · rename_i hne
        refine push_clean hI hd (shift_lt (Nat.lt_of_le_of_ne hx ?_) h1)
        rintro rfl
        apply hne
        rw [hd.size, Nat.shiftRight_eq_div_pow, Nat.shiftLeft_eq]
        apply Nat.div_mul_cancel
        exact Nat.dvd_trans (Nat.pow_dvd_pow 2 (by omega : i ≤ s.log)) (Nat.dvd_mul_left _ _)
      · rfl
    rw [show (forRangeRev 1 ((lazy M s).log + 1) (lazy M s) fun i t => do
        let t ← (if ((l + (lazy M s).size) >>> i) <<< i ≠ l + (lazy M s).size then t.push M ((l + (lazy M s).size) >>> i) else ok t : Res (LazySegtree S F))
        (if ((r + (lazy M s).size) >>> i) <<< i ≠ r + (lazy M s).size then t.push M ((r + (lazy M s).size) >>> i) else ok t : Res (LazySegtree S F))) = ok (lazy M s) from
      forRev_const fun i h1 h2 => by
        have e1 := hp (x := l + s.size) (by omega) i h1 h2
        have e2 := hp (x := r + s.size) (by omega) i h1 h2
        refine Eq.trans (congrArg (· >>= _) e1) ?_
        exact e2, ok_bind]
    refine sim_bind sim_refl ?_
    rintro ⟨_, _, sml, smr⟩ _ rfl
    exact sim_pair _ _

theorem maxRight_tl (hI : IdOk M) (hd : Dim s) (l : Nat) (g : S → Bool) :
    Sim False False (fun o x => o = (lazy M s, x)) ((lazy M s).maxRight M l g) (s.maxRight (plain M) l g) := by
  unfold LazySegtree.maxRight Segtree.maxRight
  show Sim _ _ _ (assert (l ≤ s.n) >>= _) (assert (l ≤ s.n) >>= _)
  refine sim_assert fun hk => ?_
  show Sim _ _ _ (assert (g M.e = true) >>= _) (assert (g M.e = true) >>= _)
  refine sim_assert fun hg => ?_
  have hn := hd.n
  show Sim _ _ _ (if l = s.n then _ else _) (if l = s.n then _ else _)
  by_cases hl : l = s.n
  · rw [if_pos hl, if_pos hl]
    exact sim_ok rfl
  rw [if_neg hl, if_neg hl]
  simp only
  show Sim _ _ _ ((lazy M s).pushPath M (l + s.size) >>= _) _
  rw [pushPath_clean hI hd (by omega), ok_bind]
  refine sim_loop (Q := Eq) rfl ?_
  rintro ⟨l, sm⟩ _ rfl
  refine sim_bind sim_refl ?_
  rintro l _ rfl
  refine sim_bind sim_refl ?_
  rintro x _ rfl
  refine sim_bind sim_refl ?_
  rintro y _ rfl
  refine sim_ite ?_ ?_
  · refine sim_bind (sim_whileC (Q := fun a b => a.1 = b.1 ∧ a.2.1 = b.2 ∧ a.2.2 = lazy M s)
      (P := fun a b => a.1 = b.1 ∧ a.2.2 = lazy M s) ⟨rfl, rfl, rfl⟩ ?_) ?_
    · rintro ⟨l, sm, t⟩ ⟨_, _⟩ ⟨rfl, rfl, rfl⟩
      refine sim_ok ⟨rfl, ?_⟩
      by_cases hl : l < s.size
      · refine (congrArg id (if_pos (decide_eq_true hl))).mpr ?_
        simp only
        rw [push_clean hI hd hl, ok_bind]
        refine sim_bind sim_refl ?_
        rintro x _ rfl
        refine sim_bind sim_refl ?_
        rintro y _ rfl
        exact sim_ite (sim_ok ⟨rfl, rfl, rfl⟩) (sim_ok ⟨rfl, rfl, rfl⟩)
      · refine (congrArg id (if_neg (c := decide (l < s.size) = true) (by simpa using hl))).mpr ⟨rfl, rfl⟩
    · rintro ⟨l, sm, t⟩ ⟨_, _⟩ ⟨rfl, rfl⟩
      refine sim_bind sim_refl ?_
      rintro y _ rfl
      exact sim_ok rfl
  · refine sim_bind sim_refl ?_
    rintro x _ rfl
    refine sim_bind sim_refl ?_
    rintro y _ rfl
    by_cases h : (l + 1) &&& wnegU 64 (l + 1) = l + 1
    · rw [if_pos h, if_neg (by simpa using h)]
      exact sim_ok rfl
    · rw [if_neg h, if_pos h]
      exact sim_ok rfl

theorem minLeft_tl (hI : IdOk M) (hd : Dim s) (r : Nat) (g : S → Bool) :
    Sim False False (fun o x => o = (lazy M s, x)) ((lazy M s).minLeft M r g) (s.minLeft (plain M) r g) := by
  unfold LazySegtree.minLeft Segtree.minLeft
  show Sim _ _ _ (assert (r ≤ s.n) >>= _) (assert (r ≤ s.n) >>= _)
  refine sim_assert fun hk => ?_
  show Sim _ _ _ (assert (g M.e = true) >>= _) (assert (g M.e = true) >>= _)
  refine sim_assert fun hg => ?_
  have hn := hd.n
  refine sim_ite (sim_ok rfl) ?_
  simp only
  show Sim _ _ _ ((lazy M s).pushPath M (r + s.size - 1) >>= _) _
  have hs : 0 < s.size := by rw [hd.size]; exact Nat.two_pow_pos _
  rw [pushPath_clean hI hd (by omega), ok_bind]
  refine sim_loop (Q := Eq) rfl ?_
  rintro ⟨r, sm⟩ _ rfl
  refine sim_bind sim_refl ?_
  rintro r _ rfl
  refine sim_bind (Q := Eq) (sim_while (Q := Eq) rfl ?_ ?_) ?_
  · rintro r _ rfl
    refine sim_ok ?_
    by_cases h : r % 2 = 1
    · simp [h]
    · simp [h, show r % 2 = 0 by omega]
  · rintro r _ rfl
    exact sim_refl
  rintro r _ rfl
  refine sim_bind sim_refl ?_
  rintro x _ rfl
  refine sim_bind sim_refl ?_
  rintro y _ rfl
  refine sim_ite ?_ ?_
  · refine sim_bind (sim_whileC (Q := fun a b => a.1 = b.1 ∧ a.2.1 = b.2 ∧ a.2.2 = lazy M s)
      (P := fun a b => a.1 = b.1 ∧ a.2.2 = lazy M s) ⟨rfl, rfl, rfl⟩ ?_) ?_
    · rintro ⟨l, sm, t⟩ ⟨_, _⟩ ⟨rfl, rfl, rfl⟩
      refine sim_ok ⟨rfl, ?_⟩
      by_cases hl : l < s.size
      · refine (congrArg id (if_pos (decide_eq_true hl))).mpr ?_
        simp only
        rw [push_clean hI hd hl, ok_bind]
        refine sim_bind sim_refl ?_
        rintro x _ rfl
        refine sim_bind sim_refl ?_
        rintro y _ rfl
        refine sim_ite (sim_bind sim_refl ?_) (sim_ok ⟨rfl, rfl, rfl⟩)
        rintro z _ rfl
        exact sim_ok ⟨rfl, rfl, rfl⟩
      · refine (congrArg id (if_neg (c := decide (l < s.size) = true) (by simpa using hl))).mpr ⟨rfl, rfl⟩
    · rintro ⟨l, sm, t⟩ ⟨_, _⟩ ⟨rfl, rfl⟩
      refine sim_bind sim_refl ?_
      rintro y _ rfl
      exact sim_ok rfl
  · refine sim_bind sim_refl ?_
    rintro x _ rfl
    refine sim_bind sim_refl ?_
    rintro y _ rfl
    by_cases h : r &&& wnegU 64 r = r
    · rw [if_pos h, if_neg (by simpa using h)]
      exact sim_ok rfl
    · rw [if_neg h, if_pos h]
      exact sim_ok rfl

end Verif.TwoP
