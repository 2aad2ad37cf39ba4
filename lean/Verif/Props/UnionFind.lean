import Verif.Proof.UnionFind
/-! C10–C13: union-find over arbitrary operation histories.

`UF.run (UF.new n) ops = .ok u` says that the history `ops`, run on a fresh structure of `n`
elements, returned (no panic) and left the state `u`. -/
namespace Verif.Props
open Res Model Spec UFP

/-- A reached state answers `is_same` by `b`. -/
def SameAns (u : UF) (x y : Nat) (b : Bool) : Prop := ∃ u', u.isSame x y = .ok (b, u')

theorem sameAns_iff {u : UF} (hi : UFP.Inv u) {x y : Nat} (hx : x < u.n) (hy : y < u.n) :
    SameAns u x y true ↔ Same u x y := by
  constructor
  · rintro ⟨w, h⟩; exact (isSame_eq hi h).2.2.1.1 rfl
  · intro h
    obtain ⟨⟨b, w⟩, e, hb, -⟩ := isSame_sat hi hx hy
    have := hb.2 h
    simp only at this; subst this
    exact ⟨w, e⟩

/-! ### C10 -/

/-- C10 is false of the code: after `join(0,1); join(0,2)` the elements 0 and 1 are connected by
a join but `is_same(0,1)` is false. -/
theorem C10_false : ¬ ∀ (n : Nat) (ops : List UF.Op) (u : UF) (x y : Nat) (b : Bool),
    InRange n ops → UF.run (UF.new n) ops = .ok u → x < n → y < n → SameAns u x y b →
    (b = true ↔ Conn (joinsOf ops) x y) := by
  intro h
  have hr : ∃ u, UF.run (UF.new 3) [.join 0 1, .join 0 2] = .ok u ∧ u.fa = [2, 1, 2] ∧
      ∃ u', u.isSame 0 1 = .ok (false, u') := by
    refine ⟨⟨3, [2, 1, 2], [1, 2, 2]⟩, by decide, rfl, ⟨3, [2, 1, 2], [1, 2, 2]⟩, by decide⟩
  obtain ⟨u, h1, -, h2⟩ := hr
  have := (h 3 [.join 0 1, .join 0 2] u 0 1 false
    (by intro o ho; simp at ho; rcases ho with rfl | rfl <;> simp [OpInRange]) h1
    (by decide) (by decide) h2).2 (.rel _ _ (by simp [joinsOf]))
  cases this

/-- C10 (the true part): in every history whose joins are made on a first argument that is its own
representative at that moment (or on two elements already the same), `is_same` is exactly
connectivity through the joined pairs.
Missing from C10: histories that join through a non-representative first argument, for which the
statement is false (`C10_false`). -/
theorem C10_connectivity_partial (n : Nat) (ops : List UF.Op) (u : UF) (x y : Nat) (b : Bool)
    (hj : JoinsFirstRep n ops) (hr : UF.run (UF.new n) ops = .ok u) (hx : x < n)
    (ha : SameAns u x y b) : b = true ↔ Conn (joinsOf ops) x y := by
  obtain ⟨hi, hn, hc⟩ := reach_inv ops hr
  obtain ⟨u', ha⟩ := ha
  obtain ⟨_, hy, hb, -⟩ := isSame_eq hi ha
  rw [hb]
  constructor
  · rintro ⟨r, h1, h2⟩
    exact .trans _ _ _ (hc _ _ h1) (.symm _ _ (hc _ _ h2))
  · intro h
    rcases same_of_conn hi (firstRep_complete ops hr hj) h with rfl | h
    · exact Same.equiv_refl hi (hn ▸ hx)
    · exact h

/-- C10 (return value): in every reachable state `join` returns `true` exactly if `is_same` was
false just before. -/
theorem C10_join_result (n : Nat) (ops : List UF.Op) (u : UF) (x y : Nat) (b c : Bool) (u' : UF)
    (hr : UF.run (UF.new n) ops = .ok u) (hj : u.join x y = .ok (b, u')) (hs : SameAns u x y c) :
    b = !c := by
  obtain ⟨hi, -, -⟩ := reach_inv ops hr
  obtain ⟨u'', hs⟩ := hs
  have h1 := (isSame_eq hi hs).2.2.1
  obtain ⟨_, _, ⟨rfl, h, _⟩ | ⟨rfl, h, _⟩⟩ := join_eq hi hj
  · rw [h1.2 h]; rfl
  · cases c
    · rfl
    · exact absurd (h1.1 rfl) h

/-- C10 (exactly when it holds): in a history that returned, `is_same` is connectivity through the
joined pairs after each of its calls if and only if every join is made on a first argument that is its
own representative at that moment (or on two elements already the same). -/
theorem C10_exact (n : Nat) (ops : List UF.Op) (w : UF) (hr : UF.run (UF.new n) ops = .ok w) :
    JoinsFirstRep n ops ↔ ∀ pre u, pre <+: ops → UF.run (UF.new n) pre = .ok u →
      ∀ x y, x < n → y < n → (SameAns u x y true ↔ Conn (joinsOf pre) x y) := by
  constructor
  · rintro hj pre u ⟨post, rfl⟩ hu x y hx hy
    have hj' : JoinsFirstRep n pre := fun p x y q e => hj p x y (q ++ post) (by simp [e])
    obtain ⟨hi, hn, -⟩ := reach_inv pre hu
    obtain ⟨⟨b, v⟩, e, -⟩ := isSame_sat hi (x := x) (y := y) (hn ▸ hx) (hn ▸ hy)
    have h := C10_connectivity_partial n pre u x y b hj' hu hx ⟨v, e⟩
    rw [← h]
    constructor
    · rintro ⟨v', e'⟩
      rw [e] at e'; cases e'; rfl
    · rintro rfl; exact ⟨v, e⟩
  · rintro h pre x y post rfl u hu
    obtain ⟨u', v, h1, h2, h3⟩ := run_split hr
    rw [hu] at h1; cases h1
    obtain ⟨hi, hn, hc⟩ := reach_inv pre hu
    rcases step_eq hi h2 with ⟨hp, hq⟩ | ⟨x', y', fx, fy, e, hns, hl⟩
    · right
      have hs := hq x y rfl
      obtain ⟨r, a, b⟩ := hs
      exact (sameAns_iff hi (R.ltn hi a).1 (R.ltn hi b).1).2 ⟨r, a, b⟩
    · cases e
      left
      obtain ⟨⟨r, w'⟩, e, h4, -⟩ := find_sat hi (R.ltn hi hl.rx).1
      have : r = x := by
        apply Classical.byContradiction
        intro hne
        have := h4.det hl.rx
        simp only at this
        subst this
        have hxn := (R.ltn hi hl.rx).1
        have hrn := (R.ltn hi hl.rx).2
        have h5 := (h (pre ++ [.join x y]) v ⟨post, by simp⟩ h3 x r (hn ▸ hxn) (hn ▸ hrn)).2
          (Conn.mono (by intro p hp; rw [joinsOf_append]; exact List.mem_append_left _ hp) (hc x r hl.rx))
        rw [sameAns_iff hl.inv (by rw [hl.n]; exact hxn) (by rw [hl.n]; exact hrn)] at h5
        obtain ⟨s, a, b⟩ := h5
        exact hl.ne (((hl.keep hne).det b).trans (a.det hl.rx'))
      subst this
      exact ⟨w', e⟩

/-- C10 (what `join` does in any history): a `join(x, y)` that returns `true` takes a set `S` of
elements of the class of `x`, `x` among them, over to the class of `y` and changes no other class. `S` is
the whole class if `x` is its representative; otherwise the representative stays behind. -/
theorem C10_join_effect (n : Nat) (ops : List UF.Op) (u v : UF) (x y : Nat)
    (hr : UF.run (UF.new n) ops = .ok u) (hj : u.join x y = .ok (true, v)) :
    ∃ (S : Nat → Prop) (r : Nat) (u' : UF), u.find x = .ok (r, u') ∧ S x ∧
      (∀ a, S a → SameAns u a x true) ∧ (r = x → ∀ a, SameAns u a x true → S a) ∧ (r ≠ x → ¬ S r) ∧
      ∀ a c, a < n → c < n → (SameAns v a c true ↔
        ((S a ∨ SameAns u a y true) ∧ (S c ∨ SameAns u c y true)) ∨
        (¬ (S a ∨ SameAns u a y true) ∧ ¬ (S c ∨ SameAns u c y true) ∧ SameAns u a c true)) := by
  obtain ⟨hi, hn, -⟩ := reach_inv ops hr
  obtain ⟨hx, hy, ⟨h, _⟩ | ⟨_, hns, fx, fy, hl⟩⟩ := join_eq hi hj
  · cases h
  have iff1 : ∀ {a c}, SameAns u a c true → Same u a c := by
    rintro a c ⟨w, h⟩; exact (isSame_eq hi h).2.2.1.1 rfl
  obtain ⟨⟨r, u'⟩, e, h4, -⟩ := find_sat hi hx
  have := h4.det hl.rx
  simp only at this
  subst this
  refine ⟨fun a => R u a r ∧ R v a fy, r, u', e, ⟨hl.rx, hl.rx'⟩, ?_, ?_, ?_, ?_⟩
  · rintro a ⟨h1, h2⟩
    exact (sameAns_iff hi (R.ltn hi h1).1 hx).2 ⟨r, h1, hl.rx⟩
  · rintro rfl a h
    obtain ⟨s, h1, h2⟩ := iff1 h
    have := h2.det hl.rx; subst this
    exact ⟨h1, hl.root rfl a h1⟩
  · rintro hne ⟨-, h⟩
    exact hl.ne ((hl.keep hne).det h)
  · intro a c ha hc
    rw [sameAns_iff hl.inv (by rw [hl.n, hn]; exact ha) (by rw [hl.n, hn]; exact hc),
      sameAns_iff hi (by rw [hn]; exact ha) hy, sameAns_iff hi (by rw [hn]; exact hc) hy,
      sameAns_iff hi (by rw [hn]; exact ha) (by rw [hn]; exact hc)]
    have yes : ∀ a, ((R u a r ∧ R v a fy) ∨ Same u a y) → R v a fy := by
      rintro a (h | ⟨s, h1, h2⟩)
      · exact h.2
      · have := h2.det hl.ry; subst this
        exact hl.other a s h1 hl.ne.symm
    have no : ∀ a s, ¬ ((R u a r ∧ R v a fy) ∨ Same u a y) → R u a s → R v a s ∧ s ≠ fy := by
      intro a s h h1
      have hs : s ≠ fy := by rintro rfl; exact h (.inr ⟨s, h1, hl.ry⟩)
      refine ⟨?_, hs⟩
      by_cases e : s = r
      · subst e
        rcases hl.moved a h1 with h2 | h2
        · exact h2
        · exact absurd (.inl ⟨h1, h2⟩) h
      · exact hl.other a s h1 e
    obtain ⟨sa, ra⟩ := hi.root a (by rw [hn]; exact ha)
    obtain ⟨sc, rc⟩ := hi.root c (by rw [hn]; exact hc)
    by_cases h1 : (R u a r ∧ R v a fy) ∨ Same u a y <;> by_cases h2 : (R u c r ∧ R v c fy) ∨ Same u c y
    · simp only [h1, h2, true_and, not_true_eq_false, false_and, or_false, iff_true]
      exact ⟨fy, yes a h1, yes c h2⟩
    · simp only [h1, h2, not_true_eq_false, false_and, and_false, or_false, iff_false]
      rintro ⟨s, g1, g2⟩
      obtain ⟨g3, g4⟩ := no c sc h2 rc
      exact g4 ((g3.det g2).trans (g1.det (yes a h1)))
    · simp only [h1, h2, not_true_eq_false, false_and, and_false, or_false, iff_false]
      rintro ⟨s, g1, g2⟩
      obtain ⟨g3, g4⟩ := no a sa h1 ra
      exact g4 ((g3.det g1).trans (g2.det (yes c h2)))
    · simp only [h1, h2, not_false_eq_true, false_and, true_and, false_or]
      obtain ⟨g3, g4⟩ := no a sa h1 ra
      obtain ⟨g5, g6⟩ := no c sc h2 rc
      constructor
      · rintro ⟨s, a1, a2⟩
        have e1 := g3.det a1
        have e2 := g5.det a2
        subst e1; subst e2
        exact ⟨_, ra, rc⟩
      · rintro ⟨s, a1, a2⟩
        have e1 := ra.det a1
        have e2 := rc.det a2
        subst e1; subst e2
        exact ⟨_, g3, g5⟩

/-- A join through a non-representative: `join(0,1)`, then `join(0,2)` moves 0 away from 1, while 3, joined to
0 before, goes along. -/
example : UF.run (UF.new 4) [.join 0 1, .join 3 0] = .ok ⟨4, [1, 1, 2, 0], [2, 2, 1, 1]⟩ ∧
    UF.join ⟨4, [1, 1, 2, 0], [2, 2, 1, 1]⟩ 0 2 = .ok (true, ⟨4, [2, 1, 2, 0], [2, 2, 3, 1]⟩) ∧
    (∃ u, UF.isSame ⟨4, [2, 1, 2, 0], [2, 2, 3, 1]⟩ 3 2 = .ok (true, u)) ∧
    ∃ u, UF.isSame ⟨4, [2, 1, 2, 0], [2, 2, 3, 1]⟩ 0 1 = .ok (false, u) :=
  ⟨by decide, by decide, ⟨⟨4, [2, 1, 2, 2], [2, 2, 3, 1]⟩, by decide⟩, ⟨4, [2, 1, 2, 0], [2, 2, 3, 1]⟩, by decide⟩

/-- A history satisfying the hypotheses of `C10_connectivity_partial`: chains built by linking
representatives. -/
example : JoinsFirstRep 4 [.join 0 1, .join 1 2, .join 3 0] ∧
    UF.run (UF.new 4) [.join 0 1, .join 1 2, .join 3 0] = .ok ⟨4, [2, 2, 2, 0], [2, 2, 3, 1]⟩ := by
  refine ⟨?_, by decide⟩
  intro pre x y post e u hu
  rcases pre with _ | ⟨a, _ | ⟨b, _ | ⟨c, _ | ⟨d, pre⟩⟩⟩⟩ <;> simp at e
  · obtain ⟨⟨rfl, rfl⟩, -⟩ := e
    simp [UF.run] at hu; subst hu
    exact Or.inl ⟨⟨4, [0, 1, 2, 3], [1, 1, 1, 1]⟩, by decide⟩
  · obtain ⟨rfl, ⟨rfl, rfl⟩, -⟩ := e
    have : u = ⟨4, [1, 1, 2, 3], [1, 2, 1, 1]⟩ := by
      have h' : UF.run (UF.new 4) [.join 0 1] = .ok ⟨4, [1, 1, 2, 3], [1, 2, 1, 1]⟩ := by decide
      rw [h'] at hu; cases hu; rfl
    subst this
    exact Or.inl ⟨⟨4, [1, 1, 2, 3], [1, 2, 1, 1]⟩, by decide⟩
  · obtain ⟨rfl, rfl, ⟨rfl, rfl⟩, -⟩ := e
    have : u = ⟨4, [1, 2, 2, 3], [1, 2, 3, 1]⟩ := by
      have h' : UF.run (UF.new 4) [.join 0 1, .join 1 2] =
        .ok ⟨4, [1, 2, 2, 3], [1, 2, 3, 1]⟩ := by decide
      rw [h'] at hu; cases hu; rfl
    subst this
    exact Or.inl ⟨⟨4, [1, 2, 2, 3], [1, 2, 3, 1]⟩, by decide⟩

/-! ### C11 -/

/-- C11: after any history that returned, `find` of an in-range element terminates and returns a
representative `r` (`find r = r`), whatever the later queries. -/
theorem C11_find_representative (n : Nat) (ops : List UF.Op) (u : UF) (x : Nat)
    (hr : UF.run (UF.new n) ops = .ok u) (hx : x < n) :
    ∃ r u' u'', u.find x = .ok (r, u') ∧ r < n ∧ u'.find r = .ok (r, u'') := by
  obtain ⟨hi, hn, -⟩ := reach_inv ops hr
  obtain ⟨⟨r, u'⟩, e, h1, h2⟩ := find_sat hi (i := x) (hn ▸ hx)
  simp only at h1 h2
  have hrn := (R.ltn hi h1).2
  obtain ⟨⟨r', u''⟩, e', h3, h4⟩ := find_sat h2.inv (i := r) (by rw [h2.n]; exact hrn)
  have h5 := (h2.root r r').2 h3
  have : r' = r := h5.det (R.root h1)
  subst this
  exact ⟨_, u', u'', e, hn ▸ hrn, e'⟩

/-- C11: `is_same` returns for all in-range arguments and is an equivalence relation, in every
reached state. -/
theorem C11_is_same_equivalence (n : Nat) (ops : List UF.Op) (u : UF)
    (hr : UF.run (UF.new n) ops = .ok u) :
    (∀ x y, x < n → y < n → ∃ b, SameAns u x y b) ∧
    (∀ x y b c, SameAns u x y b → SameAns u x y c → b = c) ∧
    (∀ x, x < n → SameAns u x x true) ∧
    (∀ x y, SameAns u x y true → SameAns u y x true) ∧
    (∀ x y z, SameAns u x y true → SameAns u y z true → SameAns u x z true) := by
  obtain ⟨hi, hn, -⟩ := reach_inv ops hr
  have mk : ∀ x y, x < n → y < n → Same u x y → SameAns u x y true := by
    intro x y hx hy h
    obtain ⟨⟨b, u'⟩, e, h1, -⟩ := isSame_sat hi (x := x) (y := y) (hn ▸ hx) (hn ▸ hy)
    have := h1.2 h
    simp only at this; subst this
    exact ⟨u', e⟩
  refine ⟨?_, ?_, ?_, ?_, ?_⟩
  · intro x y hx hy
    obtain ⟨⟨b, u'⟩, e, -⟩ := isSame_sat hi (x := x) (y := y) (hn ▸ hx) (hn ▸ hy)
    exact ⟨b, u', e⟩
  · rintro x y b c ⟨_, h⟩ ⟨_, h'⟩
    rw [h] at h'; cases h'; rfl
  · intro x hx
    exact mk x x hx hx (Same.equiv_refl hi (hn ▸ hx))
  · rintro x y ⟨_, h⟩
    obtain ⟨hx, hy, hb, -⟩ := isSame_eq hi h
    obtain ⟨r, a, b⟩ := hb.1 rfl
    exact mk y x (hn ▸ hy) (hn ▸ hx) ⟨r, b, a⟩
  · rintro x y z ⟨_, h⟩ ⟨_, h'⟩
    obtain ⟨hx, hy, hb, -⟩ := isSame_eq hi h
    obtain ⟨_, hz, hb', -⟩ := isSame_eq hi h'
    obtain ⟨r, a, b⟩ := hb.1 rfl
    obtain ⟨s, c, d⟩ := hb'.1 rfl
    have := b.det c; subst this
    exact mk x z (hn ▸ hx) (hn ▸ hz) ⟨r, a, d⟩

/-- C11: the queries (everything but `join`) return on in-range arguments and change no answer of
`is_same`, `find` or `size`. -/
theorem C11_queries_preserve (n : Nat) (ops : List UF.Op) (u : UF) (o : UF.Op)
    (hr : UF.run (UF.new n) ops = .ok u) (ho : OpInRange n o) (hq : ∀ x y, o ≠ .join x y) :
    ∃ v, u.step o = .ok v ∧
      (∀ x y b, SameAns u x y b ↔ SameAns v x y b) ∧
      (∀ x r, (∃ w, u.find x = .ok (r, w)) ↔ (∃ w, v.find x = .ok (r, w))) ∧
      (∀ x k, (∃ w, u.size x = .ok (k, w)) ↔ (∃ w, v.size x = .ok (k, w))) := by
  obtain ⟨hi, hn, -⟩ := reach_inv ops hr
  have hstep : ∃ v, u.step o = .ok v := by
    cases o with
    | find x => obtain ⟨a, e, -⟩ := find_sat hi (i := x) (by rw [hn]; exact ho)
                exact ⟨a.2, by simp [UF.step, e]⟩
    | isSame x y => obtain ⟨a, e, -⟩ := isSame_sat hi (x := x) (y := y) (by rw [hn]; exact ho.1)
                      (by rw [hn]; exact ho.2)
                    exact ⟨a.2, by simp [UF.step, e]⟩
    | size x => obtain ⟨a, e, -⟩ := size_sat hi (x := x) (by rw [hn]; exact ho)
                exact ⟨a.2, by simp [UF.step, e]⟩
    | groups => obtain ⟨a, e, -⟩ := groups_sat hi
                exact ⟨a.2, by simp [UF.step, e]⟩
    | join x y => exact absurd rfl (hq x y)
  obtain ⟨v, hv⟩ := hstep
  have hp : Pres u v := by
    rcases step_eq hi hv with h | ⟨x, y, _, _, h, -⟩
    · exact h.1
    · exact absurd h (hq x y)
  refine ⟨v, hv, ?_, ?_, ?_⟩
  · intro x y b
    constructor
    · rintro ⟨w, h⟩
      obtain ⟨hx, hy, hb, -⟩ := isSame_eq hi h
      obtain ⟨⟨c, w'⟩, e, h1, -⟩ := isSame_sat hp.inv (x := x) (y := y) (by rw [hp.n]; exact hx)
        (by rw [hp.n]; exact hy)
      have : c = b := by
        have := h1.trans ((hp.same x y).symm.trans hb.symm)
        exact Bool.eq_iff_iff.2 this
      exact ⟨w', this ▸ e⟩
    · rintro ⟨w, h⟩
      obtain ⟨hx, hy, hb, -⟩ := isSame_eq hp.inv h
      rw [hp.n] at hx hy
      obtain ⟨⟨c, w'⟩, e, h1, -⟩ := isSame_sat hi hx hy
      have : c = b := by
        have := h1.trans ((hp.same x y).trans hb.symm)
        exact Bool.eq_iff_iff.2 this
      exact ⟨w', this ▸ e⟩
  · intro x r
    constructor
    · rintro ⟨w, h⟩
      have h1 := (find_eq hi h).1
      have hx := (R.ltn hi h1).1
      obtain ⟨⟨c, w'⟩, e, h2, -⟩ := find_sat hp.inv (i := x) (by rw [hp.n]; exact hx)
      have : c = r := h2.det ((hp.root _ _).1 h1)
      exact ⟨w', this ▸ e⟩
    · rintro ⟨w, h⟩
      have h1 := (find_eq hp.inv h).1
      have hx := (R.ltn hp.inv h1).1
      rw [hp.n] at hx
      obtain ⟨⟨c, w'⟩, e, h2, -⟩ := find_sat hi hx
      have : c = r := h2.det ((hp.root _ _).2 h1)
      exact ⟨w', this ▸ e⟩
  · intro x k
    constructor
    · rintro ⟨w, h⟩
      obtain ⟨hx, ⟨r, h1, h2⟩, -⟩ := size_eq hi h
      obtain ⟨⟨c, w'⟩, e, ⟨r', h3, h4⟩, -⟩ := size_sat hp.inv (x := x) (by rw [hp.n]; exact hx)
      have := h3.det ((hp.root _ _).1 h1); subst this
      simp only [hp.sz, h2, Option.some.injEq] at h4
      exact ⟨w', h4 ▸ e⟩
    · rintro ⟨w, h⟩
      obtain ⟨hx, ⟨r, h1, h2⟩, -⟩ := size_eq hp.inv h
      rw [hp.n] at hx
      obtain ⟨⟨c, w'⟩, e, ⟨r', h3, h4⟩, -⟩ := size_sat hi hx
      have := h3.det ((hp.root _ _).2 h1); subst this
      rw [hp.sz] at h2
      simp only [h2, Option.some.injEq] at h4
      exact ⟨w', h4 ▸ e⟩

/-- C11: `is_same(x, y)` is true right after `join(x, y)` returned. -/
theorem C11_same_after_join (n : Nat) (ops : List UF.Op) (u v : UF) (x y : Nat) (b : Bool)
    (hr : UF.run (UF.new n) ops = .ok u) (hj : u.join x y = .ok (b, v)) : SameAns v x y true := by
  obtain ⟨hi, hn, -⟩ := reach_inv ops hr
  obtain ⟨hx, hy, h⟩ := join_eq hi hj
  have key : ∀ v, UFP.Inv v → v.n = u.n → Same v x y → SameAns v x y true := by
    intro v hv hn' hs
    obtain ⟨⟨b, u'⟩, e, h1, -⟩ := isSame_sat hv (x := x) (y := y) (hn' ▸ hx) (hn' ▸ hy)
    have := h1.2 hs
    simp only at this; subst this
    exact ⟨u', e⟩
  rcases h with ⟨_, h1, h2⟩ | ⟨_, _, fx, fy, hl⟩
  · exact key v h2.inv h2.n ((h2.same _ _).1 h1)
  · exact key v hl.inv hl.n ⟨fy, hl.rx', hl.ry'⟩

/-- C11: elements reported the same are connected by a chain of joins, in every history. -/
theorem C11_sound (n : Nat) (ops : List UF.Op) (u : UF) (x y : Nat)
    (hr : UF.run (UF.new n) ops = .ok u) (h : SameAns u x y true) : Conn (joinsOf ops) x y := by
  obtain ⟨hi, hn, hc⟩ := reach_inv ops hr
  obtain ⟨w, h⟩ := h
  obtain ⟨r, h1, h2⟩ := (isSame_eq hi h).2.2.1.1 rfl
  exact .trans _ _ _ (hc _ _ h1) (.symm _ _ (hc _ _ h2))

/-- C11 (no divergence, joins included): an in-range operation in a reached state either returns,
or is a `join` of two elements not the same that panics (its size addition overflowed); it never
loops for ever. -/
theorem C11_terminates (n : Nat) (ops : List UF.Op) (u : UF) (o : UF.Op)
    (hr : UF.run (UF.new n) ops = .ok u) (ho : OpInRange n o) :
    (∃ v, u.step o = .ok v) ∨
    (u.step o = .panic ∧ ∃ x y, o = .join x y ∧ SameAns u x y false) := by
  obtain ⟨hi, hn, -⟩ := reach_inv ops hr
  by_cases hq : ∀ x y, o ≠ .join x y
  · obtain ⟨v, h, -⟩ := C11_queries_preserve n ops u o hr ho hq
    exact Or.inl ⟨v, h⟩
  · have : ∃ x y, o = .join x y := by
      apply Classical.byContradiction; intro h
      exact hq fun x y e => h ⟨x, y, e⟩
    obtain ⟨x, y, rfl⟩ := this
    obtain ⟨fx, hfx⟩ := hi.root x (by rw [hn]; exact ho.1)
    obtain ⟨fy, hfy⟩ := hi.root y (by rw [hn]; exact ho.2)
    obtain ⟨sx, hsx⟩ := sz_get hi (x := x) (by rw [hn]; exact ho.1)
    obtain ⟨sy, hsy⟩ := sz_get hi (x := y) (by rw [hn]; exact ho.2)
    by_cases hov : fx ≠ fy → sy + sx < 2 ^ 64
    · obtain ⟨a, e, -⟩ := join_sat hi hfx hfy hsx hsy hov
      exact Or.inl ⟨a.2, by simp [UF.step, e]⟩
    · right
      rw [Classical.not_imp] at hov
      refine ⟨by simp [UF.step, join_overflow hi hfx hfy hsx hsy hov.1 (by omega)], x, y, rfl, ?_⟩
      obtain ⟨⟨b, w⟩, e, h, -⟩ := isSame_sat hi (x := x) (y := y) (by rw [hn]; exact ho.1)
        (by rw [hn]; exact ho.2)
      cases b
      · exact ⟨w, e⟩
      · obtain ⟨r, h1, h2⟩ := h.1 rfl
        exact absurd ((hfx.det h1).trans (hfy.det h2).symm) hov.1

example : UF.run (UF.new 4) [.join 0 1, .join 0 2, .isSame 0 1, .join 1 3, .groups] =
    .ok ⟨4, [2, 3, 2, 3], [1, 2, 2, 3]⟩ := by decide

/-- C11: a call with an argument out of range panics, in every reached state. -/
theorem C11_out_of_range_panics (n : Nat) (ops : List UF.Op) (u : UF) (o : UF.Op)
    (hr : UF.run (UF.new n) ops = .ok u) (ho : ¬ OpInRange n o) : u.step o = .panic := by
  obtain ⟨hi, hn, -⟩ := reach_inv ops hr
  exact step_out_of_range hi (hn ▸ ho)

/-- The panic case of `C11_terminates` is real: 186 joins on 4 elements overflow a `usize`
size. -/
theorem C11_overflow_witness : UF.run (UF.new 4) ([.join 0 2, .join 1 3] ++
    (List.replicate 46 [UF.Op.join 0 1, .join 0 2, .join 1 0, .join 1 3]).flatten) = .panic := by
  decide +kernel

/-! ### C12 -/

/-- C12 is false of the code: after `join(0,1); join(0,2)` the class of 1 is `{1}`, but
`size(1) = 2`. -/
theorem C12_false : ¬ ∀ (n : Nat) (ops : List UF.Op) (u u' : UF) (x k : Nat),
    InRange n ops → UF.run (UF.new n) ops = .ok u → u.size x = .ok (k, u') →
    ∃ cls : List Nat, cls.Nodup ∧ (∀ y, y ∈ cls ↔ y < n ∧ SameAns u x y true) ∧
      k = cls.length := by
  intro h
  have hu : UF.run (UF.new 3) [.join 0 1, .join 0 2] = .ok ⟨3, [2, 1, 2], [1, 2, 2]⟩ := by decide
  obtain ⟨cls, hn, hm, hk⟩ := h 3 [.join 0 1, .join 0 2] _ ⟨3, [2, 1, 2], [1, 2, 2]⟩ 1 2
    (by intro o ho; simp at ho; rcases ho with rfl | rfl <;> simp [OpInRange]) hu (by decide)
  have h1 : ∀ y ∈ cls, y = 1 := by
    intro y hy
    obtain ⟨hy3, u', hs⟩ := (hm y).1 hy
    have h0 : (UF.isSame ⟨3, [2, 1, 2], [1, 2, 2]⟩ 1 0) =
      .ok (false, ⟨3, [2, 1, 2], [1, 2, 2]⟩) := by decide
    have h2 : (UF.isSame ⟨3, [2, 1, 2], [1, 2, 2]⟩ 1 2) =
      .ok (false, ⟨3, [2, 1, 2], [1, 2, 2]⟩) := by decide
    have : y = 0 ∨ y = 1 ∨ y = 2 := by omega
    rcases this with rfl | rfl | rfl
    · rw [h0] at hs; simp at hs
    · rfl
    · rw [h2] at hs; simp at hs
  match cls, hk, hn, h1 with
  | [a, b], _, hn, h1 =>
    have ea := h1 a (by simp)
    have eb := h1 b (by simp)
    subst ea; subst eb; simp at hn

/-- C12 (the true part): in a history of in-range calls whose joins are made on two
representatives (or on two elements already the same) nothing panics, and `size(x)` is the number
of elements `is_same` to `x`. `n < 2^63` excludes overflow of the size counters.
Missing from C12: histories joining non-representatives, for which the statement is false
(`C12_false`). -/
theorem C12_size_partial (n : Nat) (hn : n < 2 ^ 63) (ops : List UF.Op) (hr : InRange n ops)
    (hj : JoinsReps n ops) :
    ∃ u, UF.run (UF.new n) ops = .ok u ∧
      ∀ x, x < n → ∃ k u', u.size x = .ok (k, u') ∧
        ∃ cls : List Nat, cls.Nodup ∧ (∀ y, y ∈ cls ↔ y < n ∧ SameAns u x y true) ∧
          k = cls.length := by
  obtain ⟨u, hu, hs⟩ := reps_run hn ops hr hj
  obtain ⟨hi, hun, -⟩ := reach_inv ops hu
  refine ⟨u, hu, fun x hx => ?_⟩
  obtain ⟨⟨k, u'⟩, e, ⟨r, h1, h2⟩, -⟩ := size_sat hi (x := x) (hun ▸ hx)
  obtain ⟨cls, hnd, hm, hl⟩ := hs r (R.root h1)
  refine ⟨k, u', e, cls, hnd, fun y => ?_, ?_⟩
  · rw [hm]
    constructor
    · intro h
      have hy := (R.ltn hi h).1
      obtain ⟨⟨b, w⟩, e, hb, -⟩ := isSame_sat hi (x := x) (y := y) (hun ▸ hx) hy
      have := hb.2 ⟨r, h1, h⟩
      simp only at this; subst this
      exact ⟨hun ▸ hy, w, e⟩
    · rintro ⟨hy, w, h⟩
      obtain ⟨s, a, b⟩ := (isSame_eq hi h).2.2.1.1 rfl
      exact (h1.det a) ▸ b
  · rw [hl] at h2; simpa using h2.symm

/-- `size` is right for every element. -/
def SizesRight (n : Nat) (u : UF) : Prop :=
  ∀ x, x < n → ∃ k u', u.size x = .ok (k, u') ∧
    ∃ cls : List Nat, cls.Nodup ∧ (∀ y, y ∈ cls ↔ y < n ∧ SameAns u x y true) ∧ k = cls.length

theorem sizesRight_iff {u : UF} (hi : UFP.Inv u) : SizesRight u.n u ↔ SzOk u := by
  constructor
  · intro h r hr
    have hrn := (R.ltn hi hr).1
    obtain ⟨k, u', e, cls, h1, h2, h3⟩ := h r hrn
    obtain ⟨-, ⟨r', h4, h5⟩, -⟩ := size_eq hi e
    have := hr.det h4; subst this
    refine ⟨cls, h1, fun j => ?_, by rw [h5, h3]⟩
    rw [h2]
    constructor
    · rintro ⟨hj, hs⟩
      obtain ⟨s, a, b⟩ := (sameAns_iff hi hrn hj).1 hs
      have := hr.det a; subst this; exact b
    · intro hj
      have hjn := (R.ltn hi hj).1
      exact ⟨hjn, (sameAns_iff hi hrn hjn).2 ⟨r, hr, hj⟩⟩
  · intro h x hx
    obtain ⟨⟨k, u'⟩, e, ⟨r, h1, h2⟩, -⟩ := size_sat hi hx
    obtain ⟨cls, a, b, c⟩ := h r (R.root h1)
    simp only at h2
    refine ⟨k, u', e, cls, a, fun y => ?_, by rw [h2] at c; simpa using c⟩
    rw [b]
    constructor
    · intro hy
      have hyn := (R.ltn hi hy).1
      exact ⟨hyn, (sameAns_iff hi hx hyn).2 ⟨r, h1, hy⟩⟩
    · rintro ⟨hy, hs⟩
      obtain ⟨s, a, b⟩ := (sameAns_iff hi hx hy).1 hs
      have := h1.det a; subst this; exact b

/-- C12 (exactly when it holds): in a history that returned, `size` is right after each of its calls if and
only if every join is made on two representatives (or on two elements already the same). -/
theorem C12_exact (n : Nat) (ops : List UF.Op) (w : UF) (hr : UF.run (UF.new n) ops = .ok w) :
    JoinsReps n ops ↔ ∀ pre u, pre <+: ops → UF.run (UF.new n) pre = .ok u → SizesRight n u := by
  constructor
  · rintro hj pre u ⟨post, rfl⟩ hu
    have hj' : JoinsReps n pre := fun p x y q e => hj p x y (q ++ post) (by simp [e])
    obtain ⟨hi, hn, -⟩ := reach_inv pre hu
    rw [← hn]
    exact (sizesRight_iff hi).2 (reps_szOk pre hu hj')
  · rintro h pre x y post rfl u hu
    obtain ⟨u', v, h1, h2, h3⟩ := run_split hr
    rw [hu] at h1; cases h1
    obtain ⟨hi, hn, -⟩ := reach_inv pre hu
    obtain ⟨hi', hn', -⟩ := reach_inv _ h3
    have hs := h pre u ⟨_, rfl⟩ hu
    have hs' := h (pre ++ [.join x y]) v ⟨post, by simp⟩ h3
    rw [← hn] at hs; rw [← hn'] at hs'
    rw [sizesRight_iff hi] at hs
    rw [sizesRight_iff hi'] at hs'
    rcases step_eq hi h2 with ⟨hp, hq⟩ | ⟨x', y', fx, fy, e, hns, hl⟩
    · right
      obtain ⟨r, a, b⟩ := hq x y rfl
      exact (sameAns_iff hi (R.ltn hi a).1 (R.ltn hi b).1).2 ⟨r, a, b⟩
    · cases e
      left
      obtain ⟨rfl, rfl⟩ := hl.reps_of_szOk hi hs hs'
      obtain ⟨⟨r, w'⟩, e, h4, -⟩ := find_sat hi (R.ltn hi hl.rx).1
      obtain ⟨⟨s, w''⟩, e', h5, -⟩ := find_sat hi (R.ltn hi hl.ry).1
      have e1 := h4.det hl.rx
      have e2 := h5.det hl.ry
      simp only at e1 e2
      subst e1 e2
      exact ⟨⟨w', e⟩, w'', e'⟩

example : InRange 3 [.join 0 1, .size 0, .join 1 2] ∧ JoinsReps 3 [.join 0 1, .size 0, .join 1 2] := by
  refine ⟨by intro o ho; simp at ho; rcases ho with rfl | rfl | rfl <;> simp [OpInRange], ?_⟩
  intro pre x y post e u hu
  rcases pre with _ | ⟨a, _ | ⟨b, _ | ⟨c, _ | ⟨d, pre⟩⟩⟩⟩ <;> simp at e
  · obtain ⟨⟨rfl, rfl⟩, -⟩ := e
    simp [UF.run] at hu; subst hu
    exact Or.inl ⟨⟨⟨3, [0, 1, 2], [1, 1, 1]⟩, by decide⟩, ⟨3, [0, 1, 2], [1, 1, 1]⟩, by decide⟩
  · obtain ⟨rfl, rfl, ⟨rfl, rfl⟩, -⟩ := e
    have : u = ⟨3, [1, 1, 2], [1, 2, 1]⟩ := by
      have h' : UF.run (UF.new 3) [.join 0 1, .size 0] = .ok ⟨3, [1, 1, 2], [1, 2, 1]⟩ := by decide
      rw [h'] at hu; cases hu; rfl
    subst this
    exact Or.inl ⟨⟨⟨3, [1, 1, 2], [1, 2, 1]⟩, by decide⟩, ⟨3, [1, 1, 2], [1, 2, 1]⟩, by decide⟩

/-! ### C13 -/

/-- C13: after any history, `groups` returns non-empty increasing lists that partition `0..n` into
the `is_same` classes. -/
theorem C13_groups (n : Nat) (ops : List UF.Op) (u : UF)
    (hr : UF.run (UF.new n) ops = .ok u) :
    ∃ gs u', u.groups = .ok (gs, u') ∧
      (∀ g ∈ gs, g ≠ []) ∧ gs.flatten.Nodup ∧ (∀ i, i ∈ gs.flatten ↔ i < n) ∧
      (∀ g ∈ gs, g.Pairwise (· < ·)) ∧
      ∀ g ∈ gs, ∀ x ∈ g, ∀ y, y ∈ g ↔ SameAns u x y true := by
  obtain ⟨hi, hn, -⟩ := reach_inv ops hr
  obtain ⟨⟨gs, u'⟩, e, -, h1, h2, h3, h4, h5⟩ := groups_sat hi
  refine ⟨gs, u', e, h1, h2, by rw [← hn]; exact h3, h4, ?_⟩
  intro g hg x hx y
  obtain ⟨r, hr⟩ := h5 g hg
  have hxr := (hr x).1 hx
  rw [hr y]
  constructor
  · intro hy
    obtain ⟨⟨b, w⟩, e, hb, -⟩ := isSame_sat hi (R.ltn hi hxr).1 (R.ltn hi hy).1
    have := hb.2 ⟨r, hxr, hy⟩
    simp only at this; subst this
    exact ⟨w, e⟩
  · rintro ⟨w, h⟩
    obtain ⟨s, a, b⟩ := (isSame_eq hi h).2.2.1.1 rfl
    exact (hxr.det a) ▸ b

example : UF.groups ⟨4, [2, 3, 2, 3], [1, 2, 2, 3]⟩ =
    .ok ([[0, 2], [1, 3]], ⟨4, [2, 3, 2, 3], [1, 2, 2, 3]⟩) := by decide

end Verif.Props
