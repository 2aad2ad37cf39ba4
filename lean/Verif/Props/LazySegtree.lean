import Mathlib.Algebra.FreeMonoid.Basic
import Verif.Proof.LazySearch
import Verif.Proof.LazySame
/-! C07, C08: the lazy segment tree against a plain list (`Verif/Spec/LazySegtree.lean`). -/
namespace Verif.Props
open Res Model Spec LazyP

variable {S F : Type} [Monoid S] {M : MapOps S F}

/-- One call on the tree. -/
def lStep (M : MapMonoidOps S F) (t : LazySegtree S F) : LOp S F → Res (LazySegtree S F × LOut S)
  | .set p x => do let t ← t.set M p x; ok (t, .unit)
  | .get p => do let (t, x) ← t.get M p; ok (t, .val x)
  | .prod l r => do let (t, x) ← t.prod M l r; ok (t, .val x)
  | .allProd => do let x ← t.allProd; ok (t, .val x)
  | .apply p f => do let t ← t.apply M p f; ok (t, .unit)
  | .applyRange l r f => do let t ← t.applyRange M l r f; ok (t, .unit)
  | .maxRight l g => do let (t, r) ← t.maxRight M l g; ok (t, .num r)
  | .minLeft r g => do let (t, l) ← t.minLeft M r g; ok (t, .num l)

/-- A history of calls on the tree, collecting the results. -/
def lRun (M : MapMonoidOps S F) (t : LazySegtree S F) : List (LOp S F) → Res (LazySegtree S F × List (LOut S))
  | [] => ok (t, [])
  | op :: ops => do
    let (t, o) ← lStep M t op
    let (t, os) ← lRun M t ops
    ok (t, o :: os)

theorem next_length (op : LOp S F) (a : List S) : (op.next M a).length = a.length := by
  cases op <;> simp [LOp.next, mapRange]

theorem set_eq_mapRange {f : S → S} {a : List S} {p : Nat} (hp : p < a.length) :
    a.set p (f a[p]) = mapRange f a p (p + 1) := by
  unfold mapRange
  apply List.ext_getElem?
  intro i
  rw [List.getElem?_mapIdx, List.getElem?_set]
  by_cases e : p = i
  · subst e; simp [hp]
  · simp only [e, if_false]
    cases a[i]? with
    | none => rfl
    | some x => simp only [Option.map_some]; rw [if_neg (by omega)]

theorem lStep_sat (hM : LawfulMap M) {t : LazySegtree S F} {a : List S} (hr : Rep M t a)
    {op : LOp S F} (hp : op.Pre a.length) :
    Sat (lStep M t op) (fun o => Rep M o.1 (op.next M a) ∧ op.OutOk a o.2) := by
  cases op with
  | set p x =>
    simp only [lStep, sat_bind, sat_ok]
    exact (set_sat hM hr hp).mono fun _ h => ⟨h, rfl⟩
  | get p =>
    simp only [lStep, sat_bind, sat_ok]
    exact (get_sat hM hr hp).mono fun _ h => ⟨h.1, _, List.getElem?_eq_getElem hp, by rw [h.2]⟩
  | prod l r =>
    simp only [lStep, sat_bind, sat_ok]
    exact (prod_sat hM hr hp.1 hp.2).mono fun _ h => ⟨h.1, by simp only [LOp.OutOk]; rw [h.2]⟩
  | allProd =>
    simp only [lStep, allProd_sat hM hr, ok_bind, sat_ok]
    exact ⟨hr, rfl⟩
  | apply p f =>
    simp only [lStep, sat_bind, sat_ok]
    refine (apply_sat hM hr hp).mono fun _ h => ⟨?_, rfl⟩
    rw [set_eq_mapRange hp] at h; exact h
  | applyRange l r f =>
    simp only [lStep, sat_bind, sat_ok]
    exact (applyRange_sat hM hr hp.1 hp.2).mono fun _ h => ⟨h, rfl⟩
  | maxRight l g =>
    simp only [lStep, sat_bind, sat_ok]
    exact (maxRight_sat hM hr hp.1 hp.2).mono fun _ h => ⟨h.1, _, rfl, h.2⟩
  | minLeft r g =>
    simp only [lStep, sat_bind, sat_ok]
    exact (minLeft_sat hM hr hp.1 hp.2).mono fun _ h => ⟨h.1, _, rfl, h.2⟩

theorem lRun_sat (hM : LawfulMap M) {ops : List (LOp S F)} {t : LazySegtree S F} {a : List S}
    (hr : Rep M t a) (hp : ∀ op ∈ ops, op.Pre a.length) :
    Sat (lRun M t ops) (fun o => Rep M o.1 (lContents M a ops) ∧ LRunOk M a ops o.2) := by
  induction ops generalizing t a with
  | nil => simp only [lRun, sat_ok]; exact ⟨hr, trivial⟩
  | cons op ops ih =>
    simp only [lRun, sat_bind, sat_ok]
    refine (lStep_sat hM hr (hp op (by simp))).mono ?_
    rintro ⟨t1, o⟩ ⟨h1, h2⟩
    refine (ih h1 (fun op' h' => by rw [next_length]; exact hp op' (List.mem_cons_of_mem _ h'))).mono ?_
    rintro ⟨t2, os⟩ ⟨h3, h4⟩
    exact ⟨h3, h2, h4⟩

/-- C07 (and C08): `from(a)` followed by any interleaving of calls within their preconditions
returns, and every result is the one of the plain list. -/
theorem C07_history (hM : LawfulMap M) (a : List S) (ha : a.length < 2 ^ 32) (ops : List (LOp S F))
    (hops : ∀ op ∈ ops, op.Pre a.length) :
    ∃ t0 t outs, LazySegtree.from M a = ok t0 ∧ lRun M t0 ops = ok (t, outs) ∧
      LRunOk M a ops outs := by
  obtain ⟨t0, e0, h0⟩ := from_sat hM ha
  obtain ⟨⟨t, outs⟩, e1, _, h1⟩ := lRun_sat hM h0 hops
  exact ⟨t0, t, outs, e0, e1, h1⟩

/-- C07: `new(n)` is `from` of `n` identity elements. -/
theorem C07_new (hM : LawfulMap M) (n : Nat) :
    LazySegtree.new M n = LazySegtree.from M.ops (List.replicate n 1) := by
  unfold LazySegtree.new; rw [MapOps.ops_e, hM.e_eq]

/-- `t` is reached from `from(a)` by the calls `ops`, all within their preconditions. -/
def LReached (M : MapOps S F) (a : List S) (ops : List (LOp S F)) (t : LazySegtree S F) : Prop :=
  a.length < 2 ^ 32 ∧ (∀ op ∈ ops, op.Pre a.length) ∧
    ∃ t0 outs, LazySegtree.from M a = ok t0 ∧ lRun M t0 ops = ok (t, outs)

theorem LReached.rep (hM : LawfulMap M) {a : List S} {ops : List (LOp S F)} {t : LazySegtree S F}
    (h : LReached M a ops t) : Rep M t (lContents M a ops) := by
  obtain ⟨ha, hops, t0, outs, e0, e1⟩ := h
  obtain ⟨t0', e0', h0⟩ := from_sat (M := M) hM ha
  rw [e0] at e0'; cases e0'
  obtain ⟨o, e1', h1, _⟩ := lRun_sat hM h0 hops
  rw [e1] at e1'; cases e1'
  exact h1

theorem lContents_length (a : List S) (ops : List (LOp S F)) :
    (lContents M a ops).length = a.length := by
  induction ops generalizing a with
  | nil => rfl
  | cons op ops ih => rw [lContents, ih, next_length]

/-- C07: in every reachable state, a call outside its precondition panics. -/
theorem C07_panics (hM : LawfulMap M) (a : List S) (ops : List (LOp S F)) (t : LazySegtree S F)
    (ht : LReached M a ops t) (op : LOp S F) (hp : ¬ op.Pre a.length) : lStep M t op = panic := by
  have hn := (ht.rep hM).n
  rw [lContents_length] at hn
  rw [← hn] at hp
  cases op with
  | set p x =>
    simp only [LOp.Pre] at hp
    simp only [lStep, LazySegtree.set]; rw [assert_false hp]; rfl
  | get p =>
    simp only [LOp.Pre] at hp
    simp only [lStep, LazySegtree.get]; rw [assert_false hp]; rfl
  | prod l r =>
    simp only [LOp.Pre] at hp
    simp only [lStep, LazySegtree.prod]; rw [assert_false hp]; rfl
  | allProd => exact absurd trivial hp
  | apply p f =>
    simp only [LOp.Pre] at hp
    simp only [lStep, LazySegtree.apply]; rw [assert_false hp]; rfl
  | applyRange l r f =>
    simp only [LOp.Pre] at hp
    simp only [lStep, LazySegtree.applyRange]; rw [assert_false hp]; rfl
  | maxRight l g =>
    simp only [LOp.Pre] at hp
    simp only [lStep, LazySegtree.maxRight, MapOps.ops_e, hM.e_eq]
    by_cases h : l ≤ t.n
    · rw [assert_true h, ok_bind, assert_false (fun h' => hp ⟨h, h'⟩)]; rfl
    · rw [assert_false h]; rfl
  | minLeft r g =>
    simp only [LOp.Pre] at hp
    simp only [lStep, LazySegtree.minLeft, MapOps.ops_e, hM.e_eq]
    by_cases h : r ≤ t.n
    · rw [assert_true h, ok_bind, assert_false (fun h' => hp ⟨h, h'⟩)]; rfl
    · rw [assert_false h]; rfl

/-- C08: `max_right` in every reachable state, for every predicate. -/
theorem C08_max_right (hM : LawfulMap M) (a : List S) (ops : List (LOp S F)) (t : LazySegtree S F)
    (ht : LReached M a ops t) (g : S → Bool) (hg : g 1 = true) (l : Nat) (hl : l ≤ a.length) :
    ∃ t' r, t.maxRight M l g = ok (t', r) ∧ l ≤ r ∧ r ≤ a.length ∧
      g (rangeProd (lContents M a ops) l r) = true ∧
      (r = a.length ∨ g (rangeProd (lContents M a ops) l (r + 1)) = false) := by
  obtain ⟨o, e, _, h⟩ := maxRight_sat hM (ht.rep hM) (l := l) (by rw [lContents_length]; exact hl) hg
  rw [lContents_length] at h
  exact ⟨o.1, o.2, e, h⟩

/-- C08: for a monotone predicate the result is the largest admissible `r`. -/
theorem C08_max_right_maximum (hM : LawfulMap M) (a : List S) (ops : List (LOp S F))
    (t : LazySegtree S F) (ht : LReached M a ops t) (g : S → Bool) (hg : g 1 = true) (l : Nat)
    (hl : l ≤ a.length)
    (hmono : ∀ i j, l ≤ i → i ≤ j → j ≤ a.length → g (rangeProd (lContents M a ops) l j) = true →
      g (rangeProd (lContents M a ops) l i) = true) :
    ∃ t' r, t.maxRight M l g = ok (t', r) ∧
      ∀ j, l ≤ j → j ≤ a.length → (g (rangeProd (lContents M a ops) l j) = true ↔ j ≤ r) := by
  obtain ⟨t', r, e, h1, h2, h3, h4⟩ := C08_max_right hM a ops t ht g hg l hl
  refine ⟨t', r, e, fun j hj1 hj2 => ⟨fun hj => ?_, fun hj => hmono j r hj1 hj h2 h3⟩⟩
  apply Nat.le_of_not_lt
  intro hlt
  rcases h4 with h4 | h4
  · omega
  · rw [hmono (r + 1) j (by omega) hlt hj2 hj] at h4; cases h4

/-- C08: `min_left` in every reachable state, for every predicate. -/
theorem C08_min_left (hM : LawfulMap M) (a : List S) (ops : List (LOp S F)) (t : LazySegtree S F)
    (ht : LReached M a ops t) (g : S → Bool) (hg : g 1 = true) (r : Nat) (hr : r ≤ a.length) :
    ∃ t' l, t.minLeft M r g = ok (t', l) ∧ l ≤ r ∧
      g (rangeProd (lContents M a ops) l r) = true ∧
      (l = 0 ∨ g (rangeProd (lContents M a ops) (l - 1) r) = false) := by
  obtain ⟨o, e, _, h⟩ := minLeft_sat hM (ht.rep hM) (r := r) (by rw [lContents_length]; exact hr) hg
  exact ⟨o.1, o.2, e, h⟩

/-- C08: for a monotone predicate the result is the smallest admissible `l`. -/
theorem C08_min_left_minimum (hM : LawfulMap M) (a : List S) (ops : List (LOp S F))
    (t : LazySegtree S F) (ht : LReached M a ops t) (g : S → Bool) (hg : g 1 = true) (r : Nat)
    (hr : r ≤ a.length)
    (hmono : ∀ i j, i ≤ j → j ≤ r → g (rangeProd (lContents M a ops) i r) = true →
      g (rangeProd (lContents M a ops) j r) = true) :
    ∃ t' l, t.minLeft M r g = ok (t', l) ∧
      ∀ j, j ≤ r → (g (rangeProd (lContents M a ops) j r) = true ↔ l ≤ j) := by
  obtain ⟨t', l, e, h1, h2, h3⟩ := C08_min_left hM a ops t ht g hg r hr
  refine ⟨t', l, e, fun j hj => ⟨fun hjt => ?_, fun hlj => hmono l j hlj hj h2⟩⟩
  apply Nat.le_of_not_lt
  intro hlt
  rcases h3 with h3 | h3
  · omega
  · rw [hmono j (l - 1) (by omega) (by omega) hjt] at h3; cases h3

/-- The call is a query (leaves the contents alone). -/
def LOp.IsQuery : LOp S F → Prop
  | .get _ | .prod _ _ | .allProd | .maxRight _ _ | .minLeft _ _ => True
  | _ => False

/-- Both calls return the same value. -/
theorem sim_val {α γ : Type} {x : Res (α × γ)} {y : Res γ} (h : Sim False False (fun o r => o.2 = r) x y) :
    (x >>= fun o => ok o.2) = y := by
  rcases h with h | h | ⟨h, h'⟩ | ⟨h, h'⟩ | ⟨o, _, h, h', rfl⟩
  · exact h.1.elim
  · exact h.1.elim
  all_goals rw [h, h']; rfl

/-- The monoid operation never panics. -/
theorem flat_lawful (hM : LawfulMap M) : LawfulOps (LazyP.flat M) (fun _ => True) :=
  ⟨hM.e_eq, fun a b _ => by show ok (M.op a b) = _; rw [hM.op_eq]⟩

/-- C08: whatever maps are pending, the searches return what they return on a (plain) segment tree made from the present
contents, for all arguments and predicates, panics included. So they are functions of the contents, also for predicates
that are not monotone, where several boundaries exist. -/
theorem C08_plain_tree (hM : LawfulMap M) (a : List S) (ops : List (LOp S F)) (t : LazySegtree S F)
    (ht : LReached M a ops t) :
    ∃ s, Segtree.from (⟨M.ops.e, M.ops.op⟩ : MonoidOps S) (lContents M a ops) = ok s ∧ ∀ (k : Nat) (g : S → Bool),
      (t.maxRight M k g >>= fun o => ok o.2) = s.maxRight ⟨M.ops.e, M.ops.op⟩ k g ∧
      (t.minLeft M k g >>= fun o => ok o.2) = s.minLeft ⟨M.ops.e, M.ops.op⟩ k g := by
  have hr := ht.rep hM
  obtain ⟨s, e, hs⟩ := SegP.from_sat (flat_lawful hM) (a := lContents M a ops) (fun _ _ => trivial)
    (by rw [lContents_length]; exact ht.1)
  exact ⟨s, e, fun k g => ⟨sim_val (LazyP.maxRight_same hM hr hs k g), sim_val (LazyP.minLeft_same hM hr hs k g)⟩⟩

theorem lStep_same (hM : LawfulMap M) {a : List S} (ha : a.length < 2 ^ 32) {t1 t2 : LazySegtree S F}
    (h1 : LazyP.Rep M t1 a) (h2 : LazyP.Rep M t2 a) {op : LOp S F} (hop : op.Pre a.length) :
    ∃ u1 u2 o, lStep M t1 op = ok (u1, o) ∧ lStep M t2 op = ok (u2, o) ∧ LazyP.Rep M u1 (op.next M a) ∧
      LazyP.Rep M u2 (op.next M a) := by
  obtain ⟨⟨u1, o1⟩, e1, r1, a1⟩ := lStep_sat hM h1 hop
  obtain ⟨⟨u2, o2⟩, e2, r2, a2⟩ := lStep_sat hM h2 hop
  simp only at r1 r2 a1 a2
  suffices h : o1 = o2 by subst h; exact ⟨u1, u2, o1, e1, e2, r1, r2⟩
  obtain ⟨s, _, hs⟩ := SegP.from_sat (flat_lawful hM) (a := a) (fun _ _ => trivial) ha
  have key : ∀ {x : LazySegtree S F → Res (LazySegtree S F × Nat)} {y : Res Nat},
      (∀ t, LazyP.Rep M t a → (x t >>= fun o => ok o.2) = y) →
      (x t1 >>= fun o => ok (o.1, LOut.num o.2)) = ok (u1, o1) →
      (x t2 >>= fun o => ok (o.1, LOut.num o.2)) = ok (u2, o2) → o1 = o2 := by
    intro x y hx f1 f2
    have y1 := hx t1 h1
    have y2 := hx t2 h2
    rw [← y1] at y2
    cases g1 : x t1 with
    | ok v1 =>
      cases g2 : x t2 with
      | ok v2 =>
        rw [g1, ok_bind] at f1 y2
        rw [g2, ok_bind] at f2 y2
        cases f1
        cases f2
        rw [Res.ok.inj y2]
      | panic => rw [g2] at f2; cases f2
      | diverge => rw [g2] at f2; cases f2
    | panic => rw [g1] at f1; cases f1
    | diverge => rw [g1] at f1; cases f1
  cases op with
  | maxRight l g => exact key (x := fun t => t.maxRight M l g) (fun t h => sim_val (LazyP.maxRight_same hM h hs l g)) e1 e2
  | minLeft r g => exact key (x := fun t => t.minLeft M r g) (fun t h => sim_val (LazyP.minLeft_same hM h hs r g)) e1 e2
  | get p =>
    obtain ⟨x, e3, rfl⟩ := a1
    obtain ⟨y, e4, rfl⟩ := a2
    rw [e3] at e4; cases e4; rfl
  | _ => simp only [LOp.OutOk] at a1 a2; rw [a1, a2]

theorem lRun_same (hM : LawfulMap M) {a : List S} (ha : a.length < 2 ^ 32) {t1 t2 : LazySegtree S F}
    (h1 : LazyP.Rep M t1 a) (h2 : LazyP.Rep M t2 a) {ops : List (LOp S F)} (hops : ∀ op ∈ ops, op.Pre a.length) :
    ∃ u1 u2 outs, lRun M t1 ops = ok (u1, outs) ∧ lRun M t2 ops = ok (u2, outs) := by
  induction ops generalizing a t1 t2 with
  | nil => exact ⟨t1, t2, [], rfl, rfl⟩
  | cons op ops ih =>
    obtain ⟨u1, u2, o, e1, e2, r1, r2⟩ := lStep_same hM ha h1 h2 (hops op (by simp))
    have hlen := next_length (M := M) op a
    obtain ⟨w1, w2, os, f1, f2⟩ := ih (by rw [hlen]; exact ha) r1 r2
      (fun op h => by rw [hlen]; exact hops op (by simp [h]))
    exact ⟨w1, w2, o :: os, by simp [lRun, e1, f1, ok_bind], by simp [lRun, e2, f2, ok_bind]⟩

/-- C08 (and C07): a query, in particular a search, changes no later answer: any later history gives
the same results with or without it, later searches with any predicates included. -/
theorem C08_queries_transparent (hM : LawfulMap M) (a : List S) (ops : List (LOp S F))
    (t : LazySegtree S F) (ht : LReached M a ops t) (q : LOp S F) (hq : LOp.IsQuery q)
    (hqp : q.Pre a.length) (later : List (LOp S F)) (hl : ∀ op ∈ later, op.Pre a.length) :
    ∃ t' o t1 t2 outs, lStep M t q = ok (t', o) ∧ lRun M t' later = ok (t1, outs) ∧
      lRun M t later = ok (t2, outs) := by
  have hr := ht.rep hM
  have hlen := lContents_length (M := M) a ops
  obtain ⟨⟨t', o⟩, e1, h1, _⟩ := lStep_sat hM hr (op := q) (by rw [hlen]; exact hqp)
  have hnext : q.next M (lContents M a ops) = lContents M a ops := by
    cases q <;> first | rfl | exact hq.elim
  rw [hnext] at h1
  obtain ⟨t1, t2, outs, e2, e3⟩ := lRun_same hM (by rw [hlen]; exact ht.1) h1 hr (ops := later)
    (fun op h => by rw [hlen]; exact hl op h)
  exact ⟨t', o, t1, t2, _, e1, e2, e3⟩

/-! Concrete case: sequences under concatenation (not commutative), maps add a constant to every
letter; range additions and reads are interleaved on five positions. -/

def shiftOps : MapOps (FreeMonoid Nat) Nat where
  e := 1
  op a b := a * b
  idMap := 0
  mapping f w := FreeMonoid.map (f + ·) w
  comp f g := f + g

theorem shiftOps_lawful : LawfulMap shiftOps where
  e_eq := rfl
  op_eq _ _ := rfl
  id_map x := by
    show FreeMonoid.map (fun y => 0 + y) x = x
    have : (fun y : Nat => 0 + y) = id := by funext y; simp
    rw [this, FreeMonoid.map_id]; rfl
  comp_map f g x := by
    show FreeMonoid.map (fun y => f + g + y) x = FreeMonoid.map (f + ·) (FreeMonoid.map (g + ·) x)
    rw [← MonoidHom.comp_apply, ← FreeMonoid.map_comp]
    congr 2
    funext y; simp [Nat.add_assoc]
  map_op f x y := map_mul _ _ _

def lOps : List (LOp (FreeMonoid Nat) Nat) :=
  [.applyRange 1 4 10, .maxRight 0 (fun w => w.toList.length < 3), .apply 2 5, .applyRange 0 5 100,
    .set 3 (FreeMonoid.of 7), .prod 1 5, .minLeft 5 (fun w => w.toList.length < 4), .get 2]

def lArr : List (FreeMonoid Nat) := [1, 2, 3, 4, 5].map FreeMonoid.of

example : ∀ op ∈ lOps, op.Pre lArr.length := by
  intro op h
  simp only [lOps, List.mem_cons, List.not_mem_nil, or_false] at h
  rcases h with rfl | rfl | rfl | rfl | rfl | rfl | rfl | rfl <;>
    simp [LOp.Pre, lArr, FreeMonoid.toList_one]

example : (do
    let t ← LazySegtree.from shiftOps lArr
    let (_, outs) ← lRun shiftOps t lOps
    ok (outs.map fun o => match o with
      | .unit => ([], 0)
      | .val x => (x.toList, 0)
      | .num k => ([], k)) : Res _) =
    ok [([], 0), ([], 2), ([], 0), ([], 0), ([], 0), ([112, 118, 7, 105], 0), ([], 2),
      ([118], 0)] := by decide +kernel

/-- A predicate with two boundaries (1 and 4): with maps pending, after a query, and in the plain tree of the contents the
same one is returned. -/
example :
    let g : FreeMonoid Nat → Bool := fun w => w.toList.length ≠ 2 && w.toList.length ≠ 5
    let nums : List (LOut (FreeMonoid Nat)) → List Nat := List.filterMap fun | .num k => some k | _ => none
    (do
      let t ← LazySegtree.from shiftOps lArr
      let (_, outs) ← lRun shiftOps t [.applyRange 0 5 3, .maxRight 0 g, .get 1, .maxRight 0 g]
      ok (nums outs) : Res _) = ok [4, 4] ∧
    (do
      let s ← Segtree.from ⟨shiftOps.ops.e, shiftOps.ops.op⟩ (lArr.map (FreeMonoid.map (3 + ·)))
      s.maxRight ⟨shiftOps.ops.e, shiftOps.ops.op⟩ 0 g : Res _) = ok 4 := by decide +kernel

end Verif.Props
