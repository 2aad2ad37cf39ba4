import Mathlib.Algebra.FreeMonoid.Basic
import Verif.Proof.HLD
import Verif.Proof.CostHLD
import Verif.Props.BinaryLifting
import Verif.Props.LazySegtree
/-! C23-C26, C53: heavy-light decomposition (`Verif/Spec/HLD.lean`). -/
namespace Verif.Props
open Res Model Spec TreeP HLDP

variable {S F : Type} [Monoid S] {M : MapOps S F} {g : List (List Nat)} {root : Nat}

/-- One call. -/
def hStep (M : MapMonoidOps S F) (h : HLD S F) : HldOp S F → Res (HLD S F × HldOut S)
  | .get u => do let (h, x) ← h.get M u; ok (h, .val x)
  | .set u x => do let h ← h.set M u x; ok (h, .unit)
  | .applyPath u v f => do let h ← h.applyPath M u v f; ok (h, .unit)
  | .pathProd u v => do let (h, x) ← h.pathProd M u v; ok (h, .val x)
  | .applySubtree u f => do let h ← h.applySubtree M u f; ok (h, .unit)
  | .subtreeProd u => do let (h, x) ← h.subtreeProd M u; ok (h, .val x)

/-- A history of calls, collecting the results. -/
def hRun (M : MapMonoidOps S F) (h : HLD S F) : List (HldOp S F) → Res (HLD S F × List (HldOut S))
  | [] => ok (h, [])
  | op :: ops => do
    let (h, o) ← hStep M h op
    let (h, os) ← hRun M h ops
    ok (h, o :: os)

theorem hStep_sat (hM : LawfulMap M) (T : IsTree g) (hr : root < g.length)
    (hgl : g.length < 2 ^ 32) {c : Forest} {h : HLD S F} {a : List S} (R : Rep M g root c h a)
    {op : HldOp S F} (hp : op.Pre g.length) :
    Sat (hStep M h op) (fun o => ∃ b, op.Next M g root a b ∧ Rep M g root c o.1 b ∧
      o.1.arr = h.arr ∧ op.OutOk g root (root :: c.pre) a o.2) := by
  cases op with
  | get u =>
    simp only [hStep, sat_bind, sat_ok]
    exact (get_sat hM R hp).mono fun _ k => ⟨a, rfl, k.1, k.2.1, _, k.2.2, rfl⟩
  | set u x =>
    simp only [hStep, sat_bind, sat_ok]
    exact (set_sat hM R hp x).mono fun _ k => ⟨_, rfl, k.1, k.2, rfl⟩
  | applyPath u v f =>
    obtain ⟨p, hpath⟩ := (T.path u v hp.1 hp.2).exists
    simp only [hStep, sat_bind, sat_ok]
    exact (applyPath_sat hM R T hr (by omega) hp.1 hp.2 f hpath).mono fun _ k =>
      ⟨_, ⟨p, hpath, rfl⟩, k.2, k.1, rfl⟩
  | pathProd u v =>
    obtain ⟨p, hpath⟩ := (T.path u v hp.1 hp.2).exists
    simp only [hStep, sat_bind, sat_ok]
    refine (pathProd_sat hM R T hr (by omega) hp.1 hp.2 hpath).mono ?_
    rintro ⟨h', x⟩ ⟨k1, k2, q, k3, k4, -⟩
    exact ⟨a, rfl, k2, k1, p, q, hpath, k3, by rw [k4]⟩
  | applySubtree u f =>
    simp only [hStep, sat_bind, sat_ok]
    refine (applySubtree_sat hM R T hr hp f).mono ?_
    rintro h' ⟨k1, s, k2, k3⟩
    exact ⟨_, ⟨s, k2, rfl⟩, k3, k1, rfl⟩
  | subtreeProd u =>
    simp only [hStep, sat_bind, sat_ok]
    refine (subtreeProd_sat hM R T hr hp).mono ?_
    rintro ⟨h', x⟩ ⟨k1, k2, s, k3, k4, k5⟩
    exact ⟨a, rfl, k2, k1, s, k3, k4, by rw [k5]⟩

theorem hRun_sat (hM : LawfulMap M) (T : IsTree g) (hr : root < g.length)
    (hgl : g.length < 2 ^ 32) {c : Forest} {ops : List (HldOp S F)} {h : HLD S F} {a : List S}
    (R : Rep M g root c h a) (hp : ∀ op ∈ ops, op.Pre g.length) :
    Sat (hRun M h ops) (fun o => HldRunOk M g root (root :: c.pre) a ops o.2 ∧ o.1.arr = h.arr ∧
      ∃ b, Rep M g root c o.1 b) := by
  induction ops generalizing h a with
  | nil => simp only [hRun, sat_ok]; exact ⟨trivial, trivial, a, R⟩
  | cons op ops ih =>
    simp only [hRun, sat_bind, sat_ok]
    refine (hStep_sat hM T hr hgl R (hp op (by simp))).mono ?_
    rintro ⟨h1, o⟩ ⟨b, k1, k2, k3, k4⟩
    refine (ih k2 fun op' h' => hp op' (List.mem_cons_of_mem _ h')).mono ?_
    rintro ⟨h2, os⟩ ⟨k5, k6, k7⟩
    exact ⟨⟨k4, b, k1, k5⟩, k6.trans k3, k7⟩

/-- C23: for every tree and root, `new` returns, and `pos` is a permutation of `0..n`. -/
theorem C23_new (hM : LawfulMap M) (T : IsTree g) (hr : root < g.length)
    (hgl : g.length < 2 ^ 32) :
    ∃ h, HLD.new M.ops g root = ok h ∧ h.arr.pos.Perm (List.range g.length) := by
  obtain ⟨h, e, c, R⟩ := new_sat hM T hr hgl
  refine ⟨h, e, ?_⟩
  have hl := R.arr.wf.pos
  rw [List.perm_ext_iff_of_nodup ?_ List.nodup_range]
  · intro x
    rw [List.mem_range]
    constructor
    · intro hx
      obtain ⟨i, hi, e⟩ := List.mem_iff_getElem.1 hx
      have := R.arr.pos_lt (x := i) (by omega)
      rw [P, List.getD_eq_getElem?_getD, List.getElem?_eq_getElem hi] at this
      simp only [Option.getD_some, e] at this
      exact this
    · intro hx
      have hx2 : x < (root :: c.pre).length := by rw [R.arr.length]; exact hx
      have h1 := R.arr.ord_get (List.getElem?_eq_getElem hx2)
      have h2 := R.arr.posSome (R.arr.mem.1 (List.getElem_mem hx2))
      rw [h1] at h2
      exact List.mem_of_getElem? h2
  · rw [List.nodup_iff_injective_getElem]
    rintro ⟨i, hi⟩ ⟨j, hj⟩ e
    have h1 := R.arr.pos_inj (x := i) (y := j) (by omega) (by omega) (by
      rw [P, P, List.getD_eq_getElem?_getD, List.getD_eq_getElem?_getD,
        List.getElem?_eq_getElem hi, List.getElem?_eq_getElem hj]
      exact congrArg (fun x => (some x).getD 0) e)
    exact Fin.ext h1

/-- C23 (with C24, C25): after `with_init_value(g, root, v)`, every history of calls returns, and
each result is the one computed from the node values; `ord` lists the nodes by their (unchanging)
positions. -/
theorem C23_history (hM : LawfulMap M) (T : IsTree g) (hr : root < g.length)
    (hgl : g.length < 2 ^ 32) (v : List S) (hv : v.length = g.length) (ops : List (HldOp S F))
    (hops : ∀ op ∈ ops, op.Pre g.length) :
    ∃ h0 h outs ord, HLD.withInitValue M g root v = ok h0 ∧ hRun M h0 ops = ok (h, outs) ∧
      (∀ x, x < g.length → ∃ p, h0.arr.pos[x]? = some p ∧ ord[p]? = some x) ∧
      ord.Perm (List.range g.length) ∧ h.arr.pos = h0.arr.pos ∧ HldRunOk M g root ord v ops outs := by
  obtain ⟨h0, e0, c, R⟩ := withInitValue_sat hM T hr hgl hv
  obtain ⟨⟨h, outs⟩, e1, k1, k2, -⟩ := hRun_sat hM T hr hgl R hops
  exact ⟨h0, h, outs, root :: c.pre, e0, e1,
    fun x hx => ⟨_, R.arr.posSome hx, R.arr.ord_pos hx⟩, R.arr.perm, by
      show h.arr.pos = _
      rw [show h.arr = h0.arr from k2], k1⟩

/-- C23: the same for `new`, which starts from identity elements. -/
theorem C23_new_history (hM : LawfulMap M) (T : IsTree g) (hr : root < g.length)
    (hgl : g.length < 2 ^ 32) (ops : List (HldOp S F)) (hops : ∀ op ∈ ops, op.Pre g.length) :
    ∃ h0 h outs ord, HLD.new M g root = ok h0 ∧ hRun M h0 ops = ok (h, outs) ∧
      (∀ x, x < g.length → ∃ p, h0.arr.pos[x]? = some p ∧ ord[p]? = some x) ∧
      ord.Perm (List.range g.length) ∧
      HldRunOk M g root ord (List.replicate g.length 1) ops outs := by
  obtain ⟨h0, e0, c, R⟩ := new_sat hM T hr hgl
  obtain ⟨⟨h, outs⟩, e1, k1, k2, -⟩ := hRun_sat hM T hr hgl R hops
  exact ⟨h0, h, outs, root :: c.pre, e0, e1,
    fun x hx => ⟨_, R.arr.posSome hx, R.arr.ord_pos hx⟩, R.arr.perm, k1⟩

/-- `h` was built by `with_init_value` and went through some history. -/
def HReached (M : MapOps S F) (g : List (List Nat)) (root : Nat) (h : HLD S F) : Prop :=
  ∃ v h0 ops outs, v.length = g.length ∧ (∀ op ∈ ops, op.Pre g.length) ∧
    HLD.withInitValue M g root v = ok h0 ∧ hRun M h0 ops = ok (h, outs)

theorem HReached.rep (hM : LawfulMap M) (T : IsTree g) (hr : root < g.length)
    (hgl : g.length < 2 ^ 32) {h : HLD S F} (hh : HReached M g root h) :
    ∃ c a, Rep M g root c h a := by
  obtain ⟨v, h0, ops, outs, hv, hops, e0, e1⟩ := hh
  obtain ⟨h0', e0', c, R⟩ := withInitValue_sat hM T hr hgl hv
  rw [e0] at e0'; cases e0'
  obtain ⟨o, e1', k1, k2, b, k3⟩ := hRun_sat hM T hr hgl R hops
  rw [e1] at e1'; cases e1'
  exact ⟨c, b, k3⟩

/-- Node values as read by `get`. -/
def Reads (M : MapOps S F) (g : List (List Nat)) (h : HLD S F) (a : List S) : Prop :=
  a.length = g.length ∧ ∀ x, x < g.length → ∃ h' y, h.get M x = ok (h', y) ∧ a[x]? = some y

theorem _root_.Verif.HLDP.Rep.reads (hM : LawfulMap M) {c : Forest} {h : HLD S F} {a : List S}
    (R : Rep M g root c h a) : Reads M g h a := by
  refine ⟨R.len, fun x hx => ?_⟩
  obtain ⟨o, e, k⟩ := get_sat hM R hx
  exact ⟨o.1, o.2, e, k.2.2⟩

theorem Reads.unique {h : HLD S F} {a b : List S} (h1 : Reads M g h a) (h2 : Reads M g h b) :
    a = b := by
  apply List.ext_getElem?
  intro i
  by_cases hi : i < g.length
  · obtain ⟨h', y, e, k⟩ := h1.2 i hi
    obtain ⟨h'', z, e', k'⟩ := h2.2 i hi
    rw [e] at e'; cases e'
    rw [k, k']
  · rw [List.getElem?_eq_none (by rw [h1.1]; omega), List.getElem?_eq_none (by rw [h2.1]; omega)]

/-- C24: `apply_subtree(u, f)` in any reachable state maps exactly the values of the descendants
of `u`, as seen by `get`. -/
theorem C24_apply_subtree (hM : LawfulMap M) (T : IsTree g) (hr : root < g.length)
    (hgl : g.length < 2 ^ 32) (h : HLD S F) (hh : HReached M g root h) (a : List S)
    (ha : Reads M g h a) (u : Nat) (hu : u < g.length) (f : F) :
    ∃ h' a', h.applySubtree M u f = ok h' ∧ Reads M g h' a' ∧ ∀ x, x < g.length →
      (Ancestor g root u x → a'[x]? = a[x]?.map (M.mapping f)) ∧
      (¬ Ancestor g root u x → a'[x]? = a[x]?) := by
  obtain ⟨c, b, R⟩ := hh.rep hM T hr hgl
  obtain rfl := (R.reads hM).unique ha
  obtain ⟨h', e, -, s, k1, k2⟩ := applySubtree_sat hM R T hr hu f
  refine ⟨h', _, e, k2.reads hM, fun x hx => ⟨fun hx => ?_, fun hx => ?_⟩⟩ <;>
    simp [mapNodes, List.getElem?_mapIdx, k1, hx]

/-- C24: `subtree_prod(u)` is the product over exactly the descendants of `u`, in position order. -/
theorem C24_subtree_prod (hM : LawfulMap M) (T : IsTree g) (hr : root < g.length)
    (hgl : g.length < 2 ^ 32) (h : HLD S F) (hh : HReached M g root h) (a : List S)
    (ha : Reads M g h a) (u : Nat) (hu : u < g.length) :
    ∃ h' x q, h.subtreeProd M u = ok (h', x) ∧ Reads M g h' a ∧ x = nodeProd a q ∧
      (∀ y, y ∈ q ↔ Ancestor g root u y) ∧
      q.Pairwise fun y z => h.arr.pos.getD y 0 < h.arr.pos.getD z 0 := by
  obtain ⟨c, b, R⟩ := hh.rep hM T hr hgl
  obtain rfl := (R.reads hM).unique ha
  obtain ⟨⟨h', x⟩, e, -, k1, s, k2, k3, k4⟩ := subtreeProd_sat hM R T hr hu
  refine ⟨h', x, s, e, k1.reads hM, k4, k3, List.Pairwise.sublist k2.sublist ?_⟩
  rw [List.pairwise_iff_getElem]
  intro i j hi hj hij
  have h1 := R.arr.ord_get (List.getElem?_eq_getElem hi)
  have h2 := R.arr.ord_get (List.getElem?_eq_getElem hj)
  rw [P] at h1 h2
  rw [h1, h2]; exact hij

/-- C25: `apply_path(u, v, f)` in any reachable state maps exactly the values of the nodes on the
path, each once, as seen by `get`. -/
theorem C25_apply_path (hM : LawfulMap M) (T : IsTree g) (hr : root < g.length)
    (hgl : g.length < 2 ^ 32) (h : HLD S F) (hh : HReached M g root h) (a : List S)
    (ha : Reads M g h a) (u v : Nat) (hu : u < g.length) (hv : v < g.length) (f : F)
    (p : List Nat) (hp : IsPath g u v p) :
    ∃ h' a', h.applyPath M u v f = ok h' ∧ Reads M g h' a' ∧ ∀ x, x < g.length →
      a'[x]? = if x ∈ p then a[x]?.map (M.mapping f) else a[x]? := by
  obtain ⟨c, b, R⟩ := hh.rep hM T hr hgl
  obtain rfl := (R.reads hM).unique ha
  obtain ⟨h', e, -, k⟩ := applyPath_sat hM R T hr (by omega) hu hv f hp
  refine ⟨h', _, e, k.reads hM, fun x hx => ?_⟩
  by_cases hxp : x ∈ p <;> simp [mapNodes, List.getElem?_mapIdx, hxp]

/-- C25: in any reachable state and for any monoid, `path_prod(u, v)` is the product of the values
of exactly the nodes on the path, each once, in some order. -/
theorem C25_path_prod_perm (hM : LawfulMap M) (T : IsTree g) (hr : root < g.length)
    (hgl : g.length < 2 ^ 32) (h : HLD S F) (hh : HReached M g root h) (a : List S)
    (ha : Reads M g h a) (u v : Nat) (hu : u < g.length) (hv : v < g.length)
    (p : List Nat) (hp : IsPath g u v p) :
    ∃ h' x q, h.pathProd M u v = ok (h', x) ∧ Reads M g h' a ∧ q.Perm p ∧ x = nodeProd a q := by
  obtain ⟨c, b, R⟩ := hh.rep hM T hr hgl
  obtain rfl := (R.reads hM).unique ha
  obtain ⟨⟨h', x⟩, e, -, k, q, k1, k2, -, -⟩ := pathProd_sat hM R T hr (by omega) hu hv hp
  exact ⟨h', x, q, e, k.reads hM, k1, k2⟩

/-- C25: for a commutative operation `path_prod(u, v)` is the product over the path. -/
theorem C25_path_prod {S : Type} [CommMonoid S] {M : MapOps S F} (hM : LawfulMap M) (T : IsTree g)
    (hr : root < g.length)
    (hgl : g.length < 2 ^ 32) (h : HLD S F) (hh : HReached M g root h) (a : List S)
    (ha : Reads M g h a) (u v : Nat) (hu : u < g.length) (hv : v < g.length)
    (p : List Nat) (hp : IsPath g u v p) :
    ∃ h', h.pathProd M u v = ok (h', nodeProd a p) ∧ Reads M g h' a := by
  obtain ⟨h', x, q, e, k1, k2, k3⟩ := C25_path_prod_perm hM T hr hgl h hh a ha u v hu hv p hp
  refine ⟨h', ?_, k1⟩
  rw [e, k3]
  congr 2
  exact (k2.map _).prod_eq

/-- C26 (partial: only when `v` is in the chain of `u`, at or below it; in general the order of the
factors is not the path order, see `C26_not_path_order`): `path_prod(u, v)` multiplies in path
order. -/
theorem C26_same_chain_partial (hM : LawfulMap M) (T : IsTree g) (hr : root < g.length)
    (hgl : g.length < 2 ^ 32) (h : HLD S F) (hh : HReached M g root h) (a : List S)
    (ha : Reads M g h a) (u v : Nat) (hu : u < g.length) (hv : v < g.length)
    (p : List Nat) (hp : IsPath g u v p) (hc : h.arr.head[u]? = h.arr.head[v]?)
    (hle : h.arr.pos.getD u 0 ≤ h.arr.pos.getD v 0) :
    ∃ h', h.pathProd M u v = ok (h', nodeProd a p) := by
  obtain ⟨c, b, R⟩ := hh.rep hM T hr hgl
  obtain rfl := (R.reads hM).unique ha
  obtain ⟨⟨h', x⟩, e, -, k, q, k1, k2, k3, -⟩ := pathProd_sat hM R T hr (by omega) hu hv hp
  have : q = p := k3 (by
    rw [R.arr.headSome hu, R.arr.headSome hv] at hc; exact Option.some.inj hc) hle
  subst this
  exact ⟨h', by rw [e]; congr 2⟩

/-- Along the path `p` every edge climbed is light (its lower end is the top of its chain) and every edge
descended is heavy (its lower end is not). -/
def LightUpHeavyDown (g : List (List Nat)) (root : Nat) (t : HArr) (p : List Nat) : Prop :=
  p.IsChain fun x y => (Ancestor g root y x → t.head[x]? = some x) ∧
    (Ancestor g root x y → t.head[y]? ≠ some y)

theorem lightUp_iff (T : IsTree g) {t : HArr} {c : Forest} (H : HOk g root t c) {u v : Nat} (hu : u < g.length)
    {p : List Nat} (hp : IsPath g u v p) :
    LightUpHeavyDown g root t p ↔ p.IsChain (InOrder g root t) := by
  have hl := hp.lt T hu
  unfold LightUpHeavyDown
  rw [List.isChain_iff_getElem, List.isChain_iff_getElem]
  have h1 : ∀ x, x < g.length → (t.head[x]? = some x ↔ Hd t x = x) := by
    intro x hx
    rw [H.headSome hx, Option.some.injEq]
  constructor
  · intro h i hi
    have := h i hi
    rw [h1 _ (hl _ (List.getElem_mem _)), Ne, h1 _ (hl _ (List.getElem_mem _))] at this
    exact this
  · intro h i hi
    have := h i hi
    rw [h1 _ (hl _ (List.getElem_mem _)), Ne, h1 _ (hl _ (List.getElem_mem _))]
    exact this

/-- C26 (where it holds): if every edge climbed on the path from `u` to `v` is light and every edge descended
is heavy, then `path_prod(u, v)` multiplies in path order, for any monoid and in any reachable state.
Missing from C26: all other pairs of nodes, for which it is false (`C26_exact`). -/
theorem C26_in_order_partial (hM : LawfulMap M) (T : IsTree g) (hr : root < g.length)
    (hgl : g.length < 2 ^ 32) (h : HLD S F) (hh : HReached M g root h) (a : List S)
    (ha : Reads M g h a) (u v : Nat) (hu : u < g.length) (hv : v < g.length)
    (p : List Nat) (hp : IsPath g u v p) (hc : LightUpHeavyDown g root h.arr p) :
    ∃ h', h.pathProd M u v = ok (h', nodeProd a p) := by
  obtain ⟨c, b, R⟩ := hh.rep hM T hr hgl
  obtain rfl := (R.reads hM).unique ha
  obtain ⟨⟨h', x⟩, e, -, k, q, k1, k2, -, k3⟩ := pathProd_sat hM R T hr (by omega) hu hv hp
  obtain rfl := k3.2 ((lightUp_iff T R.arr hu hp).1 hc)
  exact ⟨h', by rw [e]; congr 2⟩

theorem nodeProd_words {α : Type} {L : List α} {q : List Nat} (hq : ∀ x ∈ q, x < L.length) :
    (nodeProd (L.map FreeMonoid.of) q).toList.map some = q.map (L[·]?) := by
  induction q with
  | nil => rfl
  | cons x q ih =>
    have hx := hq x (List.mem_cons_self ..)
    have e : nodeProd (L.map FreeMonoid.of) (x :: q) =
        FreeMonoid.of L[x] * nodeProd (L.map FreeMonoid.of) q := by
      simp [nodeProd, List.getD_eq_getElem?_getD, hx]
    rw [e, FreeMonoid.toList_mul, List.map_append, ih fun y hy => hq y (List.mem_cons_of_mem _ hy)]
    simp [hx]

theorem nodeProd_words_inj {α : Type} {L : List α} (hL : L.Nodup) {p q : List Nat} (hp : ∀ x ∈ p, x < L.length)
    (hq : ∀ x ∈ q, x < L.length) (h : nodeProd (L.map FreeMonoid.of) q = nodeProd (L.map FreeMonoid.of) p) :
    q = p := by
  have h1 := nodeProd_words hp
  rw [← h, nodeProd_words hq] at h1
  have : ∀ (p q : List Nat), (∀ x ∈ p, x < L.length) → (∀ x ∈ q, x < L.length) →
      q.map (L[·]?) = p.map (L[·]?) → q = p := by
    intro p
    induction p with
    | nil => intro q _ _ h; simpa using h
    | cons x p ih =>
      intro q hp hq h
      cases q with
      | nil => simp at h
      | cons y q =>
        simp only [List.map_cons, List.cons.injEq] at h
        have hx := hp x (List.mem_cons_self ..)
        have hy := hq y (List.mem_cons_self ..)
        have e : y = x := by
          have h2 := h.1
          rw [List.getElem?_eq_getElem hx, List.getElem?_eq_getElem hy, Option.some.injEq] at h2
          exact (List.Nodup.getElem_inj_iff hL).1 h2
        rw [e, ih q (fun z hz => hp z (List.mem_cons_of_mem _ hz)) (fun z hz => hq z (List.mem_cons_of_mem _ hz)) h.2]
  exact this p q hp hq h1

/-- C26 (exactly where it holds): with different letters as node values and concatenation as the operation,
`path_prod(u, v)` is the word read along the path if and only if every edge climbed is light and every edge
descended is heavy. -/
theorem C26_exact {α F : Type} {M : MapOps (FreeMonoid α) F} (hM : LawfulMap M) (T : IsTree g)
    (hr : root < g.length) (hgl : g.length < 2 ^ 32) (h : HLD (FreeMonoid α) F) (hh : HReached M g root h)
    (L : List α) (hL : L.Nodup) (ha : Reads M g h (L.map FreeMonoid.of)) (u v : Nat) (hu : u < g.length)
    (hv : v < g.length) (p : List Nat) (hp : IsPath g u v p) :
    ∃ h' x, h.pathProd M u v = ok (h', x) ∧
      (x = nodeProd (L.map FreeMonoid.of) p ↔ LightUpHeavyDown g root h.arr p) := by
  obtain ⟨c, b, R⟩ := hh.rep hM T hr hgl
  obtain rfl := (R.reads hM).unique ha
  obtain ⟨⟨h', x⟩, e, -, k, q, k1, k2, -, k3⟩ := pathProd_sat hM R T hr (by omega) hu hv hp
  refine ⟨h', x, e, ?_⟩
  rw [lightUp_iff T R.arr hu hp, ← k3]
  have hpl : ∀ y ∈ p, y < L.length := by
    intro y hy
    have h1 := hp.lt T hu y hy
    have h2 := R.len
    rw [List.length_map] at h2
    omega
  constructor
  · intro hx
    exact nodeProd_words_inj hL hpl (fun y hy => hpl y (k1.mem_iff.1 hy)) (k2.symm.trans hx)
  · rintro rfl; exact k2

/-- Two adjacent nodes. -/
def edgeTree : List (List Nat) := [[1], [0]]

/-- C26 is false of the code: on the tree `0 - 1` rooted at `0` with the words `"1"`, `"2"` as
values under concatenation, `path_prod(1, 0)` is `"12"`; the path order gives `"21"`. -/
theorem C26_not_path_order :
    IsTree edgeTree ∧ LawfulMap shiftOps ∧ IsPath edgeTree 1 0 [1, 0] ∧
    (do
      let h ← HLD.withInitValue shiftOps.ops edgeTree 0 [FreeMonoid.of 1, FreeMonoid.of 2]
      let (_, x) ← h.pathProd shiftOps 1 0
      ok x.toList : Res _) = ok [1, 2] ∧
    (nodeProd [FreeMonoid.of 1, FreeMonoid.of 2] [1, 0]).toList = [2, 1] :=
  ⟨isTree_of_check (by decide +kernel), shiftOps_lawful,
    ⟨rfl, rfl, by decide, by decide⟩, by decide +kernel, by decide +kernel⟩

/-- C26 fails even from an ancestor down to a descendant: on the tree with edges `0-1, 0-2, 2-3`
rooted at `0`, `path_prod(0, 1)` multiplies the lower chain first. -/
theorem C26_not_path_order_down :
    IsTree [[1, 2], [0], [0, 3], [2]] ∧ IsPath [[1, 2], [0], [0, 3], [2]] 0 1 [0, 1] ∧
    (do
      let h ← HLD.withInitValue shiftOps.ops [[1, 2], [0], [0, 3], [2]] 0
        ([1, 2, 3, 4].map FreeMonoid.of)
      let (_, x) ← h.pathProd shiftOps 0 1
      ok x.toList : Res _) = ok [2, 1] :=
  ⟨isTree_of_check (by decide +kernel), ⟨rfl, rfl, by decide, by decide⟩, by decide +kernel⟩

/-- C53: along every root path at most `log2 n` nodes other than the root start a new chain. -/
theorem C53_light_edges (hM : LawfulMap M) (T : IsTree g) (hr : root < g.length)
    (hgl : g.length < 2 ^ 32) (x : Nat) (p : List Nat) (hp : IsPath g root x p) :
    ∃ h, HLD.new M.ops g root = ok h ∧
      2 ^ (p.countP (fun y => decide (h.arr.head[y]? = some y)) - 1) ≤ g.length := by
  obtain ⟨h, e, c, R⟩ := new_sat hM T hr hgl
  have hx : x < g.length := hp.lt T hr x (List.mem_of_getLast? hp.last)
  have := R.arr.log T hr hx
  rw [rpath_eq T hr hp] at this
  exact ⟨h, e, this⟩

/-- C53: in any reachable state both path operations leave their loop after as many rounds as there are
changes of chain on the path: one less than the number of different chains on it. That is at most
`2 * log2 n`, so they make at most `2 * log2 n + 1` segment tree calls. (`applyPathCost` and
`pathProdCost` are the operations with a count; forgetting it gives the operations themselves.) -/
theorem C53_path_rounds (hM : LawfulMap M) (T : IsTree g) (hr : root < g.length)
    (hgl : g.length < 2 ^ 32) (h : HLD S F) (hh : HReached M g root h) (u v : Nat) (p : List Nat)
    (hu : u < g.length) (hp : IsPath g u v p) (f : F) :
    (h.applyPathCost M u v f >>= fun r => ok r.1) = h.applyPath M u v f ∧
    (h.pathProdCost M u v >>= fun r => ok r.1) = h.pathProd M u v ∧
    ∃ h' o k, h.applyPathCost M u v f = ok (h', k) ∧ h.pathProdCost M u v = ok (o, k) ∧
      k + 1 = (p.map fun y => h.arr.head[y]?).toFinset.card ∧ k ≤ 2 * Nat.log2 g.length := by
  obtain ⟨c, b, R⟩ := hh.rep hM T hr hgl
  have hv : v < g.length := hp.lt T hu v (List.mem_of_getLast? hp.last)
  have e1 := applyPathCost_fst M h u v f
  have e2 := pathProdCost_fst M h u v
  obtain ⟨h', k1, -⟩ := applyPath_sat hM R T hr (by omega) hu hv f hp
  obtain ⟨o, k2, -⟩ := pathProd_sat hM R T hr (by omega) hu hv hp
  obtain ⟨⟨a, k⟩, j1, -⟩ := bind_eq_ok.1 (e1.trans k1)
  obtain ⟨⟨a', k'⟩, j2, -⟩ := bind_eq_ok.1 (e2.trans k2)
  have n1 := applyPathCost_eq T hr (by omega) R.arr hu hv j1 hp
  have n2 := pathProdCost_eq T hr (by omega) R.arr hu hv j2 hp
  have : k = k' := by omega
  subst this
  exact ⟨e1, e2, a, a', k, j1, j2, n1, applyPathCost_le T hr (by omega) R.arr hu hv j1⟩

-- from 1 to 3 in the tree 1 - 0 - 2 - 3: two chains (0-2-3 and 1), one round
example : IsPath [[1, 2], [0], [0, 3], [2]] 1 3 [1, 0, 2, 3] ∧
    (do
      let h ← HLD.withInitValue shiftOps.ops [[1, 2], [0], [0, 3], [2]] 0
        ([1, 2, 3, 4].map FreeMonoid.of)
      let (_, k) ← h.pathProdCost shiftOps 1 3
      ok (h.arr.head, k) : Res _) = ok ([0, 1, 0, 0], 1) :=
  ⟨⟨rfl, rfl, by decide, by decide⟩, by decide +kernel⟩

/-- `new` panics when the root is not a node. -/
theorem C23_new_panics (g : List (List Nat)) (root : Nat) (hr : ¬ root < g.length) :
    HLD.new M.ops g root = Res.panic := by
  unfold HLD.new; simp only []; rw [assert_false hr]; rfl

/-- `with_init_value` panics when the number of values differs from the number of nodes. -/
theorem C23_init_panics (g : List (List Nat)) (root : Nat) (v : List S)
    (h : g.length ≠ v.length) : HLD.withInitValue M.ops g root v = Res.panic := by
  unfold HLD.withInitValue; rw [assert_false h]; rfl

/-! Concrete case: six nodes, words as values. -/

def hldVals : List (FreeMonoid Nat) := [1, 2, 3, 4, 5, 6].map FreeMonoid.of

def hldOps : List (HldOp (FreeMonoid Nat) Nat) :=
  [.applyPath 2 5 10, .subtreeProd 3, .applySubtree 0 100, .set 4 (FreeMonoid.of 7),
    .pathProd 4 2, .get 5]

example : IsTree treeExample ∧ LawfulMap shiftOps ∧ hldVals.length = treeExample.length ∧
    ∀ op ∈ hldOps, op.Pre treeExample.length := by
  refine ⟨treeExample_isTree, shiftOps_lawful, rfl, ?_⟩
  intro op h
  simp only [hldOps, List.mem_cons, List.not_mem_nil, or_false] at h
  rcases h with rfl | rfl | rfl | rfl | rfl | rfl <;> simp [HldOp.Pre, treeExample]

example : (do
    let h ← HLD.withInitValue shiftOps.ops treeExample 1 hldVals
    let (_, outs) ← hRun shiftOps h hldOps
    ok (outs.map fun o => match o with
      | .unit => []
      | .val x => x.toList) : Res _) =
    ok [[], [14, 5, 16], [], [], [111, 113, 12, 14, 7], [16]] := by decide +kernel

example : ∃ h, HLD.withInitValue shiftOps.ops treeExample 1 hldVals = ok h ∧
    HReached shiftOps treeExample 1 h ∧ Reads shiftOps treeExample h hldVals := by
  obtain ⟨h, e, c, R⟩ := withInitValue_sat (v := hldVals) shiftOps_lawful treeExample_isTree
    (root := 1) (by decide) (by decide) rfl
  exact ⟨h, e, ⟨hldVals, h, [], [], rfl, by simp, e, rfl⟩, R.reads shiftOps_lawful⟩

-- one round between the leaves 4 and 2
example : (do
    let h ← HLD.withInitValue shiftOps.ops treeExample 1 hldVals
    let (_, k) ← h.pathProdCost shiftOps 4 2
    let (_, k') ← h.applyPathCost shiftOps 4 2 1
    ok (k, k') : Res _) = ok (1, 1) := by decide +kernel

example : IsPath treeExample 4 2 [4, 3, 1, 0, 2] ∧ IsPath treeExample 1 5 [1, 3, 5] :=
  ⟨⟨rfl, rfl, by decide, by decide⟩, ⟨rfl, rfl, by decide, by decide⟩⟩

/-- A path that climbs a light edge and descends heavy ones, and the way back. -/
example : IsTree [[1, 3], [0, 2], [1], [0]] ∧ IsPath [[1, 3], [0, 2], [1], [0]] 3 2 [3, 0, 1, 2] ∧
    (do
      let h ← HLD.withInitValue shiftOps.ops [[1, 3], [0, 2], [1], [0]] 0 ([1, 2, 3, 4].map FreeMonoid.of)
      let (h, x) ← h.pathProd shiftOps 3 2
      let (h, y) ← h.pathProd shiftOps 2 3
      ok (h.arr.head, x.toList, y.toList) : Res _) = ok ([0, 0, 0, 3], [4, 1, 2, 3], [4, 1, 2, 3]) :=
  ⟨isTree_of_check (by decide +kernel), ⟨rfl, rfl, by decide, by decide⟩, by decide +kernel⟩

end Verif.Props
