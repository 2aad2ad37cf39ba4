import Verif.Proof.HLDAny
import Verif.Props.HLD
import Verif.Props.TreeAny
/-! C80: heavy-light decomposition on graphs that need not be trees (`Verif/Spec/TreeAny.lean`). -/
namespace Verif.Props
open Res Model Spec TreeP BLP HLDP

variable {S F : Type} [Monoid S] {M : MapOps S F} {g : List (List Nat)} {root : Nat}

theorem hStep_comp (hM : LawfulMap M) (G : IsSimpleGraph g) (hr : root < g.length) (hno : ¬ HasCycleAt g root)
    (hgl : g.length < 2 ^ 32) {t t' : HArr} {c : Forest} {k : Nat} {a : List S} {d : LazySegtree S F}
    (C : Comp g root t t' c k) (R : Rep M (gplus g root) root c ⟨d, t'⟩ a)
    {op : HldOp S F} (hp : op.On (Connected g root)) :
    Sat (hStep M ⟨d, t⟩ op) (fun o => o.1.arr = t ∧ ∃ b, op.Next M g root a b ∧
      Rep M (gplus g root) root c ⟨o.1.data, t'⟩ b ∧ op.OutOk g root (root :: c.pre) a o.2) := by
  have T := gplus_tree G hr hno
  have hl : (gplus g root).length = g.length := gplus_length
  have hroot : root < (gplus g root).length := by omega
  have hlt : ∀ {x}, Connected g root x → x < (gplus g root).length := fun hx => by
    rw [hl]; exact conn_lt G.inRange hr hx
  cases op with
  | get u =>
    simp only [hStep]
    rw [get_agree C.agree hp]
    simp only [sat_bind, sat_ok]
    refine (get_sat hM R (hlt hp)).mono ?_
    rintro ⟨⟨d', _⟩, x⟩ ⟨k1, rfl, k2⟩
    exact ⟨trivial, a, rfl, k1, x, k2, rfl⟩
  | set u x =>
    simp only [hStep]
    rw [set_agree C.agree hp]
    simp only [sat_bind, sat_ok]
    refine (set_sat hM R (hlt hp) x).mono ?_
    rintro ⟨d', _⟩ ⟨k1, rfl⟩
    exact ⟨trivial, _, rfl, k1, rfl⟩
  | applyPath u v f =>
    obtain ⟨p, hpath⟩ := (T.path u v (hlt hp.1) (hlt hp.2)).exists
    simp only [hStep]
    rw [applyPath_agree C.agree hp.1 hp.2]
    simp only [sat_bind, sat_ok]
    refine (applyPath_sat hM R T hroot (by omega) (hlt hp.1) (hlt hp.2) f hpath).mono ?_
    rintro ⟨d', _⟩ ⟨rfl, k2⟩
    exact ⟨trivial, _, ⟨p, (gplus_path G hr hno hp.1 hp.2).1 hpath, rfl⟩, k2, rfl⟩
  | pathProd u v =>
    obtain ⟨p, hpath⟩ := (T.path u v (hlt hp.1) (hlt hp.2)).exists
    simp only [hStep]
    rw [pathProd_agree C.agree hp.1 hp.2]
    simp only [sat_bind, sat_ok]
    refine (pathProd_sat hM R T hroot (by omega) (hlt hp.1) (hlt hp.2) hpath).mono ?_
    rintro ⟨⟨d', _⟩, x⟩ ⟨rfl, k2, q, k3, k4, -⟩
    exact ⟨trivial, a, rfl, k2, p, q, (gplus_path G hr hno hp.1 hp.2).1 hpath, k3, by rw [k4]⟩
  | applySubtree u f =>
    simp only [hStep, sat_bind, sat_ok]
    refine (applySubtree_comp hM G hr hno C R hp f).mono ?_
    rintro h' ⟨k1, s, k2, k3⟩
    exact ⟨k1, _, ⟨s, k2, rfl⟩, k3, rfl⟩
  | subtreeProd u =>
    simp only [hStep, sat_bind, sat_ok]
    refine (subtreeProd_comp hM G hr hno C R hp).mono ?_
    rintro ⟨h', x⟩ ⟨k1, k2, s, k3, k4, k5⟩
    exact ⟨k1, a, rfl, k2, s, k3, k4, by rw [k5]⟩

theorem hRun_comp (hM : LawfulMap M) (G : IsSimpleGraph g) (hr : root < g.length) (hno : ¬ HasCycleAt g root)
    (hgl : g.length < 2 ^ 32) {t t' : HArr} {c : Forest} {k : Nat} {a : List S} {d : LazySegtree S F}
    (C : Comp g root t t' c k) (R : Rep M (gplus g root) root c ⟨d, t'⟩ a)
    {ops : List (HldOp S F)} (hp : ∀ op ∈ ops, op.On (Connected g root)) :
    Sat (hRun M ⟨d, t⟩ ops) (fun o => HldRunOk M g root (root :: c.pre) a ops o.2 ∧ o.1.arr = t) := by
  induction ops generalizing d a with
  | nil => simp only [hRun, sat_ok]; exact ⟨trivial, trivial⟩
  | cons op ops ih =>
    simp only [hRun, sat_bind, sat_ok]
    refine (hStep_comp hM G hr hno hgl C R (hp op (by simp))).mono ?_
    rintro ⟨⟨d1, _⟩, o⟩ ⟨rfl, b, k1, k2, k3⟩
    refine (ih k2 fun op' h' => hp op' (List.mem_cons_of_mem _ h')).mono ?_
    rintro ⟨h2, os⟩ ⟨k5, k6⟩
    exact ⟨⟨k3, b, k1, k5⟩, k6⟩

/-- C80, adjacency lists without self-loops (directed, with parallel edges or entries out of range): if the walks
from the root that never turn straight back are not bounded, then no depth of recursion is enough for the first
search to return, and `new` does not return. -/
theorem C80_recursion (M : MapMonoidOps S F) (hir : ∀ u, u ∉ g.getD u [])
    (h : ∀ k, NoReturnWalk g k root root) :
    (∀ fuel t r, t.parent[root]? = some root → HArr.dfs1 fuel g root t ≠ .ok r) ∧
      ∀ r, HLD.new M g root ≠ .ok r := by
  have h1 : ∀ fuel t r, t.parent[root]? = some root → HArr.dfs1 fuel g root t ≠ .ok r :=
    fun fuel t r hp hd => (dfs1_ok hir hp hd).1 (h fuel)
  refine ⟨h1, fun r hn => ?_⟩
  unfold HLD.new at hn
  obtain ⟨_, -, hn⟩ := bind_ok_inv hn
  obtain ⟨_, -, hn⟩ := bind_ok_inv hn
  obtain ⟨p, hp, hn⟩ := bind_ok_inv hn
  obtain ⟨_, hd, -⟩ := bind_ok_inv hn
  obtain ⟨hl, rfl⟩ := upd_ok_inv hp
  refine h1 _ _ _ ?_ hd
  simp only
  rw [List.getElem?_set_self hl]

/-- C80: on an undirected graph without self-loops and parallel edges, `new` returns exactly when no cycle is
connected to the root. -/
theorem C80_returns_iff (hM : LawfulMap M) (G : IsSimpleGraph g) (hr : root < g.length)
    (hgl : g.length < 2 ^ 32) :
    (∃ h, HLD.new M.ops g root = .ok h) ↔ ¬ HasCycleAt g root := by
  constructor
  · rintro ⟨h, hh⟩ hc
    exact (C80_recursion M.ops G.irrefl ((nrw_component G hr).1 hc)).2 h hh
  · intro hno
    obtain ⟨h, e, -⟩ := new_component hM G hr hno hgl
    exact ⟨h, e⟩

/-- C80: if it returns, every history of calls on vertices connected to the root gives the results computed from
the node values, the other components do not matter. Only the initial value of the root is wrong if there are
vertices with a greater index that are not connected to it: it is then that of the last such vertex. -/
theorem C80_history (hM : LawfulMap M) (G : IsSimpleGraph g) (hr : root < g.length) (hno : ¬ HasCycleAt g root)
    (hgl : g.length < 2 ^ 32) (v : List S) (hv : v.length = g.length) (ops : List (HldOp S F))
    (hops : ∀ op ∈ ops, op.On (Connected g root)) :
    ∃ h0 h outs ord a z, HLD.withInitValue M g root v = ok h0 ∧ hRun M h0 ops = ok (h, outs) ∧
      (∀ x, Connected g root x → ∃ p, h0.arr.pos[x]? = some p ∧ ord[p]? = some x) ∧
      ord.Perm (List.range g.length) ∧ h.arr.pos = h0.arr.pos ∧
      LastZero g root z ∧ a[root]? = v[z]? ∧ (∀ x, Connected g root x → x ≠ root → a[x]? = v[x]?) ∧
      HldRunOk M g root ord a ops outs := by
  obtain ⟨⟨d, t⟩, e0, t', c, k, a, z, C, R, h1, h2, h3⟩ := withInit_component hM G hr hno hgl hv
  obtain ⟨⟨h, outs⟩, e1, k1, k2⟩ := hRun_comp hM G hr hno hgl C R hops
  have hl : (gplus g root).length = g.length := gplus_length
  refine ⟨⟨d, t⟩, h, outs, root :: c.pre, a, z, e0, e1, fun x hx => ?_, ?_, ?_, h1, h2, h3, k1⟩
  · have hxl : x < (gplus g root).length := by rw [hl]; exact conn_lt G.inRange hr hx
    exact ⟨_, (C.agree.pos x hx).trans (C.tree.posSome hxl), C.tree.ord_pos hxl⟩
  · rw [← hl]; exact C.tree.perm
  · show h.arr.pos = _
    rw [show h.arr = t from k2]

/-- C80: the same for `new`, which starts from identity elements. -/
theorem C80_new_history (hM : LawfulMap M) (G : IsSimpleGraph g) (hr : root < g.length) (hno : ¬ HasCycleAt g root)
    (hgl : g.length < 2 ^ 32) (ops : List (HldOp S F)) (hops : ∀ op ∈ ops, op.On (Connected g root)) :
    ∃ h0 h outs ord, HLD.new M g root = ok h0 ∧ hRun M h0 ops = ok (h, outs) ∧
      (∀ x, Connected g root x → ∃ p, h0.arr.pos[x]? = some p ∧ ord[p]? = some x) ∧
      ord.Perm (List.range g.length) ∧ h.arr.pos = h0.arr.pos ∧
      HldRunOk M g root ord (List.replicate g.length 1) ops outs := by
  obtain ⟨⟨d, t⟩, e0, t', c, k, C, R⟩ := new_component hM G hr hno hgl
  obtain ⟨⟨h, outs⟩, e1, k1, k2⟩ := hRun_comp hM G hr hno hgl C R hops
  have hl : (gplus g root).length = g.length := gplus_length
  refine ⟨⟨d, t⟩, h, outs, root :: c.pre, e0, e1, fun x hx => ?_, ?_, ?_, k1⟩
  · have hxl : x < (gplus g root).length := by rw [hl]; exact conn_lt G.inRange hr hx
    exact ⟨_, (C.agree.pos x hx).trans (C.tree.posSome hxl), C.tree.ord_pos hxl⟩
  · rw [← hl]; exact C.tree.perm
  · show h.arr.pos = _
    rw [show h.arr = t from k2]

/-- C80: calls on vertices not connected to the root. `get` and `set` address the root instead, the subtree of
such a vertex is empty, and a path between two of them is taken to be the root alone. -/
theorem C80_outside (hM : LawfulMap M) (G : IsSimpleGraph g) (hr : root < g.length) (hno : ¬ HasCycleAt g root)
    (hgl : g.length < 2 ^ 32) :
    ∃ h0, HLD.new M.ops g root = ok h0 ∧ ∀ (d : LazySegtree S F) (x : Nat), x < g.length → ¬ Connected g root x →
      let h : HLD S F := ⟨d, h0.arr⟩
      h.get M x = h.get M root ∧ (∀ s, h.set M x s = h.set M root s) ∧
      (∀ f, h.applySubtree M x f = ok h) ∧ h.subtreeProd M x = ok (h, 1) ∧
      ∀ y, y < g.length → ¬ Connected g root y →
        (∀ f, h.applyPath M x y f = h.applyPath M root root f) ∧ h.pathProd M x y = h.pathProd M root root := by
  obtain ⟨⟨d0, t⟩, e0, t', c, k, C, R⟩ := new_component hM G hr hno hgl
  refine ⟨⟨d0, t⟩, e0, fun d x hx hxc => ?_⟩
  obtain ⟨p1, p2, p3, -⟩ := C.outside x hx hxc
  have hrr : t.head[root]? = some (Hd t' root) := (C.agree.head root (conn_refl _)).trans
    (C.tree.headSome (by rw [gplus_length]; exact hr))
  have e1 : M.ops.e = 1 := by rw [MapOps.ops_e, hM.e_eq]
  refine ⟨?_, fun s => ?_, fun f => ?_, ?_, fun y hy hyc => ?_⟩
  · unfold HLD.get; simp only []; rw [idx_of_some p1, idx_of_some C.rootPos]
  · unfold HLD.set; simp only []; rw [idx_of_some p1, idx_of_some C.rootPos]
  · unfold HLD.applySubtree LazySegtree.applyRange; simp only []
    rw [idx_of_some p1, ok_bind, idx_of_some p2, ok_bind]
    simp [assert_true, ok_bind]
  · unfold HLD.subtreeProd LazySegtree.prod; simp only []
    rw [idx_of_some p1, ok_bind, idx_of_some p2, ok_bind]
    simp [assert_true, ok_bind, hM.e_eq]
  · obtain ⟨q1, q2, q3, -⟩ := C.outside y hy hyc
    constructor
    · intro f
      unfold HLD.applyPath; simp only [whileLoop]
      rw [idx_of_some p3, idx_of_some q3, idx_of_some hrr]
      simp only [ok_bind, ne_eq, not_true_eq_false, decide_false, Bool.false_eq_true, if_false]
      rw [idx_of_some p1, idx_of_some q1, idx_of_some C.rootPos]
      simp only [ok_bind, gt_iff_lt, Nat.lt_irrefl, if_false]
      rw [idx_of_some p1, idx_of_some q1, idx_of_some C.rootPos]
    · unfold HLD.pathProd; simp only [whileLoop]
      rw [idx_of_some p3, idx_of_some q3, idx_of_some hrr]
      simp only [ok_bind, ne_eq, not_true_eq_false, decide_false, Bool.false_eq_true, if_false]
      rw [idx_of_some p1, idx_of_some q1, idx_of_some C.rootPos]
      simp only [ok_bind, gt_iff_lt, Nat.lt_irrefl, if_false]
      rw [idx_of_some p1, idx_of_some q1, idx_of_some C.rootPos]

/-- C80: if vertex 0 is not connected to the root, then `apply_path` and `path_prod` between a vertex connected to
the root and one that is not never return. -/
theorem C80_apart (hM : LawfulMap M) (G : IsSimpleGraph g) (hr : root < g.length) (hno : ¬ HasCycleAt g root)
    (hgl : g.length < 2 ^ 32) (h0 : ¬ Connected g root 0) :
    ∃ h0, HLD.new M.ops g root = ok h0 ∧ ∀ (d : LazySegtree S F) (u v : Nat), Apart g root u v →
      (∀ f r, (⟨d, h0.arr⟩ : HLD S F).applyPath M u v f ≠ ok r) ∧
      ∀ r, (⟨d, h0.arr⟩ : HLD S F).pathProd M u v ≠ ok r := by
  obtain ⟨⟨d0, t⟩, e0, t', c, k, C, R⟩ := new_component hM G hr hno hgl
  exact ⟨⟨d0, t⟩, e0, fun d u v h => ⟨fun f r => applyPath_apart C G hr h0 h d f r,
    fun r => pathProd_apart C G hr h0 h d r⟩⟩

/-- The path 2–3–4–5, the edge 0–1 and the vertex 6. -/
def forestExample : List (List Nat) := [[1], [0], [3], [2, 4], [3, 5], [4], []]

theorem forestExample_simple : IsSimpleGraph forestExample := by
  have hlt : ∀ u v, v ∈ forestExample.getD u [] → u < 7 := by
    intro u v hv
    by_contra hu
    rw [List.getD_eq_getElem?_getD, List.getElem?_eq_none (by simp [forestExample]; omega)] at hv
    simp at hv
  have h : ∀ u < 7, (∀ v ∈ forestExample.getD u [], v < 7 ∧ u ∈ forestExample.getD v []) ∧
      u ∉ forestExample.getD u [] ∧ (forestExample.getD u []).Nodup := by decide
  refine ⟨fun u v hv => ((h u (hlt u v hv)).1 v hv).1, fun u v hv => ((h u (hlt u v hv)).1 v hv).2,
    fun u hu => (h u (hlt u u hu)).2.1 hu, fun u => ?_⟩
  by_cases hu : u < 7
  · exact (h u hu).2.2
  · rw [List.getD_eq_getElem?_getD, List.getElem?_eq_none (by simp [forestExample]; omega)]; simp

def forestVals : List (FreeMonoid Nat) := [1, 2, 3, 4, 5, 6, 7].map FreeMonoid.of

example : IsSimpleGraph forestExample ∧ ¬ HasCycleAt forestExample 3 ∧ Connected forestExample 3 5 ∧
    ¬ Connected forestExample 3 0 ∧ Apart forestExample 3 5 6 := by
  have h0 : ∀ x, x ∈ [0, 1, 6] → ¬ Connected forestExample 3 x := by
    rintro x hx ⟨w, h1, h2, h3⟩
    obtain ⟨l, rfl⟩ := List.head?_eq_some_iff.1 h1
    have key : ∀ (l : List Nat) (u : Nat), u ∈ [2, 3, 4, 5] →
        (u :: l).IsChain (fun a b => b ∈ forestExample.getD a []) → ∀ y ∈ u :: l, y ∈ [2, 3, 4, 5] := by
      intro l
      induction l with
      | nil => intro u hu _ y hy; rw [List.mem_singleton.1 hy]; exact hu
      | cons v l ih =>
        intro u hu hc y hy
        rw [List.isChain_cons_cons] at hc
        have hv : v ∈ [2, 3, 4, 5] :=
          (by decide : ∀ u ∈ [2, 3, 4, 5], ∀ v ∈ forestExample.getD u [], v ∈ [2, 3, 4, 5]) u hu v hc.1
        rcases List.mem_cons.1 hy with rfl | hy
        · exact hu
        · exact ih v hv hc.2 y hy
    have := key l 3 (by decide) h3 x (List.mem_of_getLast? h2)
    simp only [List.mem_cons, List.not_mem_nil, or_false] at hx this
    omega
  have h5 : Connected forestExample 3 5 := ⟨[3, 4, 5], by decide, by decide, by decide⟩
  refine ⟨forestExample_simple, ?_, h5, h0 0 (by decide), .inl ⟨h5, by decide, h0 6 (by decide)⟩⟩
  refine (C80_returns_iff shiftOps_lawful forestExample_simple (by decide) (by decide)).1 ?_
  have h : (do let _ ← HLD.new shiftOps.ops forestExample 3; ok () : Res Unit) = ok () := by decide +kernel
  obtain ⟨r, hr, -⟩ := bind_ok_inv h
  exact ⟨r, hr⟩

/-- The root 3 starts with the value of vertex 6; otherwise the results on the path 2–3–4–5 are right. -/
example : (do
    let h ← HLD.withInitValue shiftOps.ops forestExample 3 forestVals
    let (_, outs) ← hRun shiftOps h [.get 3, .get 4, .pathProd 2 5, .applyPath 2 4 10, .subtreeProd 3, .subtreeProd 4]
    ok (outs.map fun o => match o with
      | .unit => []
      | .val x => x.toList) : Res _) =
    ok [[7], [5], [3, 7, 5, 6], [], [17, 15, 6, 13], [15, 6]] := by decide +kernel
example : (do
    let h ← HLD.withInitValue shiftOps.ops forestExample 3 forestVals
    let (_, x) ← h.pathProd shiftOps 5 6
    ok x.toList : Res _) = .diverge := by decide +kernel
example : ∀ r, HLD.new shiftOps.ops graphExample 0 ≠ .ok r :=
  (C80_recursion shiftOps.ops graphExample_simple.irrefl ((nrw_component graphExample_simple (by decide)).1
    ⟨[1, 2, 3], 1, ⟨by decide, by decide, by decide, by rintro _ _ ⟨⟩ ⟨⟩; decide⟩, by decide, [0, 1], by decide,
      by decide, by decide⟩)).2

end Verif.Props
