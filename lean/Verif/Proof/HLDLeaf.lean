import Verif.Proof.LazyLeafOps
import Verif.Proof.HLD
/-! The heavy-light decomposition next to one over words. -/
namespace Verif.LeafP
open Res Model Spec LazyP

variable {S F : Type} {R : MapMonoidOps S F} {act : F → S → S} {n N L : Nat}

/-- The same arrays, the same leaves. -/
structure HL (n N L : Nat) (h : HLD S F) (h' : HLD (FreeMonoid S) F) : Prop where
  data : LTn n N L h.data h'.data
  arr : h.arr = h'.arr

variable {h : HLD S F} {h' : HLD (FreeMonoid S) F}

theorem applyPath_hl (hR : ActsOnElements R act) (hh : HL n N L h h') (hn : n ≤ N) (u v : Nat) (f : F) :
    Sim (OpPanics R) False (HL n N L) (h.applyPath R u v f) (h'.applyPath (wordOps R act).ops u v f) := by
  unfold HLD.applyPath
  simp only [hh.arr]
  refine sim_bind (Q := fun a b => LTn n N L a.1 b.1 ∧ a.2 = b.2) (sim_while ⟨hh.data, rfl⟩ ?_ ?_) ?_
  · rintro ⟨a, u, v⟩ ⟨a', u', v'⟩ ⟨ha, e⟩
    cases e
    exact sim_refl
  · rintro ⟨a, u, v⟩ ⟨a', u', v'⟩ ⟨ha, e⟩
    cases e
    refine sim_bind sim_refl ?_
    rintro hu _ rfl
    refine sim_bind sim_refl ?_
    rintro du _ rfl
    refine sim_bind sim_refl ?_
    rintro hv _ rfl
    refine sim_bind sim_refl ?_
    rintro dv _ rfl
    simp only
    refine sim_bind sim_refl ?_
    rintro hu _ rfl
    refine sim_bind sim_refl ?_
    rintro l _ rfl
    refine sim_bind sim_refl ?_
    rintro r _ rfl
    refine sim_bind (applyRange_ltn hR ha hn _ _ _) fun d d' hd => ?_
    refine sim_bind sim_refl ?_
    rintro u _ rfl
    exact sim_ok ⟨hd, rfl⟩
  · rintro ⟨a, u, v⟩ ⟨a', u', v'⟩ ⟨ha, e⟩
    cases e
    refine sim_bind sim_refl ?_
    rintro pu _ rfl
    refine sim_bind sim_refl ?_
    rintro pv _ rfl
    simp only
    refine sim_bind sim_refl ?_
    rintro l _ rfl
    refine sim_bind sim_refl ?_
    rintro r _ rfl
    exact sim_bind (applyRange_ltn hR ha hn _ _ _) fun d d' hd => sim_ok ⟨hd, rfl⟩

theorem pathProd_hl (hR : ActsOnElements R act) (hh : HL n N L h h') (u v : Nat) :
    Sim (OpPanics R) False (fun o o' => HL n N L o.1 o'.1) (h.pathProd R u v) (h'.pathProd (wordOps R act).ops u v) := by
  unfold HLD.pathProd
  simp only [hh.arr]
  refine sim_bind (Q := fun a b => LTn n N L a.1 b.1 ∧ a.2.2 = b.2.2) (sim_while ⟨hh.data, rfl⟩ ?_ ?_) ?_
  · rintro ⟨a, s, u, v⟩ ⟨a', s', u', v'⟩ ⟨ha, e⟩
    cases e
    exact sim_refl
  · rintro ⟨a, s, u, v⟩ ⟨a', s', u', v'⟩ ⟨ha, e⟩
    cases e
    refine sim_bind sim_refl ?_
    rintro hu _ rfl
    refine sim_bind sim_refl ?_
    rintro du _ rfl
    refine sim_bind sim_refl ?_
    rintro hv _ rfl
    refine sim_bind sim_refl ?_
    rintro dv _ rfl
    simp only
    refine sim_bind sim_refl ?_
    rintro hu _ rfl
    refine sim_bind sim_refl ?_
    rintro l _ rfl
    refine sim_bind sim_refl ?_
    rintro r _ rfl
    refine sim_bind (prod_ltn hR ha _ _) ?_
    rintro ⟨d, x⟩ ⟨d', x'⟩ hd
    refine sim_bind (op_lt hR _ _ _) ?_
    intro y y' hy
    refine sim_bind sim_refl ?_
    rintro u _ rfl
    exact sim_ok ⟨hd, rfl⟩
  · rintro ⟨a, s, u, v⟩ ⟨a', s', u', v'⟩ ⟨ha, e⟩
    cases e
    refine sim_bind sim_refl ?_
    rintro pu _ rfl
    refine sim_bind sim_refl ?_
    rintro pv _ rfl
    simp only
    refine sim_bind sim_refl ?_
    rintro l _ rfl
    refine sim_bind sim_refl ?_
    rintro r _ rfl
    refine sim_bind (prod_ltn hR ha _ _) ?_
    rintro ⟨d, x⟩ ⟨d', x'⟩ hd
    exact sim_bind (op_lt hR _ _ _) fun y y' hy => sim_ok ⟨hd, rfl⟩

theorem applySubtree_hl (hR : ActsOnElements R act) (hh : HL n N L h h') (hn : n ≤ N) (u : Nat) (f : F) :
    Sim (OpPanics R) False (HL n N L) (h.applySubtree R u f) (h'.applySubtree (wordOps R act).ops u f) := by
  unfold HLD.applySubtree
  simp only [hh.arr]
  refine sim_bind sim_refl ?_
  rintro l _ rfl
  refine sim_bind sim_refl ?_
  rintro r _ rfl
  exact sim_bind (applyRange_ltn hR hh.data hn _ _ _) fun d d' hd => sim_ok ⟨hd, rfl⟩

theorem subtreeProd_hl (hR : ActsOnElements R act) (hh : HL n N L h h') (u : Nat) :
    Sim (OpPanics R) False (fun o o' => HL n N L o.1 o'.1) (h.subtreeProd R u) (h'.subtreeProd (wordOps R act).ops u) := by
  unfold HLD.subtreeProd
  simp only [hh.arr]
  refine sim_bind sim_refl ?_
  rintro l _ rfl
  refine sim_bind sim_refl ?_
  rintro r _ rfl
  refine sim_bind (prod_ltn hR hh.data _ _) ?_
  rintro ⟨d, x⟩ ⟨d', x'⟩ hd
  exact sim_ok ⟨hd, rfl⟩

theorem hget_hl (hR : ActsOnElements R act) (hh : HL n N L h h') (u : Nat) :
    Sim (OpPanics R) False (fun o o' => HL n N L o.1 o'.1 ∧ o'.2 = FreeMonoid.of o.2) (h.get R u)
      (h'.get (wordOps R act).ops u) := by
  unfold HLD.get
  simp only [hh.arr]
  refine sim_bind sim_refl ?_
  rintro k _ rfl
  refine sim_bind (get_ltn hR hh.data _) ?_
  rintro ⟨d, x⟩ ⟨d', x'⟩ ⟨hd, hx⟩
  exact sim_ok ⟨⟨hd, rfl⟩, hx⟩

theorem hset_hl (hR : ActsOnElements R act) (hh : HL n N L h h') (hn : n ≤ N) (u : Nat) (x : S) :
    Sim (OpPanics R) False (HL n N L) (h.set R u x) (h'.set (wordOps R act).ops u (FreeMonoid.of x)) := by
  unfold HLD.set
  simp only [hh.arr]
  refine sim_bind sim_refl ?_
  rintro k _ rfl
  exact sim_bind (set_ltn hR hh.data hn _ _) fun d d' hd => sim_ok ⟨hd, rfl⟩

variable {g : List (List Nat)} {root : Nat}

theorem newTree_any (hR : ActsOnElements R act) {k : Nat} (hk : k < 2 ^ 32) :
    Sim (OpPanics R) False (fun t _ => Holds R act t (List.replicate k R.e)) (LazySegtree.new R k)
      (LazySegtree.new (wordOps R act).ops k) := by
  unfold LazySegtree.new
  obtain ⟨t', e', -⟩ := from_sat (M := wordOps R act) (a := List.replicate k (wordOps R act).ops.e) (word_lawful hR)
    (by simpa using hk)
  rw [e']
  rcases from_holds (R := R) (a := List.replicate k R.e) hR (by simpa using hk) with ⟨t, e, ht⟩ | ⟨hp, e⟩
  · rw [e]; exact sim_ok ht
  · exact .inl ⟨hp, e⟩

theorem hnew_any (hR : ActsOnElements R act) (hg : g.length < 2 ^ 32) :
    Sim (OpPanics R) False (fun h h' => h.arr = h'.arr ∧ Holds R act h.data (List.replicate g.length R.e))
      (HLD.new R g root) (HLD.new (wordOps R act).ops g root) := by
  unfold HLD.new
  refine sim_assert fun _ => sim_bind (newTree_any hR hg) fun d d' hd => ?_
  refine sim_bind sim_refl ?_
  rintro x _ rfl
  refine sim_bind sim_refl ?_
  rintro ⟨x, _⟩ _ rfl
  refine sim_bind sim_refl ?_
  rintro ⟨y, _⟩ _ rfl
  exact sim_ok ⟨rfl, hd⟩

theorem withInit_hl (hR : ActsOnElements R act) (hg : g.length < 2 ^ 32) (v : List S) :
    Sim (OpPanics R) False (fun h h' => LT h.data h'.data ∧ h.arr = h'.arr) (HLD.withInitValue R g root v)
      (HLD.withInitValue (wordOps R act).ops g root (v.map FreeMonoid.of)) := by
  have hv : ListRel (fun x y => y = FreeMonoid.of x) v (v.map FreeMonoid.of) := by
    refine ⟨by simp, fun i a b h1 h2 => ?_⟩
    rw [List.getElem?_map, h1] at h2
    exact (Option.some.inj h2).symm
  unfold HLD.withInitValue
  simp only [List.length_map]
  refine sim_assert fun _ => sim_bind (hnew_any hR hg) fun h h' hh => ?_
  refine sim_bind (Q := ListRel (fun x y => y = FreeMonoid.of x)) (sim_forRange hv fun i s t hst => ?_) fun a a' ha => ?_
  · refine sim_bind (sim_idx hv _) fun x x' hx => ?_
    rw [hh.1]
    refine sim_bind sim_refl ?_
    rintro k _ rfl
    exact sim_upd hst _ hx
  · have : a' = a.map FreeMonoid.of := by
      apply List.ext_getElem?
      intro i
      rw [List.getElem?_map]
      by_cases hi : i < a.length
      · have hi' : i < a'.length := ha.1 ▸ hi
        rw [List.getElem?_eq_getElem hi, List.getElem?_eq_getElem hi']
        exact congrArg some (ha.2 i _ _ (List.getElem?_eq_getElem hi) (List.getElem?_eq_getElem hi'))
      · have := ha.1
        rw [List.getElem?_eq_none (l := a) (by omega), List.getElem?_eq_none (l := a') (by omega)]; rfl
    subst this
    exact sim_bind (from_ltn hR a) fun d d' hd => sim_ok ⟨hd, hh.1⟩

/-- `h` holds the node values `a`. -/
def HHolds (R : MapMonoidOps S F) (act : F → S → S) (g : List (List Nat)) (root : Nat) (c : TreeP.Forest) (h : HLD S F)
    (a : List S) : Prop :=
  ∃ h', LT h.data h'.data ∧ h.arr = h'.arr ∧ HLDP.Rep (wordOps R act) g root c h' (a.map FreeMonoid.of)

variable {c : TreeP.Forest} {a : List S}

theorem HHolds.len (k : HHolds R act g root c h a) : a.length = g.length := by
  obtain ⟨h', -, -, r⟩ := k
  simpa using r.len

theorem hl_of {h' : HLD (FreeMonoid S) F} (k : LT h.data h'.data) (e : h.arr = h'.arr) :
    HL h.data.n h.data.size h.data.log h h' := ⟨ltn_of k, e⟩

theorem HHolds.le (k : HHolds R act g root c h a) : h.data.n ≤ h.data.size := by
  obtain ⟨h', k1, k2, r⟩ := k
  obtain ⟨L, ⟨hL, e⟩, hle, hw⟩ := r.data
  obtain ⟨d1, d2, d3⟩ := hw.dims
  rw [k1.n, k1.size, d1, d2]
  exact hle

theorem map_mapNodes {f : S → S} (p : List Nat) :
    mapNodes (FreeMonoid.map f) (a.map FreeMonoid.of) p = (mapNodes f a p).map FreeMonoid.of := by
  unfold mapNodes
  apply List.ext_getElem?
  intro i
  simp only [List.getElem?_mapIdx, List.getElem?_map]
  cases a[i]? with
  | none => rfl
  | some x =>
    simp only [Option.map_some]
    split <;> simp

theorem hget_holds (hR : ActsOnElements R act) (k : HHolds R act g root c h a) {u : Nat} (hu : u < g.length) :
    SatOr (OpPanics R) (h.get R u) (fun o => HHolds R act g root c o.1 a ∧ o.1.arr = h.arr ∧ a[u]? = some o.2) := by
  obtain ⟨h', k1, k2, r⟩ := k
  refine (sim_satOr (hget_hl hR (hl_of k1 k2) u) (HLDP.get_sat (word_lawful hR) r hu)).mono ?_
  rintro o ⟨o', ⟨j1, j2⟩, j3, j4, j5⟩
  refine ⟨⟨_, j1.data.1, j1.arr, j3⟩, by rw [j1.arr, j4, k2], ?_⟩
  rw [j2, List.getElem?_map] at j5
  cases e : a[u]? with
  | none => rw [e] at j5; cases j5
  | some x =>
    rw [e] at j5
    exact congrArg some (FreeMonoid.of_injective (Option.some.inj j5))

theorem hset_holds (hR : ActsOnElements R act) (k : HHolds R act g root c h a) {u : Nat} (hu : u < g.length) (x : S) :
    SatOr (OpPanics R) (h.set R u x) (fun o => HHolds R act g root c o (a.set u x) ∧ o.arr = h.arr) := by
  have hle := k.le
  obtain ⟨h', k1, k2, r⟩ := k
  refine (sim_satOr (hset_hl hR (hl_of k1 k2) hle u x) (HLDP.set_sat (word_lawful hR) r hu _)).mono ?_
  rintro o ⟨o', j1, j3, j4⟩
  exact ⟨⟨_, j1.data.1, j1.arr, by rw [List.map_set]; exact j3⟩, by rw [j1.arr, j4, k2]⟩

theorem applyPath_holds (hR : ActsOnElements R act) (k : HHolds R act g root c h a) (T : IsTree g)
    (hr : root < g.length) (hgl : g.length < 2 ^ 64) {u v : Nat} (hu : u < g.length) (hv : v < g.length) (f : F)
    {p : List Nat} (hp : IsPath g u v p) :
    SatOr (OpPanics R) (h.applyPath R u v f)
      (fun o => HHolds R act g root c o (mapNodes (act f) a p) ∧ o.arr = h.arr) := by
  have hle := k.le
  obtain ⟨h', k1, k2, r⟩ := k
  refine (sim_satOr (applyPath_hl hR (hl_of k1 k2) hle u v f)
    (HLDP.applyPath_sat (word_lawful hR) r T hr hgl hu hv f hp)).mono ?_
  rintro o ⟨o', j1, j4, j3⟩
  exact ⟨⟨_, j1.data.1, j1.arr, by rw [← map_mapNodes]; exact j3⟩, by rw [j1.arr, j4, k2]⟩

theorem applySubtree_holds (hR : ActsOnElements R act) (k : HHolds R act g root c h a) (T : IsTree g)
    (hr : root < g.length) {u : Nat} (hu : u < g.length) (f : F) :
    SatOr (OpPanics R) (h.applySubtree R u f) (fun o => o.arr = h.arr ∧ ∃ s, (∀ x, x ∈ s ↔ Ancestor g root u x) ∧
      HHolds R act g root c o (mapNodes (act f) a s)) := by
  have hle := k.le
  obtain ⟨h', k1, k2, r⟩ := k
  refine (sim_satOr (applySubtree_hl hR (hl_of k1 k2) hle u f)
    (HLDP.applySubtree_sat (word_lawful hR) r T hr hu f)).mono ?_
  rintro o ⟨o', j1, j4, s, j2, j3⟩
  exact ⟨by rw [j1.arr, j4, k2], s, j2, _, j1.data.1, j1.arr, by rw [← map_mapNodes]; exact j3⟩

theorem pathProd_holds (hR : ActsOnElements R act) (k : HHolds R act g root c h a) (T : IsTree g)
    (hr : root < g.length) (hgl : g.length < 2 ^ 64) {u v : Nat} (hu : u < g.length) (hv : v < g.length) :
    SatOr (OpPanics R) (h.pathProd R u v) (fun o => HHolds R act g root c o.1 a ∧ o.1.arr = h.arr) := by
  obtain ⟨p, hp⟩ := (T.path u v hu hv).exists
  obtain ⟨h', k1, k2, r⟩ := k
  refine (sim_satOr (pathProd_hl hR (hl_of k1 k2) u v)
    (HLDP.pathProd_sat (word_lawful hR) r T hr hgl hu hv hp)).mono ?_
  rintro o ⟨o', j1, j4, j3, -⟩
  exact ⟨⟨_, j1.data.1, j1.arr, j3⟩, by rw [j1.arr, j4, k2]⟩

theorem subtreeProd_holds (hR : ActsOnElements R act) (k : HHolds R act g root c h a) (T : IsTree g)
    (hr : root < g.length) {u : Nat} (hu : u < g.length) :
    SatOr (OpPanics R) (h.subtreeProd R u) (fun o => HHolds R act g root c o.1 a ∧ o.1.arr = h.arr) := by
  obtain ⟨h', k1, k2, r⟩ := k
  refine (sim_satOr (subtreeProd_hl hR (hl_of k1 k2) u) (HLDP.subtreeProd_sat (word_lawful hR) r T hr hu)).mono ?_
  rintro o ⟨o', j1, j4, j3, -⟩
  exact ⟨⟨_, j1.data.1, j1.arr, j3⟩, by rw [j1.arr, j4, k2]⟩

theorem withInit_holds (hR : ActsOnElements R act) (T : IsTree g) (hr : root < g.length) (hgl : g.length < 2 ^ 32)
    {v : List S} (hv : v.length = g.length) :
    SatOr (OpPanics R) (HLD.withInitValue R g root v) (fun h => ∃ c, HHolds R act g root c h v) := by
  refine (sim_satOr (withInit_hl hR hgl v)
    (HLDP.withInitValue_sat (word_lawful hR) T hr hgl (by simpa using hv))).mono ?_
  rintro h ⟨h', ⟨k1, k2⟩, c, r⟩
  exact ⟨c, h', k1, k2, r⟩

theorem hnew_holds (hR : ActsOnElements R act) (T : IsTree g) (hr : root < g.length) (hgl : g.length < 2 ^ 32) :
    SatOr (OpPanics R) (HLD.new R g root) (fun h => ∃ c, HHolds R act g root c h (List.replicate g.length R.e)) := by
  refine (sim_satOr (hnew_any hR hgl) (HLDP.new_sat (word_lawful hR) T hr hgl)).mono ?_
  rintro h ⟨h', ⟨k1, t', k2, k3⟩, c, r⟩
  refine ⟨c, ⟨t', h'.arr⟩, k2, k1, by simp, r.arr, ?_⟩
  have : HLDP.D (root :: c.pre) ((List.replicate g.length R.e).map FreeMonoid.of) =
      (List.replicate g.length R.e).map FreeMonoid.of := by
    rw [List.map_replicate, List.eq_replicate_iff]
    refine ⟨by rw [HLDP.D, List.length_map, r.arr.length], fun b hb => ?_⟩
    simp only [HLDP.D, List.mem_map] at hb
    obtain ⟨x, hx, rfl⟩ := hb
    have := r.arr.mem.1 hx
    simp [List.getD_eq_getElem?_getD, this]
  rw [this]
  exact k3

end Verif.LeafP
