import Verif.Model.CostHLD
import Verif.Proof.HLD
/-! Number of chains met by the path operations. -/
namespace Verif.HLDP
open Res Model Spec TreeP

variable {S F : Type} {g : List (List Nat)} {root : Nat} {t : HArr} {c : Forest}

theorem applyPathCost_fst (M : MapOps S F) (h : HLD S F) (u v : Nat) (f : F) :
    (h.applyPathCost M u v f >>= fun r => ok r.1) = h.applyPath M u v f := by
  unfold HLD.applyPathCost HLD.applyPath
  rw [← whileCount_fst]
  simp only [bind_bind_res, ok_bind]

theorem pathProdCost_fst (M : MapOps S F) (h : HLD S F) (u v : Nat) :
    (h.pathProdCost M u v >>= fun r => ok r.1) = h.pathProd M u v := by
  unfold HLD.pathProdCost HLD.pathProd
  rw [← whileCount_fst]
  simp only [bind_bind_res, ok_bind]

section
variable (T : IsTree g) (hr : root < g.length) (hgl : g.length < 2 ^ 64) (H : HOk g root t c)
include T hr H

theorem tops_pos {x : Nat} (hx : x < g.length) : 1 ≤ tops t (rpath g root x) := by
  obtain ⟨l, hl⟩ := head_root T hr hx
  obtain ⟨h1, -, -⟩ := H.heads
  simp only [Option.getD_some] at h1
  rw [hl, tops, List.countP_cons_of_pos (by simp [h1])]
  omega

include hgl in
/-- Climbing from a chain leaves one chain start behind. -/
theorem climb_tops {u v : Nat} (hu : u < g.length) (hv : v < g.length) (hne : Hd t u ≠ Hd t v)
    (hd : (rpath g root (Hd t v)).length ≤ (rpath g root (Hd t u)).length) :
    par g root (Hd t u) < g.length ∧
      tops t (rpath g root (par g root (Hd t u))) + 1 ≤ tops t (rpath g root u) := by
  obtain ⟨c1, c2, -⟩ := H.climb T hr hgl hu hv hne hd
  obtain ⟨a1, a2, a3, -⟩ := H.head_spec T hr _ u hu rfl
  obtain ⟨b1, -, -, -⟩ := H.head_spec T hr _ v hv rfl
  refine ⟨c1, ?_⟩
  have hpos := rpath_pos T hr a1
  have hpv := rpath_pos T hr b1
  have hnr : (rpath g root (Hd t u)).length ≠ 1 := by
    intro h
    exact hne ((eq_root_of_len T hr a1 h).trans (eq_root_of_len T hr b1 (by omega)).symm)
  obtain ⟨A, hA⟩ := rpath_snoc T hr a1
  have hq := (par_spec T hr a1).2
  have hAl : (rpath g root (Hd t u)).length = A.length + 1 := by rw [hA]; simp
  rw [show max 1 ((rpath g root (Hd t u)).length - 1) = A.length by omega, hA, List.take_left] at hq
  obtain ⟨B, hB⟩ := a3
  rw [hq, ← hB, hA]
  have htop : t.head[Hd t u]? = some (Hd t u) := by
    have := H.headSome a1
    rwa [a2] at this
  unfold tops
  rw [List.countP_append, List.countP_append, List.countP_cons_of_pos (by simp [htop])]
  omega

include hgl in
/-- The effect of one round on the two nodes, from the values it reads. -/
theorem round_tops {u v hu hv du dv hu' q : Nat} (hul : u < g.length) (hvl : v < g.length)
    (e1 : t.head[u]? = some hu) (e2 : t.dep[hu]? = some du) (e3 : t.head[v]? = some hv)
    (e4 : t.dep[hv]? = some dv) (hne : hu ≠ hv)
    (e5 : t.head[(if du < dv then (v, u) else (u, v)).1]? = some hu') (e6 : t.parent[hu']? = some q) :
    q < g.length ∧ (if du < dv then (v, u) else (u, v)).2 < g.length ∧
    ∀ m X, m + tops t (rpath g root u) + tops t (rpath g root v) ≤ X → m + 1 +
      tops t (rpath g root q) + tops t (rpath g root (if du < dv then (v, u) else (u, v)).2) ≤ X := by
  rw [H.headSome hul] at e1; cases e1
  rw [H.headSome hvl] at e3; cases e3
  have hhu := (H.head_spec T hr _ u hul rfl).1
  have hhv := (H.head_spec T hr _ v hvl rfl).1
  rw [H.dep _ hhu] at e2; cases e2
  rw [H.dep _ hhv] at e4; cases e4
  have l1 := rpath_pos T hr hhu
  have l2 := rpath_pos T hr hhv
  by_cases hlt : (rpath g root (Hd t u)).length - 1 < (rpath g root (Hd t v)).length - 1
  · simp only [if_pos hlt] at e5 ⊢
    rw [H.headSome hvl] at e5; cases e5
    rw [H.parent _ hhv] at e6; cases e6
    obtain ⟨k1, k2⟩ := climb_tops T hr hgl H hvl hul (Ne.symm hne) (by omega)
    exact ⟨k1, hul, fun m X _ => by omega⟩
  · simp only [if_neg hlt] at e5 ⊢
    rw [H.headSome hul] at e5; cases e5
    rw [H.parent _ hhu] at e6; cases e6
    obtain ⟨k1, k2⟩ := climb_tops T hr hgl H hul hvl hne (by omega)
    exact ⟨k1, hvl, fun m X _ => by omega⟩

/-- Number of different chains on a list of nodes. -/
def nheads (t : HArr) (p : List Nat) : Nat := (p.map fun y => t.head[y]?).toFinset.card

theorem seg_heads {x y : Nat} (hx : x < g.length) (hhy : rpath g root (Hd t x) <+: rpath g root y) :
    ∀ z ∈ (rpath g root x).drop ((rpath g root y).length - 1), t.head[z]? = some (Hd t x) := by
  intro z hz
  obtain ⟨a1, a2, a3, a4⟩ := H.head_spec T hr _ x hx rfl
  have l1 := hhy.length_le
  have l2 := rpath_pos T hr a1
  obtain ⟨i, hi, rfl⟩ := List.mem_iff_getElem.1 hz
  rw [List.length_drop] at hi
  rw [List.getElem_drop]
  have hk : (rpath g root y).length - 1 + i < (rpath g root x).length := by omega
  have e1 : (rpath g root x)[(rpath g root y).length - 1 + i] < g.length :=
    (rpath_path T hr hx).lt T hr _ (List.getElem_mem hk)
  have e2 : rpath g root (rpath g root x)[(rpath g root y).length - 1 + i] =
      (rpath g root x).take ((rpath g root y).length - 1 + i + 1) := by
    rw [rpath_split T hr hx (A := (rpath g root x).take ((rpath g root y).length - 1 + i))
      (B := (rpath g root x).drop ((rpath g root y).length - 1 + i + 1)) (by
      rw [← List.drop_eq_getElem_cons, List.take_append_drop])]
    rw [List.take_succ_eq_append_getElem hk]
  have h2 : rpath g root (rpath g root x)[(rpath g root y).length - 1 + i] <+: rpath g root x := by
    rw [e2]; exact List.take_prefix _ _
  rw [H.headSome e1, (a4 _ e1 (List.prefix_of_prefix_length_le a3 h2 (by
    rw [e2, List.length_take]; omega)) h2).1]

include hgl in
/-- One round leaves exactly one chain of the path behind. -/
theorem climb_heads {u v : Nat} (hu : u < g.length) (hv : v < g.length) (hne : Hd t u ≠ Hd t v)
    (hd : (rpath g root (Hd t v)).length ≤ (rpath g root (Hd t u)).length) {p : List Nat}
    (hp : IsPath g u v p) :
    par g root (Hd t u) < g.length ∧
      ∃ p', IsPath g (par g root (Hd t u)) v p' ∧ nheads t p = nheads t p' + 1 := by
  obtain ⟨c1, c2, c3⟩ := H.climb T hr hgl hu hv hne hd
  obtain ⟨a1, a2, a3, a4⟩ := H.head_spec T hr _ u hu rfl
  obtain ⟨b1, -, -, -⟩ := H.head_spec T hr _ v hv rfl
  refine ⟨c1, ?_⟩
  obtain ⟨p', hp'⟩ := (T.path _ v c1 hv).exists
  have hpe := hp.eq T (c3 p' hp') hu
  refine ⟨p', hp', ?_⟩
  have hseg := seg_heads T hr H hu (List.prefix_refl _)
  have hlast := (H.last T hr a1 hu a3).1
  have hpos := rpath_pos T hr a1
  have hpv := rpath_pos T hr b1
  have hnr : (rpath g root (Hd t u)).length ≠ 1 := by
    intro h
    exact hne ((eq_root_of_len T hr a1 h).trans (eq_root_of_len T hr b1 (by omega)).symm)
  -- no node of the rest lies on the chain that was left
  have hrest : ∀ y ∈ p', t.head[y]? ≠ some (Hd t u) := by
    intro y hy he
    have hyl := hp'.lt T c1 y hy
    obtain ⟨d1, d2, d3, d4⟩ := H.head_spec T hr _ y hyl rfl
    have hyu : Hd t y = Hd t u := by
      rw [H.headSome hyl] at he; exact Option.some.inj he
    rw [hyu] at d3
    obtain ⟨A, hA⟩ := rpath_snoc T hr a1
    obtain ⟨q1, q2⟩ := par_spec T hr a1
    have hAl : (rpath g root (Hd t u)).length = A.length + 1 := by rw [hA]; simp
    rw [show max 1 ((rpath g root (Hd t u)).length - 1) = A.length by omega, hA, List.take_left] at q2
    have hpy : rpath g root (par g root (Hd t u)) <+: rpath g root y := by
      rw [q2]; rw [hA] at d3; exact (List.prefix_append _ _).trans d3
    have hl2 := (H.last T hr q1 hyl hpy).1
    obtain ⟨A', B', hsp⟩ := List.append_of_mem hy
    have htk : IsPath g (par g root (Hd t u)) y (A' ++ [y]) := by
      rw [hsp] at hp'; exact hp'.take
    have hmem : Hd t u ∈ A' ++ [y] := by
      rw [htk.eq T hl2 c1, q2]
      rw [hA] at d3
      obtain ⟨C, hC⟩ := d3
      rw [← hC, List.drop_append_of_le_length (by simp; omega),
        List.drop_append_of_le_length (by omega)]
      simp
    have hmem2 : Hd t u ∈ p' := by
      rw [hsp]
      rcases List.mem_append.1 hmem with h | h
      · exact List.mem_append_left _ h
      · rw [List.mem_singleton] at h; rw [← h]; simp
    have hmem1 : Hd t u ∈ (rpath g root u).drop ((rpath g root (Hd t u)).length - 1) := by
      obtain ⟨B, hB⟩ := List.head?_eq_some_iff.1 hlast.head
      rw [hB]; simp
    have hn := hp.nodup
    rw [hpe, List.nodup_append] at hn
    exact hn.2.2 _ (List.mem_reverse.2 hmem1) _ hmem2 rfl
  have e1 : ((((rpath g root u).drop ((rpath g root (Hd t u)).length - 1)).reverse).map
      fun y => t.head[y]?).toFinset = {some (Hd t u)} := by
    apply Finset.eq_singleton_iff_unique_mem.2
    constructor
    · rw [List.mem_toFinset, List.mem_map]
      obtain ⟨B, hB⟩ := List.head?_eq_some_iff.1 hlast.head
      have : Hd t u ∈ (rpath g root u).drop ((rpath g root (Hd t u)).length - 1) := by rw [hB]; simp
      exact ⟨_, List.mem_reverse.2 this, hseg _ this⟩
    · intro x hx
      rw [List.mem_toFinset, List.mem_map] at hx
      obtain ⟨y, hy, rfl⟩ := hx
      exact hseg y (List.mem_reverse.1 hy)
  unfold nheads
  rw [hpe, List.map_append, List.toFinset_append, e1, Finset.singleton_union,
    Finset.card_insert_of_notMem]
  rw [List.mem_toFinset, List.mem_map]
  rintro ⟨y, hy, h⟩
  exact hrest y hy h

/-- A path inside one chain. -/
theorem one_head {u v : Nat} (hu : u < g.length) (hv : v < g.length) (he : Hd t u = Hd t v)
    {p : List Nat} (hp : IsPath g u v p) : nheads t p = 1 := by
  have key : ∀ u v, u < g.length → v < g.length → Hd t u = Hd t v → P t u ≤ P t v →
      ∀ p, IsPath g u v p → ∀ z ∈ p, t.head[z]? = some (Hd t v) := by
    intro u v hu hv he hle p hp
    have h1 := H.same T hr hv hu he.symm hle
    obtain ⟨a1, a2, a3, a4⟩ := H.head_spec T hr _ u hu rfl
    have := seg_heads T hr H hv (he ▸ a3)
    rwa [(H.last T hr hu hv h1).1.eq T hp hu] at this
  have hall : ∀ z ∈ p, t.head[z]? = some (Hd t v) := by
    rcases Nat.le_total (P t u) (P t v) with h | h
    · exact key u v hu hv he h p hp
    · intro z hz
      rw [← he]
      exact key v u hv hu he.symm h _ (hp.rev T) z (List.mem_reverse.2 hz)
  unfold nheads
  rw [Finset.card_eq_one]
  refine ⟨some (Hd t v), Finset.eq_singleton_iff_unique_mem.2 ⟨?_, ?_⟩⟩
  · rw [List.mem_toFinset, List.mem_map]
    have := List.mem_of_getLast? hp.last
    exact ⟨v, this, hall v this⟩
  · intro x hx
    rw [List.mem_toFinset, List.mem_map] at hx
    obtain ⟨y, hy, rfl⟩ := hx
    exact hall y hy

include hgl in
/-- The effect of one round on the path, from the values it reads. -/
theorem round_heads {u v hu hv du dv hu' q : Nat} (hul : u < g.length) (hvl : v < g.length)
    (e1 : t.head[u]? = some hu) (e2 : t.dep[hu]? = some du) (e3 : t.head[v]? = some hv)
    (e4 : t.dep[hv]? = some dv) (hne : hu ≠ hv)
    (e5 : t.head[(if du < dv then (v, u) else (u, v)).1]? = some hu') (e6 : t.parent[hu']? = some q)
    {p : List Nat} (hp : IsPath g u v p) :
    q < g.length ∧ (if du < dv then (v, u) else (u, v)).2 < g.length ∧
    ∃ p', IsPath g q (if du < dv then (v, u) else (u, v)).2 p' ∧ nheads t p = nheads t p' + 1 := by
  rw [H.headSome hul] at e1; cases e1
  rw [H.headSome hvl] at e3; cases e3
  have hhu := (H.head_spec T hr _ u hul rfl).1
  have hhv := (H.head_spec T hr _ v hvl rfl).1
  rw [H.dep _ hhu] at e2; cases e2
  rw [H.dep _ hhv] at e4; cases e4
  have l1 := rpath_pos T hr hhu
  have l2 := rpath_pos T hr hhv
  by_cases hlt : (rpath g root (Hd t u)).length - 1 < (rpath g root (Hd t v)).length - 1
  · simp only [if_pos hlt] at e5 ⊢
    rw [H.headSome hvl] at e5; cases e5
    rw [H.parent _ hhv] at e6; cases e6
    obtain ⟨k1, p', k2, k3⟩ := climb_heads T hr hgl H hvl hul (Ne.symm hne) (by omega) (hp.rev T)
    refine ⟨k1, hul, p', k2, ?_⟩
    rw [← k3]
    unfold nheads
    rw [List.map_reverse, List.toFinset_reverse]
  · simp only [if_neg hlt] at e5 ⊢
    rw [H.headSome hul] at e5; cases e5
    rw [H.parent _ hhu] at e6; cases e6
    obtain ⟨k1, p', k2, k3⟩ := climb_heads T hr hgl H hul hvl hne (by omega) hp
    exact ⟨k1, hvl, p', k2, k3⟩

/-- From the count to the logarithm. -/
theorem tops_log {u v k : Nat} (hu : u < g.length) (hv : v < g.length)
    (h : k + 2 ≤ tops t (rpath g root u) + tops t (rpath g root v)) : k ≤ 2 * Nat.log2 g.length := by
  have h1 := (Nat.le_log2 (by omega)).2 (H.log T hr hu)
  have h2 := (Nat.le_log2 (by omega)).2 (H.log T hr hv)
  omega

end

section
variable (T : IsTree g) (hr : root < g.length) (hgl : g.length < 2 ^ 64) {h : HLD S F}
  (H : HOk g root h.arr c)
include T hr hgl H

theorem applyPathCost_le {M : MapOps S F} {u v : Nat} (hu : u < g.length) (hv : v < g.length) {f : F}
    {h' : HLD S F} {k : Nat} (he : h.applyPathCost M u v f = ok (h', k)) :
    k ≤ 2 * Nat.log2 g.length := by
  unfold HLD.applyPathCost at he
  obtain ⟨⟨⟨d, u1, v1⟩, k1⟩, e1, he⟩ := bind_eq_ok.1 he
  obtain ⟨_, -, he⟩ := bind_eq_ok.1 he
  obtain ⟨_, -, he⟩ := bind_eq_ok.1 he
  obtain ⟨_, -, he⟩ := bind_eq_ok.1 he
  obtain ⟨_, -, he⟩ := bind_eq_ok.1 he
  obtain ⟨_, -, he⟩ := bind_eq_ok.1 he
  cases he
  obtain ⟨⟨g1, g2, g3⟩, -⟩ := whileCount_inv (σ := LazySegtree S F × Nat × Nat)
    (I := fun m s => s.2.1 < g.length ∧ s.2.2 < g.length ∧
      m + tops h.arr (rpath g root s.2.1) + tops h.arr (rpath g root s.2.2) ≤
        tops h.arr (rpath g root u) + tops h.arr (rpath g root v)) (by
    rintro m ⟨d, a, b⟩ ⟨d', a', b'⟩ ⟨i1, i2, i3⟩ hc hb
    simp only at i1 i2 i3
    obtain ⟨x1, r1, hc⟩ := bind_eq_ok.1 hc
    obtain ⟨x2, r2, hc⟩ := bind_eq_ok.1 hc
    obtain ⟨y1, s1, hb⟩ := bind_eq_ok.1 hb
    obtain ⟨y2, s2, hb⟩ := bind_eq_ok.1 hb
    obtain ⟨y3, s3, hb⟩ := bind_eq_ok.1 hb
    obtain ⟨y4, s4, hb⟩ := bind_eq_ok.1 hb
    obtain ⟨y5, s5, hb⟩ := bind_eq_ok.1 hb
    obtain ⟨_, -, hb⟩ := bind_eq_ok.1 hb
    obtain ⟨_, -, hb⟩ := bind_eq_ok.1 hb
    obtain ⟨_, -, hb⟩ := bind_eq_ok.1 hb
    obtain ⟨y6, s6, hb⟩ := bind_eq_ok.1 hb
    cases hb
    rw [r1] at s1; cases s1
    rw [r2] at s3; cases s3
    simp only [ok.injEq, decide_eq_true_eq] at hc
    obtain ⟨k1, k2, k3⟩ := round_tops T hr hgl H i1 i2 (idx_eq_ok.1 r1) (idx_eq_ok.1 s2)
      (idx_eq_ok.1 r2) (idx_eq_ok.1 s4) hc (idx_eq_ok.1 s5) (idx_eq_ok.1 s6)
    exact ⟨k1, k2, k3 _ _ i3⟩) _ 0 _ _ _ ⟨hu, hv, by simp⟩ e1
  simp only at g1 g2 g3
  have p1 := tops_pos T hr H g1
  have p2 := tops_pos T hr H g2
  exact tops_log T hr H hu hv (by omega)

theorem pathProdCost_le {M : MapOps S F} {u v : Nat} (hu : u < g.length) (hv : v < g.length)
    {o : HLD S F × S} {k : Nat} (he : h.pathProdCost M u v = ok (o, k)) :
    k ≤ 2 * Nat.log2 g.length := by
  unfold HLD.pathProdCost at he
  obtain ⟨⟨⟨d, res, u1, v1⟩, k1⟩, e1, he⟩ := bind_eq_ok.1 he
  obtain ⟨_, -, he⟩ := bind_eq_ok.1 he
  obtain ⟨_, -, he⟩ := bind_eq_ok.1 he
  obtain ⟨_, -, he⟩ := bind_eq_ok.1 he
  obtain ⟨_, -, he⟩ := bind_eq_ok.1 he
  obtain ⟨_, -, he⟩ := bind_eq_ok.1 he
  cases he
  obtain ⟨⟨g1, g2, g3⟩, -⟩ := whileCount_inv (σ := LazySegtree S F × S × Nat × Nat)
    (I := fun m s => s.2.2.1 < g.length ∧ s.2.2.2 < g.length ∧
      m + tops h.arr (rpath g root s.2.2.1) + tops h.arr (rpath g root s.2.2.2) ≤
        tops h.arr (rpath g root u) + tops h.arr (rpath g root v)) (by
    rintro m ⟨d, z, a, b⟩ ⟨d', z', a', b'⟩ ⟨i1, i2, i3⟩ hc hb
    simp only at i1 i2 i3
    obtain ⟨x1, r1, hc⟩ := bind_eq_ok.1 hc
    obtain ⟨x2, r2, hc⟩ := bind_eq_ok.1 hc
    obtain ⟨y1, s1, hb⟩ := bind_eq_ok.1 hb
    obtain ⟨y2, s2, hb⟩ := bind_eq_ok.1 hb
    obtain ⟨y3, s3, hb⟩ := bind_eq_ok.1 hb
    obtain ⟨y4, s4, hb⟩ := bind_eq_ok.1 hb
    obtain ⟨y5, s5, hb⟩ := bind_eq_ok.1 hb
    obtain ⟨_, -, hb⟩ := bind_eq_ok.1 hb
    obtain ⟨_, -, hb⟩ := bind_eq_ok.1 hb
    obtain ⟨_, -, hb⟩ := bind_eq_ok.1 hb
    obtain ⟨_, -, hb⟩ := bind_eq_ok.1 hb
    obtain ⟨y6, s6, hb⟩ := bind_eq_ok.1 hb
    cases hb
    rw [r1] at s1; cases s1
    rw [r2] at s3; cases s3
    simp only [ok.injEq, decide_eq_true_eq] at hc
    obtain ⟨k1, k2, k3⟩ := round_tops T hr hgl H i1 i2 (idx_eq_ok.1 r1) (idx_eq_ok.1 s2)
      (idx_eq_ok.1 r2) (idx_eq_ok.1 s4) hc (idx_eq_ok.1 s5) (idx_eq_ok.1 s6)
    exact ⟨k1, k2, k3 _ _ i3⟩) _ 0 _ _ _ ⟨hu, hv, by simp⟩ e1
  simp only at g1 g2 g3
  have p1 := tops_pos T hr H g1
  have p2 := tops_pos T hr H g2
  exact tops_log T hr H hu hv (by omega)

theorem applyPathCost_eq {M : MapOps S F} {u v : Nat} (hu : u < g.length) (hv : v < g.length) {f : F} {h' : HLD S F}
    {k : Nat} (he : h.applyPathCost M u v f = ok (h', k)) {p : List Nat} (hp : IsPath g u v p) :
    k + 1 = nheads h.arr p := by
  unfold HLD.applyPathCost at he
  obtain ⟨⟨⟨d, u1, v1⟩, k1⟩, e1, he⟩ := bind_eq_ok.1 he
  obtain ⟨_, -, he⟩ := bind_eq_ok.1 he
  obtain ⟨_, -, he⟩ := bind_eq_ok.1 he
  obtain ⟨_, -, he⟩ := bind_eq_ok.1 he
  obtain ⟨_, -, he⟩ := bind_eq_ok.1 he
  obtain ⟨_, -, he⟩ := bind_eq_ok.1 he
  cases he
  obtain ⟨⟨g1, g2, q, g3, g4⟩, g5⟩ := whileCount_inv (σ := LazySegtree S F × Nat × Nat)
    (I := fun m s => s.2.1 < g.length ∧ s.2.2 < g.length ∧
      ∃ q, IsPath g s.2.1 s.2.2 q ∧ nheads h.arr p = nheads h.arr q + m) (by
    rintro m ⟨d, a, b⟩ ⟨d', a', b'⟩ ⟨i1, i2, q, i3, i4⟩ hc hb
    simp only at i1 i2 i3 i4
    obtain ⟨x1, r1, hc⟩ := bind_eq_ok.1 hc
    obtain ⟨x2, r2, hc⟩ := bind_eq_ok.1 hc
    obtain ⟨y1, s1, hb⟩ := bind_eq_ok.1 hb
    obtain ⟨y2, s2, hb⟩ := bind_eq_ok.1 hb
    obtain ⟨y3, s3, hb⟩ := bind_eq_ok.1 hb
    obtain ⟨y4, s4, hb⟩ := bind_eq_ok.1 hb
    obtain ⟨y5, s5, hb⟩ := bind_eq_ok.1 hb
    obtain ⟨_, -, hb⟩ := bind_eq_ok.1 hb
    obtain ⟨_, -, hb⟩ := bind_eq_ok.1 hb
    obtain ⟨_, -, hb⟩ := bind_eq_ok.1 hb
    obtain ⟨y6, s6, hb⟩ := bind_eq_ok.1 hb
    cases hb
    rw [r1] at s1; cases s1
    rw [r2] at s3; cases s3
    simp only [ok.injEq, decide_eq_true_eq] at hc
    obtain ⟨k1, k2, q', k3, k4⟩ := round_heads T hr hgl H i1 i2 (idx_eq_ok.1 r1) (idx_eq_ok.1 s2)
      (idx_eq_ok.1 r2) (idx_eq_ok.1 s4) hc (idx_eq_ok.1 s5) (idx_eq_ok.1 s6) i3
    exact ⟨k1, k2, q', k3, by rw [i4, k4, Nat.add_assoc, Nat.add_comm 1]⟩) _ 0 _ _ _ ⟨hu, hv, p, hp, rfl⟩ e1
  simp only at g1 g2 g3 g4 g5
  rw [idx_of_some (H.headSome g1), ok_bind, idx_of_some (H.headSome g2), ok_bind] at g5
  have g6 : Hd h.arr u1 = Hd h.arr v1 := by simpa using g5
  rw [g4, one_head T hr H g1 g2 g6 g3]
  omega

theorem pathProdCost_eq {M : MapOps S F} {u v : Nat} (hu : u < g.length) (hv : v < g.length) {o : HLD S F × S}
    {k : Nat} (he : h.pathProdCost M u v = ok (o, k)) {p : List Nat} (hp : IsPath g u v p) :
    k + 1 = nheads h.arr p := by
  unfold HLD.pathProdCost at he
  obtain ⟨⟨⟨d, res, u1, v1⟩, k1⟩, e1, he⟩ := bind_eq_ok.1 he
  obtain ⟨_, -, he⟩ := bind_eq_ok.1 he
  obtain ⟨_, -, he⟩ := bind_eq_ok.1 he
  obtain ⟨_, -, he⟩ := bind_eq_ok.1 he
  obtain ⟨_, -, he⟩ := bind_eq_ok.1 he
  obtain ⟨_, -, he⟩ := bind_eq_ok.1 he
  cases he
  obtain ⟨⟨g1, g2, q, g3, g4⟩, g5⟩ := whileCount_inv (σ := LazySegtree S F × S × Nat × Nat)
    (I := fun m s => s.2.2.1 < g.length ∧ s.2.2.2 < g.length ∧
      ∃ q, IsPath g s.2.2.1 s.2.2.2 q ∧ nheads h.arr p = nheads h.arr q + m) (by
    rintro m ⟨d, z, a, b⟩ ⟨d', z', a', b'⟩ ⟨i1, i2, q, i3, i4⟩ hc hb
    simp only at i1 i2 i3 i4
    obtain ⟨x1, r1, hc⟩ := bind_eq_ok.1 hc
    obtain ⟨x2, r2, hc⟩ := bind_eq_ok.1 hc
    obtain ⟨y1, s1, hb⟩ := bind_eq_ok.1 hb
    obtain ⟨y2, s2, hb⟩ := bind_eq_ok.1 hb
    obtain ⟨y3, s3, hb⟩ := bind_eq_ok.1 hb
    obtain ⟨y4, s4, hb⟩ := bind_eq_ok.1 hb
    obtain ⟨y5, s5, hb⟩ := bind_eq_ok.1 hb
    obtain ⟨_, -, hb⟩ := bind_eq_ok.1 hb
    obtain ⟨_, -, hb⟩ := bind_eq_ok.1 hb
    obtain ⟨_, -, hb⟩ := bind_eq_ok.1 hb
    obtain ⟨_, -, hb⟩ := bind_eq_ok.1 hb
    obtain ⟨y6, s6, hb⟩ := bind_eq_ok.1 hb
    cases hb
    rw [r1] at s1; cases s1
    rw [r2] at s3; cases s3
    simp only [ok.injEq, decide_eq_true_eq] at hc
    obtain ⟨k1, k2, q', k3, k4⟩ := round_heads T hr hgl H i1 i2 (idx_eq_ok.1 r1) (idx_eq_ok.1 s2)
      (idx_eq_ok.1 r2) (idx_eq_ok.1 s4) hc (idx_eq_ok.1 s5) (idx_eq_ok.1 s6) i3
    exact ⟨k1, k2, q', k3, by rw [i4, k4, Nat.add_assoc, Nat.add_comm 1]⟩) _ 0 _ _ _ ⟨hu, hv, p, hp, rfl⟩ e1
  simp only at g1 g2 g3 g4 g5
  rw [idx_of_some (H.headSome g1), ok_bind, idx_of_some (H.headSome g2), ok_bind] at g5
  have g6 : Hd h.arr u1 = Hd h.arr v1 := by simpa using g5
  rw [g4, one_head T hr H g1 g2 g6 g3]
  omega

end
end Verif.HLDP
