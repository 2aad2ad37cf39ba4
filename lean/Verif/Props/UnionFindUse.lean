import Verif.Props.UnionFind
import Verif.Proof.SpanningForest
/-! C111: programs that use union-find by joining the representatives: components, spanning forests, Kruskal's
algorithm. These programs are not part of `/repo`; they are the way to use `union_find.rs` on which C10 and C12 hold in
full. -/
namespace Verif.Props
open Res Model Spec UFP SForest

/-- `let a = uf.find(x); let b = uf.find(y); uf.join(a, b)`. -/
def joinRoots (u : UF) (x y : Nat) : Res (Bool × UF) := do
  let a ← u.find x
  let b ← a.2.find y
  b.2.join a.1 b.1

/-- Kruskal's loop: keep an edge when `join` answers `true`. -/
def kruskal (n : Nat) (es : List (Nat × Nat × Nat)) : Res (List (Nat × Nat × Nat) × UF) :=
  forList es ([], UF.new n) fun e s => do
    let r ← joinRoots s.2 e.1 e.2.1
    ok (if r.1 then s.1 ++ [e] else s.1, r.2)

variable {n : Nat} {es : List (Nat × Nat × Nat)} {u : UF} {x y : Nat}

/-- The state answers connectivity through `ps`, with right sizes. -/
structure UFRight (n : Nat) (ps : List (Nat × Nat)) (u : UF) : Prop where
  inv : UFP.Inv u
  len : u.n = n
  sz : SzOk u
  same : ∀ x y, x < n → y < n → (Same u x y ↔ Conn ps x y)

theorem right_new (n : Nat) : UFRight n [] (UF.new n) := by
  refine ⟨inv_new n, rfl, szOk_new n, fun x y hx hy => ?_⟩
  constructor
  · rintro ⟨r, h1, h2⟩
    rw [R_new h1, R_new h2]
    exact .refl _
  · intro h
    rcases same_of_conn (inv_new n) (ps := []) (by simp) h with rfl | h
    · exact Same.equiv_refl (inv_new n) hx
    · exact h

theorem UFRight.pres {ps : List (Nat × Nat)} (h : UFRight n ps u) {v : UF} (hp : Pres u v) : UFRight n ps v :=
  ⟨hp.inv, hp.n.trans h.len, hp.szOk h.sz, fun x y hx hy => (hp.same x y).symm.trans (h.same x y hx hy)⟩

theorem joinRoots_sat (hn : n < 2 ^ 63) {ps : List (Nat × Nat)} (h : UFRight n ps u) (hx : x < n) (hy : y < n) :
    Sat (joinRoots u x y) fun o => (o.1 = true ↔ ¬ Conn ps x y) ∧ UFRight n (ps ++ [(x, y)]) o.2 := by
  unfold joinRoots
  rw [sat_bind]
  refine (find_sat h.inv (by rw [h.len]; exact hx)).mono ?_
  rintro ⟨a, u1⟩ ⟨ra, p1⟩
  simp only at ra p1
  rw [sat_bind]
  refine (find_sat p1.inv (by rw [p1.n, h.len]; exact hy)).mono ?_
  rintro ⟨b, u2⟩ ⟨rb, p2⟩
  simp only at rb p2
  have H := (h.pres p1).pres p2
  have rx : R u2 x a := (p2.root _ _).1 ((p1.root _ _).1 ra)
  have ry : R u2 y b := (p2.root _ _).1 rb
  have raa := R.root rx
  have rbb := R.root ry
  obtain ⟨ca, na, ma, ea⟩ := H.sz a raa
  obtain ⟨cb, nb, mb, eb⟩ := H.sz b rbb
  have la := cls_le H.inv na ma
  have lb := cls_le H.inv nb mb
  rw [H.len] at la lb
  have hxy : Conn ps x y ↔ a = b := by
    rw [← H.same x y hx hy]
    constructor
    · rintro ⟨r, h1, h2⟩
      rw [rx.det h1, ry.det h2]
    · rintro rfl
      exact ⟨a, rx, ry⟩
  obtain ⟨o, e, -⟩ := join_sat H.inv raa rbb ea eb (fun _ => by omega)
  refine ⟨o, e, ?_⟩
  obtain ⟨b', v⟩ := o
  have same_ab : Same u2 a b ↔ a = b := by
    constructor
    · rintro ⟨r, h1, h2⟩
      rw [raa.det h1, rbb.det h2]
    · rintro rfl
      exact ⟨a, raa, raa⟩
  simp only [hxy]
  obtain ⟨-, -, ⟨hb, hs, hp⟩ | ⟨hb, hs, gx, gy, hl⟩⟩ := join_eq H.inv e
  · have hab := same_ab.1 hs
    refine ⟨by simp [hb, hab], hp.inv, hp.n.trans H.len, hp.szOk H.sz, fun i j hi hj => ?_⟩
    rw [← hp.same i j, H.same i j hi hj, conn_snoc]
    have hc : Conn ps x y := hxy.2 hab
    refine ⟨.inl, ?_⟩
    rintro (h | ⟨h1, h2⟩ | ⟨h1, h2⟩)
    · exact h
    · exact .trans _ _ _ h1 (.trans _ _ _ hc h2)
    · exact .trans _ _ _ h1 (.trans _ _ _ (.symm _ _ hc) h2)
  · have hab : a ≠ b := fun e => hs (same_ab.2 e)
    have e1 := hl.rx.det raa
    have e2 := hl.ry.det rbb
    subst e1 e2
    refine ⟨by simp [hb, hab], hl.inv, hl.n.trans H.len, hl.szOk H.inv H.sz, fun i j hi hj => ?_⟩
    obtain ⟨ri, hri⟩ := H.inv.root i (by rw [H.len]; exact hi)
    obtain ⟨rj, hrj⟩ := H.inv.root j (by rw [H.len]; exact hj)
    have root' : ∀ k r, R u2 k r → R v k (if r = gx then gy else r) := by
      intro k r hk
      by_cases hr : r = gx
      · rw [if_pos hr]
        subst hr
        exact hl.root rfl k hk
      · rw [if_neg hr]
        exact hl.other k r hk hr
    have hsame : ∀ k l rk rl, R u2 k rk → R u2 l rl → (Same u2 k l ↔ rk = rl) := by
      intro k l rk rl hk hl
      constructor
      · rintro ⟨r, h1, h2⟩
        rw [hk.det h1, hl.det h2]
      · rintro rfl
        exact ⟨rk, hk, hl⟩
    have hv : Same v i j ↔ (if ri = gx then gy else ri) = if rj = gx then gy else rj := by
      constructor
      · rintro ⟨r, h1, h2⟩
        rw [(root' i ri hri).det h1, (root' j rj hrj).det h2]
      · intro hr
        exact ⟨_, root' i ri hri, hr ▸ root' j rj hrj⟩
    rw [hv, conn_snoc, ← H.same i j hi hj, ← H.same i x hi hx, ← H.same y j hy hj, ← H.same i y hi hy,
      ← H.same x j hx hj, hsame i j _ _ hri hrj, hsame i x _ _ hri rx, hsame y j _ _ ry hrj, hsame i y _ _ hri ry,
      hsame x j _ _ rx hrj]
    split <;> split <;> omega

theorem kruskal_sat (hn : n < 2 ^ 63) (hr : ∀ e ∈ es, e.1 < n ∧ e.2.1 < n) :
    Sat (kruskal n es) fun o => Greedy es o.1 ∧ UFRight n (endsOf es) o.2 := by
  have := forList_sat (f := fun (e : Nat × Nat × Nat) (s : List (Nat × Nat × Nat) × UF) => do
      let r ← joinRoots s.2 e.1 e.2.1
      ok (if r.1 then s.1 ++ [e] else s.1, r.2))
    (fun d (s : List (Nat × Nat × Nat) × UF) => Greedy d s.1 ∧ UFRight n (endsOf d) s.2) es [] ([], UF.new n)
    ⟨.nil, right_new n⟩ (by
      rintro p e r ⟨k, u⟩ hp ⟨hg, hR⟩
      simp only at hg hR
      have he := hr e (by rw [List.nil_append] at hp; rw [hp]; simp)
      rw [sat_bind]
      refine (joinRoots_sat hn hR he.1 he.2).mono ?_
      rintro ⟨b, v⟩ ⟨hb, hv⟩
      simp only at hb hv
      rw [sat_ok]
      refine ⟨?_, by simpa [endsOf] using hv⟩
      cases b with
      | true => exact .take hg (hb.1 rfl)
      | false => exact .skip hg (Classical.not_not.1 fun hc => by simpa using hb.2 hc))
  simpa [kruskal] using this

/-- C111: joining the representatives, nothing panics; `is_same` is exactly connectivity through the given pairs, in
any order and number, and `size` the number of vertices connected to `x`. -/
theorem C111_components (hn : n < 2 ^ 63) (hr : ∀ e ∈ es, e.1 < n ∧ e.2.1 < n) :
    ∃ kept u, kruskal n es = ok (kept, u) ∧
      (∀ x y, x < n → y < n → (SameAns u x y true ↔ Conn (endsOf es) x y)) ∧
      ∀ x, x < n → ∃ k u', u.size x = ok (k, u') ∧ ∃ cls : List Nat, cls.Nodup ∧
        (∀ y, y ∈ cls ↔ y < n ∧ Conn (endsOf es) x y) ∧ k = cls.length := by
  obtain ⟨⟨kept, u⟩, e, -, H⟩ := kruskal_sat hn hr
  have hs : ∀ x y, x < n → y < n → (SameAns u x y true ↔ Conn (endsOf es) x y) := fun x y hx hy =>
    (sameAns_iff H.inv (by rw [H.len]; exact hx) (by rw [H.len]; exact hy)).trans (H.same x y hx hy)
  refine ⟨kept, u, e, hs, fun x hx => ?_⟩
  have hsz := (sizesRight_iff H.inv).2 H.sz
  rw [H.len] at hsz
  obtain ⟨k, u', e', cls, h1, h2, h3⟩ := hsz x hx
  refine ⟨k, u', e', cls, h1, fun y => ?_, h3⟩
  rw [h2]
  exact ⟨fun h => ⟨h.1, (hs x y hx h.1).1 h.2⟩, fun h => ⟨h.1, (hs x y hx h.1).2 h.2⟩⟩

/-- C111: after any edges, joining the representatives of `x` and `y` answers `true` exactly if they were not
connected, and connects them. -/
theorem C111_join (hn : n < 2 ^ 63) (hr : ∀ e ∈ es, e.1 < n ∧ e.2.1 < n) (hx : x < n) (hy : y < n)
    {kept : List (Nat × Nat × Nat)} (h : kruskal n es = ok (kept, u)) :
    ∃ b v, joinRoots u x y = ok (b, v) ∧ (b = true ↔ ¬ Conn (endsOf es) x y) ∧
      ∀ i j, i < n → j < n → (SameAns v i j true ↔ Conn (endsOf es ++ [(x, y)]) i j) := by
  obtain ⟨o, e, -, H⟩ := kruskal_sat hn hr
  rw [h] at e
  cases e
  obtain ⟨⟨b, v⟩, e', hb, hv⟩ := joinRoots_sat hn H hx hy
  exact ⟨b, v, e', hb, fun i j hi hj =>
    (sameAns_iff hv.inv (by rw [hv.len]; exact hi) (by rw [hv.len]; exact hj)).trans (hv.same i j hi hj)⟩

/-- C111: the kept edges are a spanning forest: they connect what all edges connect, without any one of them its ends
are not connected, and with `groups` they number the vertices. -/
theorem C111_forest (hn : n < 2 ^ 63) (hr : ∀ e ∈ es, e.1 < n ∧ e.2.1 < n) {kept : List (Nat × Nat × Nat)}
    (h : kruskal n es = ok (kept, u)) :
    kept.Sublist es ∧ (∀ x y, Conn (endsOf kept) x y ↔ Conn (endsOf es) x y) ∧
    (∀ p e q, kept = p ++ e :: q → ¬ Conn (endsOf (p ++ q)) e.1 e.2.1) ∧
    ∃ gs u', u.groups = ok (gs, u') ∧ gs.length + kept.length = n := by
  obtain ⟨o, e, hg, H⟩ := kruskal_sat hn hr
  rw [h] at e
  cases e
  simp only at hg H
  have hk : ∀ p ∈ endsOf kept, p.1 < n ∧ p.2 < n := by
    intro p hp
    obtain ⟨e, he, rfl⟩ := List.mem_map.1 hp
    exact hr e (hg.sublist.subset he)
  refine ⟨hg.sublist, fun x y => (hg.conn x y).symm, ?_, ?_⟩
  · rintro p e q rfl hc
    have := hg.indep.length_le (n := n) (B := endsOf (p ++ q)) hk
      (fun a ha => hk a (by simp only [endsOf, List.map_append, List.map_cons, List.mem_append, List.mem_cons] at ha ⊢; tauto))
      (by
        intro a ha
        simp only [endsOf, List.map_append, List.map_cons, List.mem_append, List.mem_cons] at ha
        rcases ha with ha | rfl | ha
        · exact .rel _ _ (by simp only [endsOf, List.map_append, List.mem_append]; exact .inl ha)
        · exact hc
        · exact .rel _ _ (by simp only [endsOf, List.map_append, List.mem_append]; exact .inr ha))
    simp [endsOf] at this
    omega
  · obtain ⟨⟨gs, u'⟩, eg, -, g1, g2, g3, g4, g5⟩ := groups_sat H.inv
    refine ⟨gs, u', eg, ?_⟩
    simp only [H.len] at g1 g2 g3 g4 g5
    have hcard := hg.indep.card hk
    have hl : leasts n (endsOf kept) = (gs.map fun g => g.headD 0).toFinset := by
      ext v
      rw [List.mem_toFinset, List.mem_map, mem_leasts]
      simp only [← hg.conn]
      constructor
      · rintro ⟨hv, hmin⟩
        obtain ⟨g, hgm, hvg⟩ := List.mem_flatten.1 ((g3 v).2 hv)
        refine ⟨g, hgm, ?_⟩
        obtain ⟨r, hr'⟩ := g5 g hgm
        cases g with
        | nil => cases hvg
        | cons a g =>
          rw [List.headD_cons]
          rcases List.mem_cons.1 hvg with e | hvg'
          · exact e.symm
          · have hlt := (List.pairwise_cons.1 (g4 _ hgm)).1 v hvg'
            exfalso
            refine hmin a hlt ((H.same a v (by omega) hv).1 ⟨r, (hr' a).1 (by simp), (hr' v).1 hvg⟩)
      · rintro ⟨g, hgm, rfl⟩
        obtain ⟨r, hr'⟩ := g5 g hgm
        have hne := g1 g hgm
        have hsort := g4 g hgm
        cases g with
        | nil => exact absurd rfl hne
        | cons a g =>
          rw [List.headD_cons]
          have han : a < n := (g3 a).1 (List.mem_flatten.2 ⟨_, hgm, by simp⟩)
          refine ⟨han, fun w hw hc => ?_⟩
          obtain ⟨r', h1, h2⟩ := (H.same w a (by omega) han).2 hc
          rw [h2.det ((hr' a).1 (by simp))] at h1
          rcases List.mem_cons.1 ((hr' w).2 h1) with e | hm
          · omega
          · have := (List.pairwise_cons.1 hsort).1 w hm
            omega
    have hnd : (gs.map fun g => g.headD 0).Nodup := by
      rw [List.nodup_flatten] at g2
      rw [List.Nodup, List.pairwise_map]
      refine (g2.2.imp_of_mem ?_)
      intro g g' hgm hgm' hd hh
      cases g with
      | nil => exact g1 _ hgm rfl
      | cons a g =>
        cases g' with
        | nil => exact g1 _ hgm' rfl
        | cons a' g' =>
          simp only [List.headD_cons] at hh
          subst hh
          exact hd (a := a) (by simp) (by simp)
    rw [hl, List.toFinset_card_of_nodup hnd, List.length_map, endsOf, List.length_map] at hcard
    exact hcard

/-- C111: Kruskal's algorithm. When the edges come in order of weight, the kept ones have the least weight of all
selections of edges that connect what all edges connect. -/
theorem C111_kruskal (hn : n < 2 ^ 63) (hr : ∀ e ∈ es, e.1 < n ∧ e.2.1 < n) (hs : es.Pairwise fun a b => a.2.2 ≤ b.2.2)
    {kept : List (Nat × Nat × Nat)} (h : kruskal n es = ok (kept, u)) {F : List (Nat × Nat × Nat)}
    (hF : ∀ e ∈ F, e ∈ es) (hc : ∀ x y, Conn (endsOf es) x y → Conn (endsOf F) x y) :
    (kept.map fun e => e.2.2).sum ≤ (F.map fun e => e.2.2).sum := by
  obtain ⟨o, e, hg, -⟩ := kruskal_sat hn hr
  rw [h] at e
  cases e
  exact hg.lightest hs hr hF fun e he => hc _ _ (.rel _ _ (List.mem_map.2 ⟨e, he, rfl⟩))

example : (∀ e ∈ [(0, 1, 1), (0, 2, 2), (1, 2, 3), (3, 4, 5), (2, 0, 7)], e.1 < 6 ∧ e.2.1 < 6) ∧
    ([(0, 1, 1), (0, 2, 2), (1, 2, 3), (3, 4, 5), (2, 0, 7)] : List (Nat × Nat × Nat)).Pairwise (fun a b => a.2.2 ≤ b.2.2) ∧
    (do let r ← kruskal 6 [(0, 1, 1), (0, 2, 2), (1, 2, 3), (3, 4, 5), (2, 0, 7)]
        let g ← r.2.groups
        let s ← r.2.size 1
        ok (r.1, g.1, s.1)) = ok ([(0, 1, 1), (0, 2, 2), (3, 4, 5)], [[0, 1, 2], [3, 4], [5]], 3) := by
  decide +kernel

/-- Without the representatives the same loop goes wrong (as in `C10_false`): the edge 1-2 is kept although it closes
a circle. -/
theorem C111_needs_roots : (forList [(0, 1), (0, 2), (1, 2)] (([], UF.new 3) : List (Nat × Nat) × UF) fun e s => do
    let r ← s.2.join e.1 e.2
    ok (if r.1 then s.1 ++ [e] else s.1, r.2)) >>= (fun r => ok r.1) = ok [(0, 1), (0, 2), (1, 2)] := by
  decide +kernel

end Verif.Props
