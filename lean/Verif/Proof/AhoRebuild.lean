import Verif.Proof.AhoFind
/-! `build` on an automaton that has been built before: the queue never empties. -/
namespace Verif.ACP
open Model Spec Res AhoCorasick

/-- A loop each of whose rounds succeeds without ending it runs for ever. -/
theorem loop_diverge {σ ρ : Type} {body : σ → Res (Ctl σ ρ)} (I : σ → Prop)
    (hstep : ∀ s, I s → Sat (body s) (fun c => ∃ s', c = .next s' ∧ I s')) :
    ∀ (fuel : Nat) (s : σ), I s → loop fuel s body = .diverge := by
  intro fuel
  induction fuel with
  | zero => intro s _; rfl
  | succ fuel ih =>
    intro s hs
    obtain ⟨c, e, s', rfl, hs'⟩ := hstep s hs
    unfold loop
    rw [e, ok_bind]
    exact ih s' hs'

/-- All links are in range, and from the nodes of `G` the letter `c` leads to nodes of `G`, not to the root. -/
structure Live (N c : Nat) (G : Nat → Prop) (ns : List ACNode) : Prop where
  row : ∀ k, k < ns.length → (nd ns k).next.length = N
  rng : ∀ k, k < ns.length → ∀ d, d < N → nx ns k d < ns.length
  bk : ∀ k, k < ns.length → (nd ns k).back < ns.length
  sub : ∀ k, G k → k < ns.length
  go : ∀ k, G k → nx ns k c ≠ 0 ∧ G (nx ns k c)

variable {N c : Nat} {G : Nat → Prop}

theorem nx_set {ns : List ACNode} {p k d : Nat} {a : ACNode} (h : p < ns.length) :
    nx (ns.set p a) k d = if k = p then a.next.getD d 0 else nx ns k d := by
  unfold nx
  rw [nd_set h]
  split <;> rfl

/-- Replacing a node by one with the same row. -/
theorem Live.same {ns : List ACNode} (h : Live N c G ns) {v : Nat} {a : ACNode} (hv : v < ns.length)
    (hn : a.next = (nd ns v).next) (hb : a.back < ns.length) : Live N c G (ns.set v a) := by
  have hx : ∀ k d, nx (ns.set v a) k d = nx ns k d := by
    intro k d
    rw [nx_set hv]
    split
    · next e => subst e; rw [hn]; rfl
    · rfl
  refine ⟨?_, ?_, ?_, ?_, ?_⟩
  · intro k hk
    rw [List.length_set] at hk
    rw [nd_set hv]
    split
    · rw [hn]; exact h.row v hv
    · exact h.row k hk
  · intro k hk d hd
    rw [List.length_set] at hk ⊢
    rw [hx]; exact h.rng k hk d hd
  · intro k hk
    rw [List.length_set] at hk ⊢
    rw [nd_set hv]
    split
    · exact hb
    · exact h.bk k hk
  · intro k hk; rw [List.length_set]; exact h.sub k hk
  · intro k hk; rw [hx]; exact h.go k hk

/-- Filling in a link that was not there. -/
theorem Live.fill {ns : List ACNode} (h : Live N c G ns) {u d f : Nat} (hu : u < ns.length) (hd : d < N)
    (hz : nx ns u d = 0) (hf : f < ns.length) :
    Live N c G (ns.set u { nd ns u with next := (nd ns u).next.set d f }) := by
  have hx : ∀ k e, nx (ns.set u { nd ns u with next := (nd ns u).next.set d f }) k e =
      if k = u ∧ e = d then f else nx ns k e := by
    intro k e
    rw [nx_set hu]
    split
    · next e' =>
      subst e'
      show ((nd ns k).next.set d f).getD e 0 = _
      rw [getD_set (by rw [h.row k hu]; exact hd)]
      simp only [true_and]; rfl
    · next e' => rw [if_neg (fun h => e' h.1)]
  refine ⟨?_, ?_, ?_, ?_, ?_⟩
  · intro k hk
    rw [List.length_set] at hk
    rw [nd_set hu]
    split
    · simp only [List.length_set]; exact h.row u hu
    · exact h.row k hk
  · intro k hk e he
    rw [List.length_set] at hk ⊢
    rw [hx]
    split
    · exact hf
    · exact h.rng k hk e he
  · intro k hk
    rw [List.length_set] at hk ⊢
    rw [nd_set hu]
    split
    · exact h.bk u hu
    · exact h.bk k hk
  · intro k hk; rw [List.length_set]; exact h.sub k hk
  · intro k hk
    rw [hx, if_neg]
    · exact h.go k hk
    · rintro ⟨rfl, rfl⟩
      exact (h.go k hk).1 hz

/-- One vertex of the queue. -/
theorem buildStep_live {ns : List ACNode} {q : List Nat} {u : Nat} (hc : c < N) (h : Live N c G ns) (hu : u < ns.length)
    (hq : ∀ x ∈ q, x < ns.length) :
    Sat (buildStep N u (ns, q)) (fun s => Live N c G s.1 ∧ (∀ x ∈ s.2, x < s.1.length) ∧ q ⊆ s.2 ∧
      (G u → ∃ x ∈ s.2, G x)) := by
  unfold buildStep
  refine (forRange_sat (σ := List ACNode × List Nat) (fun i s => Live N c G s.1 ∧ s.1.length = ns.length ∧
    (∀ x ∈ s.2, x < ns.length) ∧ q ⊆ s.2 ∧ (c < i → G u → ∃ x ∈ s.2, G x)) (Nat.zero_le N)
    ⟨h, rfl, hq, List.Subset.refl _, fun h => absurd h (by omega)⟩ ?_).mono ?_
  · rintro i ⟨ms, p⟩ - hi ⟨h1, h2, h3, h4, h5⟩
    simp only at h1 h2 h3 h4 h5 ⊢
    have hum : u < ms.length := by rw [h2]; exact hu
    have hbm := h1.bk u hum
    rw [idx_of_some (nd_some hum), ok_bind, getNext_eq hbm (by rw [h1.row _ hbm]; exact hi), ok_bind,
      getNext_eq hum (by rw [h1.row _ hum]; exact hi), ok_bind]
    have hf := h1.rng _ hbm i hi
    have hv := h1.rng _ hum i hi
    by_cases hz : nx ms u i = 0
    · rw [if_pos hz, setNext_eq hum (by rw [h1.row _ hum]; exact hi), ok_bind, sat_ok]
      refine ⟨h1.fill hum hi hz hf, by rw [List.length_set]; exact h2, h3, h4, fun hci hG => ?_⟩
      rcases Nat.lt_or_ge c i with hci' | hci'
      · exact h5 hci' hG
      · obtain rfl : c = i := by omega
        exact absurd hz (h1.go u hG).1
    · rw [if_neg hz, idx_of_some (nd_some hv), ok_bind, upd_of_lt hv, ok_bind]
      have g1 := h1.same (a := { nd ms (nx ms u i) with back := nx ms (nd ms u).back i }) hv rfl hf
      have hl : (ms.set (nx ms u i) { nd ms (nx ms u i) with back := nx ms (nd ms u).back i }).length = ms.length :=
        List.length_set
      rw [idx_of_some (nd_some (by rw [hl]; exact hf)), ok_bind, idx_of_some (nd_some (by rw [hl]; exact hv)), ok_bind,
        upd_of_lt (by rw [hl]; exact hv), ok_bind, sat_ok]
      refine ⟨g1.same (by rw [hl]; exact hv) rfl (g1.bk _ (by rw [hl]; exact hv)), by rw [List.length_set, hl]; exact h2,
        ?_, ?_, ?_⟩
      · intro x hx
        rcases List.mem_append.1 hx with hx | hx
        · exact h3 x hx
        · rw [List.mem_singleton] at hx; subst hx; rw [← h2]; exact hv
      · exact List.Subset.trans h4 (List.subset_append_left _ _)
      · intro hci hG
        rcases Nat.lt_or_ge c i with hci' | hci'
        · obtain ⟨x, hx, hg⟩ := h5 hci' hG
          exact ⟨x, List.mem_append_left _ hx, hg⟩
        · obtain rfl : c = i := by omega
          exact ⟨_, List.mem_append_right _ (List.mem_singleton.2 rfl), (h1.go u hG).2⟩
  · rintro ⟨ms, p⟩ ⟨h1, h2, h3, h4, h5⟩
    exact ⟨h1, fun x hx => by rw [h2]; exact h3 x hx, h4, h5 hc⟩

/-- `build` runs for ever, if the letter `c` leads from the root into `G`. -/
theorem buildFuel_live {a : AhoCorasick} (hc : c < N) (h : Live N c G a.nodes) (h0 : G 0) (fuel : Nat) :
    buildFuel fuel N a = .diverge := by
  have hpos := h.sub 0 h0
  obtain ⟨q, e, hq1, hq2⟩ := forRange_sat (f := fun i (q : List Nat) => do
      let v ← getNext a.nodes 0 i
      if v ≠ 0 then ok (q ++ [v]) else ok q)
    (fun i q => (∀ x ∈ q, x < a.nodes.length) ∧ (c < i → ∃ x ∈ q, G x)) (Nat.zero_le N) (s := [])
    ⟨by simp, fun h => absurd h (by omega)⟩ (by
      rintro i q - hi ⟨h1, h2⟩
      rw [getNext_eq hpos (by rw [h.row 0 hpos]; exact hi), ok_bind]
      by_cases hz : nx a.nodes 0 i = 0
      · simp only [hz, ne_eq, not_true_eq_false, if_false, sat_ok]
        refine ⟨h1, fun hci => ?_⟩
        rcases Nat.lt_or_ge c i with hci' | hci'
        · exact h2 hci'
        · obtain rfl : c = i := by omega
          exact absurd hz (h.go 0 h0).1
      · rw [if_pos hz, sat_ok]
        constructor
        · intro x hx
          rcases List.mem_append.1 hx with hx | hx
          · exact h1 x hx
          · rw [List.mem_singleton] at hx; subst hx; exact h.rng 0 hpos i hi
        · intro hci
          rcases Nat.lt_or_ge c i with hci' | hci'
          · obtain ⟨x, hx, hg⟩ := h2 hci'
            exact ⟨x, List.mem_append_left _ hx, hg⟩
          · obtain rfl : c = i := by omega
            exact ⟨_, List.mem_append_right _ (List.mem_singleton.2 rfl), (h.go 0 h0).2⟩)
  unfold buildFuel
  rw [e, ok_bind, loop_diverge (fun s : List ACNode × List Nat => Live N c G s.1 ∧ (∀ x ∈ s.2, x < s.1.length) ∧
    ∃ x ∈ s.2, G x) ?_ fuel (a.nodes, q) ⟨h, hq1, hq2 hc⟩]
  · rfl
  · rintro ⟨ns, q⟩ ⟨h1, h2, x, hx, hg⟩
    simp only at h1 h2 hx ⊢
    cases q with
    | nil => cases hx
    | cons u q =>
      simp only [sat_bind]
      refine (buildStep_live hc h1 (h2 u (List.mem_cons_self ..)) (fun y hy => h2 y (List.mem_cons_of_mem _ hy))).mono ?_
      rintro s ⟨g1, g2, g3, g4⟩
      rw [sat_ok]
      refine ⟨s, rfl, g1, g2, ?_⟩
      rcases List.mem_cons.1 hx with rfl | hx
      · exact g4 hg
      · exact ⟨x, g3 hx, hg⟩

/-- One more node. -/
theorem Live.push {ns : List ACNode} (h : Live N c G ns) (hpos : 0 < ns.length) : Live N c G (ns ++ [ACNode.new N]) := by
  have hl : (ns ++ [ACNode.new N]).length = ns.length + 1 := by simp
  have hnd : ∀ k, k < ns.length → nd (ns ++ [ACNode.new N]) k = nd ns k := by
    intro k hk
    unfold nd
    simp [List.getD_eq_getElem?_getD, List.getElem?_append_left hk]
  have hlast : nd (ns ++ [ACNode.new N]) ns.length = ACNode.new N := by
    unfold nd
    simp [List.getD_eq_getElem?_getD]
  refine ⟨?_, ?_, ?_, ?_, ?_⟩
  · intro k hk
    rcases Nat.lt_or_ge k ns.length with hk' | hk'
    · rw [hnd k hk']; exact h.row k hk'
    · obtain rfl : k = ns.length := by omega
      rw [hlast]; simp [ACNode.new]
  · intro k hk d hd
    rcases Nat.lt_or_ge k ns.length with hk' | hk'
    · have := h.rng k hk' d hd
      unfold nx at this ⊢
      rw [hnd k hk']; omega
    · obtain rfl : k = ns.length := by omega
      unfold nx
      rw [hlast]
      have : (ACNode.new N).next.getD d 0 = 0 := getD_replicate
      omega
  · intro k hk
    rcases Nat.lt_or_ge k ns.length with hk' | hk'
    · have := h.bk k hk'
      rw [hnd k hk']; omega
    · obtain rfl : k = ns.length := by omega
      rw [hlast]
      show 0 < _
      omega
  · intro k hk; have := h.sub k hk; omega
  · intro k hk
    have := h.go k hk
    unfold nx at this ⊢
    rw [hnd k (h.sub k hk)]
    exact this

/-- A row that gets the number of the node about to be pushed. -/
theorem Live.grow {ns : List ACNode} (h : Live N c G ns) {u d : Nat} (hu : u < ns.length) (hd : d < N)
    (hz : nx ns u d = 0) :
    Live N c G (ns.set u { nd ns u with next := (nd ns u).next.set d ns.length } ++ [ACNode.new N]) := by
  have h1 := h.push (by omega)
  have hu1 : u < (ns ++ [ACNode.new N]).length := by simp; omega
  have hnd : nd (ns ++ [ACNode.new N]) u = nd ns u := by
    unfold nd
    simp [List.getD_eq_getElem?_getD, List.getElem?_append_left hu]
  have h2 := h1.fill (u := u) (d := d) (f := ns.length) hu1 hd (by
    unfold nx at hz ⊢
    rw [hnd]; exact hz) (by simp)
  rw [hnd, List.set_append_left _ _ hu] at h2
  exact h2

/-- `insert` keeps what makes `build` run for ever. -/
theorem insert_live {off : Nat} {a : AhoCorasick} {s : List Nat} {i : Nat} (h : Live N c G a.nodes) (hpos : 0 < a.nodes.length)
    (hs : s ≠ []) (hs2 : InAlphabet off N s) :
    Sat (AhoCorasick.insert off N a s i) (fun b => Live N c G b.nodes ∧ 0 < b.nodes.length) := by
  unfold AhoCorasick.insert
  rw [assert_true hs, ok_bind, sat_bind]
  refine (forList_sat (σ := List ACNode × Nat) (fun _ t => Live N c G t.1 ∧ t.2 < t.1.length) s [] _ ⟨h, hpos⟩ ?_).mono ?_
  · rintro pre x r ⟨ns, p⟩ e ⟨h1, h2⟩
    simp only at h1 h2 ⊢
    have hx := hs2 x (by rw [List.nil_append] at e; rw [e]; simp)
    rw [subU_of_le hx.1, ok_bind, getNext_eq h2 (by rw [h1.row p h2]; omega), ok_bind]
    by_cases hz : nx ns p (x - off) = 0
    · rw [if_pos hz, setNext_eq h2 (by rw [h1.row p h2]; omega), ok_bind, ok_bind]
      have g := h1.grow h2 (d := x - off) (by omega) hz
      have hl : p < (ns.set p { nd ns p with next := (nd ns p).next.set (x - off) ns.length } ++ [ACNode.new N]).length := by
        simp; omega
      rw [getNext_eq hl (by rw [g.row p hl]; omega), ok_bind, sat_ok]
      exact ⟨g, g.rng p hl _ (by omega)⟩
    · rw [if_neg hz, ok_bind, getNext_eq h2 (by rw [h1.row p h2]; omega), ok_bind, sat_ok]
      exact ⟨h1, h1.rng p h2 _ (by omega)⟩
  · rintro ⟨ns, p⟩ ⟨h1, h2⟩
    simp only at h1 h2 ⊢
    rw [idx_of_some (nd_some h2), ok_bind, upd_of_lt h2, ok_bind, sat_ok]
    refine ⟨h1.same h2 rfl (h1.bk p h2), ?_⟩
    simp only [List.length_set]; omega

/-- A finished automaton with a pattern. -/
theorem Auto.live {off : Nat} {ns : List ACNode} {S : List (List Nat)} {E : List (List Nat × Nat)} (h : Auto off N ns S E)
    {d : Nat} {p : List Nat} (hS : ∀ w, w <+: d :: p → w ∈ S) :
    d - off < N ∧ Live N (d - off) (fun k => k < S.length) ns := by
  obtain ⟨_, hd1, hd2⟩ := h.wd.alpha [] d (by simpa using hS [d] (by simp))
  refine ⟨by omega, fun k hk => h.row k (by rw [← h.len]; exact hk), ?_, ?_, fun k hk => by rw [h.len]; exact hk, ?_⟩
  · intro k hk e he
    rw [h.len] at hk ⊢
    exact (h.full k hk e he).1
  · intro k hk
    rw [h.len] at hk ⊢
    exact h.bk k hk
  · intro k hk
    obtain ⟨h1, h2⟩ := h.full k hk (d - off) (by omega)
    refine ⟨fun hz => ?_, h1⟩
    rw [hz, h.wd.root, show off + (d - off) = d by omega] at h2
    have h3 := h2.max [d] (hS [d] (by simp)) ⟨_, rfl⟩
    simp at h3

/-- Without patterns there is nothing to do. -/
theorem build_new (N n : Nat) : AhoCorasick.build N (AhoCorasick.new N n) = ok (AhoCorasick.new N n) := by
  have hl : 0 < [ACNode.new N].length := by simp
  obtain ⟨q, e, rfl⟩ := forRange_sat (f := fun i (q : List Nat) => do
      let v ← getNext [ACNode.new N] 0 i
      if v ≠ 0 then ok (q ++ [v]) else ok q)
    (fun _ q => q = []) (Nat.zero_le N) (s := []) rfl (by
      rintro i q - hi rfl
      rw [getNext_eq hl (by simpa [nd, ACNode.new] using hi), ok_bind]
      have : nx [ACNode.new N] 0 i = 0 := getD_replicate
      rw [this]
      exact ⟨_, rfl, rfl⟩)
  unfold build buildFuel AhoCorasick.new
  simp only []
  rw [e, ok_bind]
  rfl

end Verif.ACP
