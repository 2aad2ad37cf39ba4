import Verif.Proof.Depth
import Verif.Spec.Depth
import Verif.Prelude.GetD
/-! Inputs on which the recursive searches nest as deep as they can. -/
namespace Verif.DepthP
open Res Model Spec

/-- The limits that are enough are those from the first one. -/
theorem needs_of {α : Type} {run : Nat → Res α} (h : ∀ k, Dp (run k) (run (k + 1))) {k : Nat} (h1 : run k ≠ .diverge)
    (h2 : ∀ j, j + 1 = k → run j = .diverge) : NeedsDepth run k := by
  refine ⟨fun j hj => ⟨(dp_mono h hj).eq h1, h1⟩, fun j hj => ?_⟩
  obtain ⟨i, rfl⟩ : ∃ i, k = i + 1 := ⟨k - 1, by omega⟩
  by_contra hc
  have := (dp_mono h (show j ≤ i by omega)).eq hc
  exact hc (this ▸ h2 i rfl)

/-! ### Strongly connected components -/

theorem pathGraph_get {n i : Nat} (hi : i < n) :
    (pathGraph n)[i]? = some (if i + 1 < n then [i + 1] else []) := by simp [pathGraph, hi]

theorem scc_path_dfs {n : Nat} (hn : n < 2 ^ 31) (k : Nat) : ∀ (u : Nat) (s : SCC), u + k < n → s.pos = u →
    s.order.length = n → s.low.length = n → s.on_stack.length = n → (∀ j, u ≤ j → j < n → s.order[j]? = some (-1)) →
    SCC.dfs k u (pathGraph n) s = .diverge := by
  induction k with
  | zero => intros; rfl
  | succ k ih =>
    intro u s hu hp h1 h2 h3 h4
    unfold SCC.dfs
    rw [upd_of_lt (by omega), ok_bind, upd_of_lt (by omega), ok_bind, ckI_of (by unfold InI; omega), ok_bind,
      upd_of_lt (by omega), ok_bind, idx_of_some (pathGraph_get (by omega)), ok_bind, if_pos (by omega), forList_cons]
    have : (s.order.set u s.pos)[u + 1]? = some (-1) := by
      rw [List.getElem?_set_ne (by omega)]; exact h4 _ (by omega) (by omega)
    rw [idx_of_some this, ok_bind, if_pos rfl]
    rw [ih (u + 1) _ (by omega) (by simp [hp]) (by simpa using h1) (by simpa using h2) (by simpa using h3)]
    · rfl
    · intro j hj hjn
      rw [List.getElem?_set_ne (by omega)]; exact h4 _ (by omega) hjn

theorem scc_path {n k : Nat} (hn : n < 2 ^ 31) (hk : k < n) : sccDepth k (pathGraph n) = .diverge := by
  have hl : (pathGraph n).length = n := by simp [pathGraph]
  unfold sccDepth
  simp only [hl]
  have ho : ∀ j, j < n → (SCC.new n).order[j]? = some (-1) := fun j hj => by simp [SCC.new, hj]
  rw [forRange_succ (by omega), idx_of_some (ho 0 (by omega)), ok_bind, if_pos rfl,
    scc_path_dfs hn k 0 _ (by omega) rfl (by simp [SCC.new]) (by simp [SCC.new]) (by simp [SCC.new]) fun j _ hj => ho j hj]
  rfl

/-! ### Maximum flow -/

/-- The network after the first `i` calls of `add_edge`. -/
structure PathNet (n i : Nat) (d : Dinic) : Prop where
  dn : d.n = n
  h : d.h = List.replicate n (-1)
  cur : d.cur = List.replicate n 0
  el : d.e.length = 2 * i
  fwd : ∀ j, j < i → d.e[2 * j]? = some ⟨j + 1, 1⟩
  bwd : ∀ j, j < i → d.e[2 * j + 1]? = some ⟨j, 0⟩
  gl : d.g.length = n
  g : ∀ u, u < n → d.g[u]? = some ((if 1 ≤ u ∧ u ≤ i then [2 * u - 1] else []) ++ if u < i then [2 * u] else [])

theorem pathNetwork_sat {n : Nat} (hn : 1 ≤ n) : Sat (pathNetwork n) (PathNet n (n - 1)) := by
  unfold pathNetwork
  refine forRange_sat (PathNet n) (Nat.zero_le _) ⟨rfl, rfl, rfl, rfl, by simp, by simp, by simp [Dinic.new], ?_⟩ ?_
  · intro u hu
    have : ¬ (1 ≤ u ∧ u ≤ 0) := by omega
    rw [if_neg this]
    simp [Dinic.new, hu]
  · intro i d _ hi D
    unfold Dinic.addEdge
    have hg1 : d.g[i]? = _ := D.g i (by omega)
    rw [idx_of_some hg1, ok_bind, upd_of_lt (by rw [D.gl]; omega), ok_bind]
    have hg2 : (d.g.set i ((if 1 ≤ i ∧ i ≤ i then [2 * i - 1] else []) ++ (if i < i then [2 * i] else []) ++ [d.e.length]))[i + 1]? =
        some ((if 1 ≤ i + 1 ∧ i + 1 ≤ i then [2 * (i + 1) - 1] else []) ++ if i + 1 < i then [2 * (i + 1)] else []) := by
      rw [List.getElem?_set_ne (by omega)]; exact D.g (i + 1) (by omega)
    rw [idx_of_some hg2, ok_bind, upd_of_lt (by rw [List.length_set, D.gl]; omega), ok_bind, sat_ok]
    refine ⟨D.dn, D.h, D.cur, ?_, ?_, ?_, ?_, ?_⟩
    · simp [D.el]; omega
    · intro j hj
      by_cases hji : j < i
      · simp only [List.append_assoc]
        rw [List.getElem?_append_left (by rw [D.el]; omega)]; exact D.fwd j hji
      · obtain rfl : j = i := by omega
        simp [List.getElem?_append, D.el]
    · intro j hj
      by_cases hji : j < i
      · simp only [List.append_assoc]
        rw [List.getElem?_append_left (by rw [D.el]; omega)]; exact D.bwd j hji
      · obtain rfl : j = i := by omega
        simp [List.getElem?_append, D.el]
    · simp [D.gl]
    · intro u hu
      have hgu := D.g u hu
      by_cases h1 : u = i + 1
      · subst h1
        rw [List.getElem?_set_self (by simp [D.gl]; omega)]
        rw [if_neg (show ¬ (1 ≤ i + 1 ∧ i + 1 ≤ i) by omega), if_neg (show ¬ i + 1 < i by omega),
          if_pos (show 1 ≤ i + 1 ∧ i + 1 ≤ i + 1 by omega), if_neg (show ¬ i + 1 < i + 1 by omega)]
        simp [D.el]
        omega
      · rw [List.getElem?_set_ne (by omega)]
        by_cases h2 : u = i
        · subst h2
          rw [List.getElem?_set_self (by rw [D.gl]; omega)]
          have h3 : (1 ≤ u ∧ u ≤ u + 1) ↔ (1 ≤ u ∧ u ≤ u) := by omega
          simp [D.el, h3]
        · rw [List.getElem?_set_ne (by omega), hgu]
          have h3 : (1 ≤ u ∧ u ≤ i + 1) ↔ (1 ≤ u ∧ u ≤ i) := by omega
          have h4 : u < i + 1 ↔ u < i := by omega
          simp [h3, h4]

/-- Levels on the path up to `u`. -/
def PathLv (n u : Nat) (h : List Int) : Prop :=
  h.length = n ∧ ∀ j, j < n → h[j]? = some (if j ≤ u then (j : Int) else -1)

theorem ckI_nat {n : Nat} (hn : n < 2 ^ 31) (u : Nat) (hu : u < n) : ckI 32 ((u : Int) + 1) = ok ((u : Int) + 1) :=
  ckI_of (by unfold InI; omega)

/-- `ok_bind`, not used as a definitional step. -/
theorem okb {α β : Type} (a : α) (f : α → Res β) : (ok a >>= f) = f a := id rfl

theorem path_bfs {n : Nat} (hck : ∀ u : Nat, u < n → ckI 32 ((u : Int) + 1) = ok ((u : Int) + 1)) (h2 : 2 ≤ n) {d : Dinic} (D : PathNet n (n - 1) d) :
    Sat (d.bfs 0 (n - 1)) fun o => o.2 = true ∧ ∃ h, o.1 = { d with h := h } ∧ PathLv n (n - 1) h := by
  unfold Dinic.bfs
  simp only []
  rw [upd_of_lt (by rw [D.h]; simp; omega), ok_bind, sat_bind]
  refine (loop_satG (fun (o : List Int × List Nat) k => ∃ u, o.2 = [u] ∧ u < n - 1 ∧ k = n - u ∧ PathLv n u o.1)
    (fun (o : List Int × Bool) => o.2 = true ∧ PathLv n (n - 1) o.1) ?_ _ _ n ⟨0, rfl, by omega, rfl, ?_⟩
    (by rw [D.dn]; omega)).mono ?_
  · rintro ⟨h, q⟩ k ⟨u, rfl, hu, rfl, hl, hh⟩
    simp only at hl hh ⊢
    rw [idx_of_some (D.g u (by omega)), ok_bind]
    have hfin : ∀ (f : Nat → List Int × List Nat → Res (Ctl (List Int × List Nat) (List Int))),
        (1 ≤ u → f (2 * u - 1) (h, []) = ok (.next (h, []))) →
        forBrk ((if 1 ≤ u ∧ u ≤ n - 1 then [2 * u - 1] else []) ++ if u < n - 1 then [2 * u] else []) (h, []) f =
          forBrk [2 * u] (h, []) f := by
      intro f hf
      rw [if_pos hu]
      by_cases h1 : 1 ≤ u
      · rw [if_pos ⟨h1, by omega⟩, List.singleton_append, forBrk_cons, hf h1]; rfl
      · rw [if_neg (by omega), List.nil_append]
    rw [hfin]
    · rw [forBrk_cons, idx_of_some (D.fwd u hu), ok_bind]
      have hv : h[u + 1]? = some (-1) := by rw [hh _ (by omega), if_neg (by omega)]
      have hu' : h[u]? = some (u : Int) := by rw [hh _ (by omega), if_pos (by omega)]
      simp only [show (0 : Int) < 1 by omega, if_true, idx_of_some hv, idx_of_some hu', okb, decide_true]
      rw [hck u (by omega), ok_bind, upd_of_lt (by omega), ok_bind]
      have hlv : PathLv n (u + 1) (h.set (u + 1) ((u : Int) + 1)) := by
        refine ⟨by simpa using hl, fun j hj => ?_⟩
        by_cases hj1 : j = u + 1
        · subst hj1
          rw [List.getElem?_set_self (by omega), if_pos (Nat.le_refl _)]
          push_cast; rfl
        · rw [List.getElem?_set_ne (by omega), hh j hj]
          by_cases hju : j ≤ u
          · rw [if_pos hju, if_pos (by omega)]
          · rw [if_neg hju, if_neg (by omega)]
      by_cases ht : u + 1 = n - 1
      · rw [if_pos ht, ok_bind]
        exact (sat_ok _ _).2 ⟨rfl, ht ▸ hlv⟩
      · rw [if_neg ht, ok_bind]
        exact (sat_ok _ _).2 ⟨n - (u + 1), by omega, u + 1, rfl, by omega, rfl, hlv⟩
    · intro h1
      have hb := D.bwd (u - 1) (by omega)
      rw [show 2 * (u - 1) + 1 = 2 * u - 1 by omega] at hb
      rw [idx_of_some hb, ok_bind]
      simp
  · refine ⟨by simp [D.h], fun j hj => ?_⟩
    by_cases h0 : j = 0
    · subst h0; rw [List.getElem?_set_self (by simp [D.h]; omega), if_pos (Nat.zero_le _)]; rfl
    · rw [List.getElem?_set_ne (by omega), if_neg (by omega)]; simp [D.h, hj]
  · rintro ⟨h, b⟩ ⟨hb, hh⟩
    exact (sat_ok _ _).2 ⟨hb, h, rfl, hh⟩

theorem path_dfs (ty : IntTy) {n : Nat} (hck : ∀ u : Nat, u < n → ckI 32 ((u : Int) + 1) = ok ((u : Int) + 1)) {d0 : Dinic} (D : PathNet n (n - 1) d0) (k : Nat) :
    ∀ (u : Nat) (d : Dinic) (f : Int), u + k < n → d.e = d0.e → d.g = d0.g → PathLv n (n - 1) d.h → d.cur.length = n →
    (∀ j, u ≤ j → j < n → d.cur[j]? = some 0) → Dinic.dfs ty k d u (n - 1) f = .diverge := by
  induction k with
  | zero => intros; rfl
  | succ k ih =>
    intro u d f hu he hg hh hc hcur
    unfold Dinic.dfs
    have hgu : d.g[u]? = _ := hg ▸ D.g u (by omega)
    rw [if_neg (by omega), idx_of_some (hcur u (Nat.le_refl _) (by omega)), ok_bind, idx_of_some hgu, ok_bind]
    have hfw : d.e[2 * u]? = _ := he ▸ D.fwd u (by omega)
    have hv : d.h[u + 1]? = some ((u : Int) + 1) := by rw [hh.2 _ (by omega), if_pos (by omega)]; push_cast; rfl
    have hu' : d.h[u]? = some (u : Int) := by rw [hh.2 _ (by omega), if_pos (by omega)]
    have hck' := hck u (by omega)
    by_cases h1 : 1 ≤ u
    · have hb : d.e[2 * u - 1]? = some ⟨u - 1, 0⟩ := by
        rw [he]
        have hb := D.bwd (u - 1) (by omega)
        rwa [show 2 * (u - 1) + 1 = 2 * u - 1 by omega] at hb
      have hgu : d.g[u]? = some [2 * u - 1, 2 * u] := by
        rw [hgu, if_pos ⟨h1, by omega⟩, if_pos (by omega)]; rfl
      rw [if_pos ⟨h1, by omega⟩, if_pos (show u < n - 1 by omega)]
      simp only [List.cons_append, List.nil_append, List.length_cons, List.length_nil]
      unfold loop
      simp only [idx_of_some hgu, okb, List.length_cons, List.length_nil, Nat.zero_add, Nat.lt_add_one, if_true,
        Nat.zero_lt_succ, idx_of_some (show [2 * u - 1, 2 * u][0]? = some (2 * u - 1) from rfl), idx_of_some hb,
        Int.lt_irrefl, if_false, Bool.false_eq_true]
      rw [upd_of_lt (by omega), ok_bind]
      unfold loop
      simp only [idx_of_some hgu, okb, List.length_cons, List.length_nil, Nat.zero_add, Nat.lt_add_one, if_true,
        idx_of_some (show [2 * u - 1, 2 * u][1]? = some (2 * u) from rfl), idx_of_some hfw, show (0 : Int) < 1 by omega,
        idx_of_some hv, idx_of_some hu', hck', decide_true]
      rw [ih (u + 1) { d with cur := d.cur.set u 1 } _ (by omega) he hg hh (by simpa using hc) fun j hj hjn => by
        simp only; rw [List.getElem?_set_ne (by omega)]; exact hcur j (by omega) hjn]
      rfl
    · have hgu : d.g[u]? = some [2 * u] := by
        rw [hgu, if_neg (by omega), if_pos (by omega)]; rfl
      rw [if_neg (show ¬ (1 ≤ u ∧ u ≤ n - 1) by omega), if_pos (show u < n - 1 by omega)]
      simp only [List.nil_append, List.length_cons, List.length_nil]
      unfold loop
      simp only [idx_of_some hgu, okb, List.length_cons, List.length_nil, Nat.zero_add, Nat.lt_add_one, if_true,
        idx_of_some (show [2 * u][0]? = some (2 * u) from rfl), idx_of_some hfw, show (0 : Int) < 1 by omega,
        idx_of_some hv, idx_of_some hu', hck', decide_true]
      rw [ih (u + 1) d _ (by omega) he hg hh hc fun j hj hjn => hcur j (by omega) hjn]
      rfl

theorem flow_path (ty : IntTy) {n k : Nat} (hn : n < 2 ^ 31) (h2 : 2 ≤ n) (hk : k < n) {d : Dinic}
    (D : PathNet n (n - 1) d) : d.getMaxFlowDepth ty k 0 (n - 1) = .diverge := by
  unfold Dinic.getMaxFlowDepth
  rw [assert_true (by rw [D.dn]; omega), ok_bind, assert_true (by rw [D.dn]; omega), ok_bind]
  unfold loop
  obtain ⟨⟨d1, b⟩, e, hb, h, e1, hh⟩ := path_bfs (ckI_nat hn) h2 D
  simp only at hb e1
  subst hb e1
  simp only [e, okb, if_true]
  rw [path_dfs ty (ckI_nat hn) D k 0 { d with cur := List.replicate d.cur.length 0, h := h } _ (by omega) rfl rfl hh (by simp [D.cur]) fun j _ hj => by simp [D.cur, hj]]
  rfl

/-! ### Bipartite matching -/

/-- A loop that gets to a step that does not end. -/
theorem forRange_div {σ : Type} {f : Nat → σ → Res σ} (I : Nat → σ → Prop) {m hi : Nat} (hm : m < hi) :
    ∀ {lo : Nat} {s : σ}, lo ≤ m → I lo s → (∀ i s, lo ≤ i → i < m → I i s → Sat (f i s) (I (i + 1))) →
    (∀ s, I m s → f m s = .diverge) → forRange lo hi s f = .diverge := by
  intro lo s hle
  obtain ⟨c, hc⟩ : ∃ c, m = lo + c := ⟨m - lo, by omega⟩
  induction c generalizing lo s with
  | zero =>
    intro h0 _ hd
    obtain rfl : m = lo := by omega
    rw [forRange_succ (by omega), hd s h0]; rfl
  | succ c ih =>
    intro h0 hs hd
    rw [forRange_succ (by omega)]
    obtain ⟨s', e, h'⟩ := hs lo s (Nat.le_refl _) (by omega) h0
    rw [e, ok_bind]
    exact ih (by omega) (by omega) h' (fun i s h1 h2 => hs i s (by omega) h2) hd

/-- The adjacency list of left vertex `u`. -/
def chainAdj (n u : Nat) : List Nat := if u = n - 1 then [0] else if u + 1 < n - 1 then [u, u + 1] else [u]

structure ChainG (n : Nat) (t : AugmentedPath) : Prop where
  l : t.l = List.replicate n none
  r : t.r = List.replicate (n - 1) none
  vis : t.vis = List.replicate n false
  g : ∀ u, u < n → t.g[u]? = some (chainAdj n u)

theorem chainGraph_sat {n : Nat} (h2 : 2 ≤ n) : Sat (chainGraph n) (ChainG n) := by
  unfold chainGraph
  rw [sat_bind]
  refine (forRange_sat (fun i (t : AugmentedPath) => t.l = List.replicate n none ∧ t.r = List.replicate (n - 1) none ∧
    t.vis = List.replicate n false ∧ t.g.length = n ∧
    ∀ u, u < n → t.g[u]? = some (if u < i then chainAdj n u else [])) (Nat.zero_le _)
    ⟨rfl, rfl, rfl, by simp [AugmentedPath.new], ?_⟩ ?_).mono ?_
  · intro u hu
    simp [AugmentedPath.new, hu]
  · rintro i t - hi ⟨h1, h2, h3, h4, h5⟩
    have hg : t.g[i]? = some [] := by rw [h5 i (by omega), if_neg (by omega)]
    unfold AugmentedPath.addEdge
    rw [idx_of_some hg, ok_bind, upd_of_lt (by omega), ok_bind, ok_bind]
    by_cases hc : i + 1 < n - 1
    · rw [if_pos hc]
      simp only [List.nil_append]
      rw [idx_of_some (List.getElem?_set_self (by omega)), ok_bind, upd_of_lt (by simp; omega), ok_bind, sat_ok]
      refine ⟨h1, h2, h3, by simpa using h4, fun u hu => ?_⟩
      by_cases hui : u = i
      · subst hui
        rw [List.getElem?_set_self (by simp; omega), if_pos (by omega)]
        unfold chainAdj
        rw [if_neg (by omega), if_pos hc]; rfl
      · rw [List.getElem?_set_ne (by omega), List.getElem?_set_ne (by omega), h5 u hu]
        have : u < i + 1 ↔ u < i := by omega
        simp only [this]
    · rw [if_neg hc, sat_ok]
      refine ⟨h1, h2, h3, by simpa using h4, fun u hu => ?_⟩
      by_cases hui : u = i
      · subst hui
        simp only [List.nil_append]
        rw [List.getElem?_set_self (by omega), if_pos (by omega)]
        unfold chainAdj
        rw [if_neg (by omega), if_neg hc]
      · simp only
        rw [List.getElem?_set_ne (by omega), h5 u hu]
        have : u < i + 1 ↔ u < i := by omega
        simp only [this]
  · rintro t ⟨h1, h2, h3, h4, h5⟩
    have hg : t.g[n - 1]? = some [] := by rw [h5 _ (by omega), if_neg (by omega)]
    unfold AugmentedPath.addEdge
    rw [idx_of_some hg, ok_bind, upd_of_lt (by omega), ok_bind, sat_ok]
    refine ⟨h1, h2, h3, fun u hu => ?_⟩
    by_cases hui : u = n - 1
    · subst hui
      simp only [List.nil_append]
      rw [List.getElem?_set_self (by omega)]
      simp [chainAdj]
    · simp only
      rw [List.getElem?_set_ne (by omega), h5 u hu, if_pos (by omega)]

/-- All rights are matched, each to the left vertex of the same number. -/
def AllMatched (n : Nat) (s : BState) : Prop := ∀ j, j < n - 1 → s.r[j]? = some (some j)

theorem chain_free {n u : Nat} {gu : List Nat} (hgu : ∀ v ∈ gu, v < n - 1) {s : BState} (hs : AllMatched n s) :
    (forBrk gu () fun v () => do
      let rv ← idx s.r v
      if rv.isNone then do
        let l ← upd s.l u (some v)
        let r ← upd s.r v (some u)
        ok (.done ({ s with l := l, r := r } : BState))
      else ok (.next ()) : Res (Ctl Unit BState)) = ok (.next ()) := by
  induction gu with
  | nil => rfl
  | cons v gu ih =>
    rw [forBrk_cons, idx_of_some (hs v (hgu v (by simp))), ok_bind]
    simp only [Option.isNone_some, Bool.false_eq_true, if_false, ok_bind]
    exact ih fun w hw => hgu w (by simp [hw])

theorem chain_dfs {n : Nat} (h2 : 2 ≤ n) {g : List (List Nat)} (hg : ∀ u, u < n → g[u]? = some (chainAdj n u)) (k : Nat) :
    ∀ (i : Nat) (s : BState), i + k < n → i < n - 1 → AllMatched n s → s.vis.length = n →
    (∀ j, i ≤ j → j < n - 1 → s.vis[j]? = some false) → AugmentedPath.dfs k i g s = .diverge := by
  induction k with
  | zero => intros; rfl
  | succ k ih =>
    intro i s hk hi hs hl hv
    unfold AugmentedPath.dfs
    rw [idx_of_some (hv i (Nat.le_refl _) hi), ok_bind, if_neg (by simp), upd_of_lt (by omega), ok_bind]
    simp only []
    rw [idx_of_some (hg i (by omega)), ok_bind]
    have hadj : ∀ v ∈ chainAdj n i, v < n - 1 := by
      intro v hv
      unfold chainAdj at hv
      rw [if_neg (by omega)] at hv
      split at hv <;> simp at hv <;> omega
    rw [chain_free (s := { s with vis := s.vis.set i true }) hadj hs, ok_bind]
    simp only []
    obtain ⟨rest, hr, hr'⟩ : ∃ rest, chainAdj n i = i :: rest ∧ (i + 1 < n - 1 → rest = [i + 1]) := by
      unfold chainAdj
      rw [if_neg (by omega)]
      by_cases hc : i + 1 < n - 1
      · exact ⟨[i + 1], by rw [if_pos hc], fun _ => rfl⟩
      · exact ⟨[], by rw [if_neg hc], fun h => absurd h hc⟩
    rw [hr, forBrk_cons, idx_of_some (hs i hi), ok_bind, unwrap_some, ok_bind]
    cases k with
    | zero => rfl
    | succ k =>
      have hvis : (s.vis.set i true)[i]? = some true := List.getElem?_set_self (by omega)
      have e : AugmentedPath.dfs (k + 1) i g { s with vis := s.vis.set i true } =
          ok ({ s with vis := s.vis.set i true }, false) := by
        unfold AugmentedPath.dfs
        rw [idx_of_some hvis]; rfl
      rw [e, hr' (by omega), ok_bind]
      simp only [Bool.false_eq_true, if_false, ok_bind]
      rw [forBrk_cons, idx_of_some (hs (i + 1) (by omega)), ok_bind, unwrap_some, ok_bind,
        ih (i + 1) { s with vis := s.vis.set i true } (by omega) (by omega) hs (by simpa using hl)]
      · rfl
      · intro j h1 h3
        simp only
        rw [List.getElem?_set_ne (by omega)]; exact hv j (by omega) h3

/-- State of the first round after left vertices below `i`. -/
structure Round (n i : Nat) (s : BState) : Prop where
  ll : s.l.length = n
  rl : s.r.length = n - 1
  vl : s.vis.length = n
  l : ∀ j, j < n → s.l[j]? = some (if j < i ∧ j < n - 1 then some j else none)
  r : ∀ j, j < n - 1 → s.r[j]? = some (if j < i then some j else none)
  vis : ∀ j, j < n → s.vis[j]? = some (decide (j < i))

theorem chain_round {n : Nat} (h2 : 2 ≤ n) {g : List (List Nat)} (hg : ∀ u, u < n → g[u]? = some (chainAdj n u))
    {s : BState} (h0 : Round n 0 s) : Sat (AugmentedPath.phaseDepth n n g s) fun o => Round n n o.1 ∧ o.2 = true := by
  unfold AugmentedPath.phaseDepth
  refine (forRange_sat (fun i (o : BState × Bool) => Round n i o.1 ∧ (1 ≤ i → o.2 = true)) (Nat.zero_le _)
    ⟨⟨h0.ll, h0.rl, by simpa using h0.vl, h0.l, h0.r, fun j hj => ?_⟩, by omega⟩ ?_).mono
    fun o h => ⟨h.1, h.2 (by omega)⟩
  · simp [h0.vl, hj]
  · rintro i ⟨s, b⟩ - hi ⟨R, hb⟩
    simp only at R hb ⊢
    have hli : s.l[i]? = some none := by rw [R.l i hi, if_neg (by omega)]
    obtain ⟨m, rfl⟩ : ∃ m, n = m + 2 := ⟨n - 2, by omega⟩
    rw [idx_of_some hli, ok_bind]
    simp only [Option.isNone_none, if_true]
    have hvi : s.vis[i]? = some false := by rw [R.vis i hi]; simp
    rw [sat_bind]
    unfold AugmentedPath.dfs
    rw [idx_of_some hvi, ok_bind, if_neg (by simp), upd_of_lt (by rw [R.vl]; exact hi), ok_bind]
    simp only []
    rw [idx_of_some (hg i hi), ok_bind]
    have hv' : ∀ j, j < m + 2 → (s.vis.set i true)[j]? = some (decide (j < i + 1)) := by
      intro j hj
      by_cases hji : j = i
      · subst hji; rw [List.getElem?_set_self (by rw [R.vl]; omega)]; simp
      · rw [List.getElem?_set_ne (by omega), R.vis j hj]
        have : j < i + 1 ↔ j < i := by omega
        simp [this]
    by_cases hlast : i = m + 2 - 1
    · have ha : chainAdj (m + 2) i = [0] := by unfold chainAdj; rw [if_pos hlast]
      have hm : AllMatched (m + 2) { s with vis := s.vis.set i true } := by
        intro j hj; simp only; rw [R.r j hj, if_pos (by omega)]
      rw [chain_free (s := { s with vis := s.vis.set i true }) (by rw [ha]; simp) hm, ok_bind]
      simp only []
      rw [ha, forBrk_cons, idx_of_some (hm 0 (by omega)), ok_bind, unwrap_some, ok_bind]
      have hv0 : (s.vis.set i true)[0]? = some true := by rw [hv' 0 (by omega)]; simp
      have e : AugmentedPath.dfs (m + 1) 0 g { s with vis := s.vis.set i true } =
          ok ({ s with vis := s.vis.set i true }, false) := by
        unfold AugmentedPath.dfs
        rw [idx_of_some hv0]; rfl
      rw [e, ok_bind]
      simp only [Bool.false_eq_true, if_false, ok_bind, forBrk_nil, sat_ok, Bool.or_false]
      refine ⟨⟨R.ll, R.rl, by simpa using R.vl, fun j hj => ?_, fun j hj => ?_, hv'⟩, fun _ => hb (by omega)⟩
      · simp only
        rw [R.l j hj]
        have : (j < i + 1 ∧ j < m + 2 - 1) ↔ (j < i ∧ j < m + 2 - 1) := by omega
        simp only [this]
      · simp only
        rw [R.r j hj]
        have : j < i + 1 ↔ j < i := by omega
        simp only [this]
    · obtain ⟨rest, hr⟩ : ∃ rest, chainAdj (m + 2) i = i :: rest := by
        unfold chainAdj
        rw [if_neg hlast]
        split <;> exact ⟨_, rfl⟩
      have hri : s.r[i]? = some none := by rw [R.r i (by omega), if_neg (by omega)]
      rw [hr, forBrk_cons, idx_of_some hri, ok_bind]
      simp only [Option.isNone_none, if_true]
      rw [upd_of_lt (by rw [R.ll]; exact hi), ok_bind, upd_of_lt (by rw [R.rl]; omega), ok_bind, ok_bind]
      simp only [ok_bind, sat_ok, Bool.or_true]
      refine ⟨⟨by simpa using R.ll, by simpa using R.rl, by simpa using R.vl, fun j hj => ?_, fun j hj => ?_, hv'⟩, fun _ => trivial⟩
      · simp only
        by_cases hji : j = i
        · subst hji; rw [List.getElem?_set_self (by rw [R.ll]; exact hj), if_pos (by omega)]
        · rw [List.getElem?_set_ne (by omega), R.l j hj]
          have : (j < i + 1 ∧ j < m + 2 - 1) ↔ (j < i ∧ j < m + 2 - 1) := by omega
          simp only [this]
      · simp only
        by_cases hji : j = i
        · subst hji; rw [List.getElem?_set_self (by rw [R.rl]; exact hj), if_pos (by omega)]
        · rw [List.getElem?_set_ne (by omega), R.r j hj]
          have : j < i + 1 ↔ j < i := by omega
          simp only [this]

theorem chain_round2 {n : Nat} (h2 : 2 ≤ n) {g : List (List Nat)} (hg : ∀ u, u < n → g[u]? = some (chainAdj n u))
    {s : BState} (R : Round n n s) : AugmentedPath.phaseDepth n n g s = .diverge := by
  unfold AugmentedPath.phaseDepth
  have hm : AllMatched n { s with vis := List.replicate s.vis.length false } := by
    intro j hj; simp only; rw [R.r j hj, if_pos (by omega)]
  refine forRange_div (fun _ (o : BState × Bool) => o.1 = { s with vis := List.replicate s.vis.length false }) (m := n - 1)
    (by omega) (Nat.zero_le _) rfl ?_ ?_
  · rintro i ⟨s1, b⟩ - hi rfl
    simp only
    rw [idx_of_some (R.l i (by omega)), ok_bind, if_pos (show i < n ∧ i < n - 1 by omega)]
    simp
  · rintro ⟨s1, b⟩ rfl
    simp only
    rw [idx_of_some (R.l (n - 1) (by omega)), ok_bind, if_neg (show ¬ (n - 1 < n ∧ n - 1 < n - 1) by omega)]
    simp only [Option.isNone_none, if_true]
    obtain ⟨m, rfl⟩ : ∃ m, n = m + 2 := ⟨n - 2, by omega⟩
    conv => lhs; unfold AugmentedPath.dfs
    have hv : ∀ j, j < m + 2 → (List.replicate s.vis.length false)[j]? = some false := by
      intro j hj; simp [R.vl, hj]
    rw [idx_of_some (hv _ (by omega)), ok_bind, if_neg (by simp), upd_of_lt (by simp [R.vl]), ok_bind]
    simp only []
    have ha : chainAdj (m + 2) (m + 2 - 1) = [0] := by unfold chainAdj; rw [if_pos rfl]
    rw [idx_of_some (hg _ (by omega)), ok_bind, chain_free (n := m + 2)
      (s := { s with vis := (List.replicate s.vis.length false).set (m + 2 - 1) true }) (by rw [ha]; simp) hm, ok_bind]
    simp only []
    rw [ha, forBrk_cons, idx_of_some (hm 0 (by omega)), ok_bind, unwrap_some, ok_bind,
      chain_dfs h2 hg (m + 1) 0
        { s with vis := (List.replicate s.vis.length false).set (m + 2 - 1) true } (by omega) (by omega) hm (by simp [R.vl])]
    · rfl
    · intro j _ hj
      simp only
      rw [List.getElem?_set_ne (by omega)]
      exact hv j (by omega)

theorem solve_chain {n : Nat} (h2 : 2 ≤ n) {t : AugmentedPath} (G : ChainG n t) : t.solveDepth n = .diverge := by
  unfold AugmentedPath.solveDepth
  have hl : t.l.length = n := by simp [G.l]
  simp only [hl]
  obtain ⟨m, rfl⟩ : ∃ m, n = m + 2 := ⟨n - 2, by omega⟩
  have h0 : Round (m + 2) 0 { vis := t.vis, l := t.l, r := t.r } :=
    ⟨hl, by simp [G.r], by simp [G.vis], fun j hj => by simp [G.l, hj], fun j hj => by
      simp only [G.r]; rw [List.getElem?_replicate, if_pos hj, if_neg (by omega)], fun j hj => by simp [G.vis, hj]⟩
  obtain ⟨⟨s, b⟩, e, R, hb⟩ := chain_round h2 G.g h0
  simp only at R hb
  subst hb
  unfold loop
  rw [e, ok_bind]
  simp only [Bool.not_true, Bool.false_eq_true, if_false, ok_bind]
  unfold loop
  rw [chain_round2 h2 G.g R]
  rfl

end Verif.DepthP
