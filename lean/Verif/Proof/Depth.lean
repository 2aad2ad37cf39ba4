import Verif.Prelude.Depth
import Verif.Prelude.SatOr
import Verif.Prelude.NoDiv
import Verif.Model.Depth
import Mathlib.Order.Basic
/-! How deep the recursive searches nest. -/
namespace Verif.DepthP
open Res Model


/-! ### A higher limit changes nothing once a limit is enough -/

theorem scc_dfs_dp (k u : Nat) (g : List (List Nat)) (s : SCC) : Dp (SCC.dfs k u g s) (SCC.dfs (k + 1) u g s) := by
  induction k generalizing u s with
  | zero => exact dp_diverge
  | succ k ih =>
    unfold SCC.dfs
    refine dp_bind dp_refl fun _ => dp_bind dp_refl fun _ => dp_bind dp_refl fun _ => dp_bind dp_refl fun _ =>
      dp_bind dp_refl fun _ => dp_bind (dp_forList (fun v s => ?_) _ _) fun _ => dp_refl
    refine dp_bind dp_refl fun _ => dp_bind (dp_ite (fun _ => ih _ _) fun _ => dp_refl) fun _ => dp_refl

theorem lift_dfs_dp (k : Nat) (g : List (List Nat)) (u p : Nat) (t : BinaryLifting) (τ : Nat) :
    Dp (BinaryLifting.dfs k g u p t τ) (BinaryLifting.dfs (k + 1) g u p t τ) := by
  induction k generalizing u p t τ with
  | zero => exact dp_diverge
  | succ k ih =>
    unfold BinaryLifting.dfs
    refine dp_bind dp_refl fun _ => dp_bind dp_refl fun _ => dp_bind dp_refl fun _ => dp_bind dp_refl fun _ =>
      dp_bind dp_refl fun _ => dp_bind dp_refl fun _ => dp_bind dp_refl fun _ =>
      dp_bind (dp_forList (fun v s => ?_) _ _) fun _ => dp_refl
    refine dp_ite (fun _ => ?_) fun _ => dp_refl
    exact dp_bind dp_refl fun _ => dp_bind dp_refl fun _ => dp_bind dp_refl fun _ => ih _ _ _ _

theorem dfs1_dp (k : Nat) (g : List (List Nat)) (u : Nat) (t : HArr) :
    Dp (HArr.dfs1 k g u t) (HArr.dfs1 (k + 1) g u t) := by
  induction k generalizing u t with
  | zero => exact dp_diverge
  | succ k ih =>
    unfold HArr.dfs1
    refine dp_bind dp_refl fun _ => dp_bind (dp_forList (fun v s => ?_) _ _) fun _ => dp_refl
    refine dp_bind dp_refl fun _ => dp_ite (fun _ => ?_) fun _ => dp_refl
    exact dp_bind dp_refl fun _ => dp_bind dp_refl fun _ => dp_bind dp_refl fun _ => dp_bind dp_refl fun _ =>
      dp_bind (ih _ _) fun _ => dp_refl

theorem dfs2_dp (k : Nat) (g : List (List Nat)) (u hd : Nat) (t : HArr) (τ : Nat) :
    Dp (HArr.dfs2 k g u hd t τ) (HArr.dfs2 (k + 1) g u hd t τ) := by
  induction k generalizing u hd t τ with
  | zero => exact dp_diverge
  | succ k ih =>
    unfold HArr.dfs2
    refine dp_bind dp_refl fun _ => dp_bind dp_refl fun _ => dp_bind dp_refl fun _ => dp_bind dp_refl fun _ =>
      dp_bind (dp_ite (fun _ => dp_bind dp_refl fun _ => ih _ _ _ _) fun _ => dp_refl) fun _ =>
      dp_bind dp_refl fun _ => dp_bind (dp_forList (fun v s => ?_) _ _) fun _ => dp_refl
    refine dp_bind dp_refl fun _ => dp_ite (fun _ => ?_) fun _ => dp_refl
    exact dp_bind dp_refl fun _ => dp_ite (fun _ => ih _ _ _ _) fun _ => dp_refl

theorem match_dfs_dp (k u : Nat) (g : List (List Nat)) (s : BState) :
    Dp (AugmentedPath.dfs k u g s) (AugmentedPath.dfs (k + 1) u g s) := by
  induction k generalizing u s with
  | zero => exact dp_diverge
  | succ k ih =>
    unfold AugmentedPath.dfs
    refine dp_bind dp_refl fun _ => dp_ite (fun _ => dp_refl) fun _ => dp_bind dp_refl fun _ => dp_bind dp_refl fun _ =>
      dp_bind dp_refl fun c => ?_
    cases c with
    | done s => exact dp_refl
    | next s =>
      refine dp_bind (dp_forBrk (fun v s => ?_) _ _) fun _ => dp_refl
      exact dp_bind dp_refl fun _ => dp_bind dp_refl fun _ => dp_bind (ih _ _) fun _ => dp_refl

theorem flow_dfs_dp (ty : IntTy) (k : Nat) (d : Dinic) (u t : Nat) (f : Int) :
    Dp (Dinic.dfs ty k d u t f) (Dinic.dfs ty (k + 1) d u t f) := by
  induction k generalizing d u f with
  | zero => exact dp_diverge
  | succ k ih =>
    unfold Dinic.dfs
    refine dp_ite (fun _ => dp_refl) fun _ => dp_bind dp_refl fun _ => dp_bind dp_refl fun _ =>
      dp_bind (dp_loop (fun s => ?_) _ _) fun _ => dp_refl
    refine dp_bind dp_refl fun _ => dp_ite (fun _ => ?_) fun _ => dp_refl
    refine dp_bind dp_refl fun _ => dp_bind dp_refl fun _ => dp_bind dp_refl fun _ =>
      dp_bind (dp_ite (fun _ => ?_) fun _ => dp_refl) fun _ => dp_refl
    exact dp_bind (ih _ _ _) fun _ => dp_refl

theorem scc_dp (k : Nat) (g : List (List Nat)) : Dp (sccDepth k g) (sccDepth (k + 1) g) := by
  unfold sccDepth
  refine dp_bind (dp_forRange fun i s => ?_) fun _ => dp_refl
  exact dp_bind dp_refl fun _ => dp_ite (fun _ => scc_dfs_dp _ _ _ _) fun _ => dp_refl

theorem lift_dp (k : Nat) (g : List (List Nat)) (root : Nat) :
    Dp (BinaryLifting.fromDepth k g root) (BinaryLifting.fromDepth (k + 1) g root) := by
  unfold BinaryLifting.fromDepth
  exact dp_bind dp_refl fun _ => dp_bind dp_refl fun _ => dp_bind (lift_dfs_dp _ _ _ _ _ _) fun _ => dp_refl

theorem hld_dp {S F : Type} (M : MapMonoidOps S F) (k : Nat) (g : List (List Nat)) (root : Nat) :
    Dp (HLD.newDepth k M g root) (HLD.newDepth (k + 1) M g root) := by
  unfold HLD.newDepth
  exact dp_bind dp_refl fun _ => dp_bind dp_refl fun _ => dp_bind dp_refl fun _ =>
    dp_bind (dfs1_dp _ _ _ _) fun _ => dp_bind (dfs2_dp _ _ _ _ _ _) fun _ => dp_refl

theorem phase_dp (k n : Nat) (g : List (List Nat)) (s : BState) :
    Dp (AugmentedPath.phaseDepth k n g s) (AugmentedPath.phaseDepth (k + 1) n g s) := by
  unfold AugmentedPath.phaseDepth
  refine dp_forRange fun i s => ?_
  exact dp_bind dp_refl fun _ => dp_ite (fun _ => dp_bind (match_dfs_dp _ _ _ _) fun _ => dp_refl) fun _ => dp_refl

theorem solve_dp (k : Nat) (t : AugmentedPath) : Dp (AugmentedPath.solveDepth k t) (AugmentedPath.solveDepth (k + 1) t) := by
  unfold AugmentedPath.solveDepth
  exact dp_bind (dp_loop (fun s => dp_bind (phase_dp _ _ _ _) fun _ => dp_refl) _ _) fun _ => dp_refl

theorem flow_dp (ty : IntTy) (k : Nat) (d : Dinic) (s t : Nat) :
    Dp (Dinic.getMaxFlowDepth ty k d s t) (Dinic.getMaxFlowDepth ty (k + 1) d s t) := by
  unfold Dinic.getMaxFlowDepth
  refine dp_bind dp_refl fun _ => dp_bind dp_refl fun _ => dp_loop (fun s => ?_) _ _
  exact dp_bind dp_refl fun _ => dp_ite (fun _ => dp_bind (flow_dfs_dp _ _ _ _ _ _) fun _ => dp_refl) fun _ => dp_refl

/-! ### Strongly connected components -/

theorem so_ckI {x : Int} : SatOr True (ckI 32 x) fun y => y = x := by
  unfold ckI
  split
  · exact satOr_ok.2 rfl
  · exact satOr_panic trivial

theorem popLoop_so (s : SCC) (u : Nat) :
    SatOr True (SCC.popLoop s u) fun s' => s'.order = s.order ∧ s'.pos = s.pos := by
  unfold SCC.popLoop
  refine loop_satOrG (fun (t : SCC) k => t.stack.length = k ∧ t.order = s.order ∧ t.pos = s.pos) _ ?_ _ _ s.stack.length
    ⟨rfl, rfl, rfl⟩ (by omega)
  rintro t k ⟨h1, h2, h3⟩
  refine satOr_bind (so_unwrap.mono fun v hv => ?_)
  refine satOr_bind (so_upd.mono fun on hon => ?_)
  refine satOr_bind (so_unwrap.mono fun last hlast => ?_)
  split
  · exact satOr_ok.2 ⟨h2, h3⟩
  · refine satOr_ok.2 ⟨t.stack.length - 1, ?_, by simp, h2, h3⟩
    have : t.stack ≠ [] := by rintro e; rw [e] at hv; simp at hv
    have := List.length_pos_iff.2 this
    omega

theorem count_set_lt {l : List Int} {u : Nat} {x : Int} (hu : l[u]? = some (-1)) (hx : x ≠ -1) :
    (l.set u x).count (-1) + 1 = l.count (-1) := by
  obtain ⟨h, e⟩ := List.getElem?_eq_some_iff.1 hu
  rw [List.count_set h, e]
  have : 0 < l.count (-1) := List.count_pos_iff.2 (e ▸ List.getElem_mem h)
  simp [hx]
  omega

theorem scc_dfs_so (g : List (List Nat)) (k : Nat) : ∀ (u : Nat) (s : SCC), s.order.count (-1) ≤ k → 0 ≤ s.pos →
    s.order[u]? = some (-1) →
    SatOr True (SCC.dfs k u g s) fun s' => s'.order.count (-1) ≤ s.order.count (-1) ∧ 0 ≤ s'.pos := by
  induction k with
  | zero =>
    intro u s h0 _ hu
    have := List.count_pos_iff.2 (List.mem_of_getElem? hu)
    omega
  | succ k ih =>
    intro u s h0 hp hu
    unfold SCC.dfs
    refine satOr_bind (so_upd.mono ?_)
    rintro _ ⟨-, rfl⟩
    have hc := count_set_lt (x := s.pos) hu (by omega)
    refine satOr_bind (so_upd.mono fun low _ => ?_)
    refine satOr_bind (so_ckI.mono ?_)
    rintro _ rfl
    refine satOr_bind (so_upd.mono fun on _ => ?_)
    refine satOr_bind (so_idx.mono fun gu _ => ?_)
    refine satOr_bind ((forList_satOrR (fun _ (t : SCC) => t.order.count (-1) ≤ k ∧
      t.order.count (-1) ≤ s.order.count (-1) ∧ 0 ≤ t.pos) gu _
      ⟨by simp only; omega, by simp only; omega, by simp only; omega⟩ ?_).mono ?_)
    · rintro v _ t - ⟨h1, h2, h3⟩
      refine satOr_bind (so_idx.mono fun ov hov => ?_)
      have key : SatOr True (if ov = -1 then SCC.dfs k v g t else ok t : Res SCC) fun t =>
          t.order.count (-1) ≤ k ∧ t.order.count (-1) ≤ s.order.count (-1) ∧ 0 ≤ t.pos := by
        split
        · rename_i e
          exact (ih v t h1 h3 (e ▸ hov)).mono fun t' h => ⟨by omega, by omega, h.2⟩
        · exact satOr_ok.2 ⟨h1, h2, h3⟩
      refine satOr_bind (key.mono ?_)
      rintro t' ⟨h1, h2, h3⟩
      refine satOr_bind (so_idx.mono fun b _ => ?_)
      split
      · refine satOr_bind (so_idx.mono fun _ _ => satOr_bind (so_idx.mono fun _ _ => satOr_bind (so_upd.mono fun _ _ => ?_)))
        exact satOr_ok.2 ⟨h1, h2, h3⟩
      · exact satOr_ok.2 ⟨h1, h2, h3⟩
    · rintro t ⟨-, h2, h3⟩
      refine satOr_bind (so_idx.mono fun _ _ => satOr_bind (so_idx.mono fun _ _ => ?_))
      split
      · refine (popLoop_so _ u).mono ?_
        rintro t' ⟨e1, e2⟩
        exact ⟨by rw [e1]; exact h2, by rw [e2]; exact h3⟩
      · exact satOr_ok.2 ⟨h2, h3⟩

theorem scc_enough {g : List (List Nat)} {k : Nat} (hk : g.length ≤ k) : sccDepth k g ≠ .diverge := by
  unfold sccDepth
  refine satOr_nd' (b := True) (P := fun _ => True) (satOr_bind ?_)
  refine (forRange_satOr (fun _ (s : SCC) => s.order.count (-1) ≤ k ∧ 0 ≤ s.pos) (Nat.zero_le _) ?_ ?_).mono ?_
  · refine ⟨?_, Int.le_refl 0⟩
    refine Nat.le_trans List.count_le_length ?_
    simpa [SCC.new] using hk
  · rintro i s - - ⟨h1, h2⟩
    refine satOr_bind (so_idx.mono fun o ho => ?_)
    split
    · rename_i e
      exact (scc_dfs_so g k i s h1 h2 (e ▸ ho)).mono fun s' h => ⟨by omega, h.2⟩
    · exact satOr_ok.2 ⟨h1, h2⟩
  · intro s _
    have : SatOr True (forList s.component.zipIdx (List.replicate g.length 0) fun (v, i) color =>
        forList v color fun x color => upd color x i) fun _ => True :=
      forList_satOrR (fun _ _ => True) _ _ trivial fun vi _ c _ _ =>
        forList_satOrR (fun _ _ => True) _ _ trivial fun x _ c _ _ => so_upd.mono fun _ _ => trivial
    exact satOr_bind (this.mono fun _ _ => satOr_ok.2 trivial)

/-! ### Bipartite matching -/

theorem count_set_false {l : List Bool} {u : Nat} (hu : l[u]? = some false) :
    (l.set u true).count false + 1 = l.count false := by
  obtain ⟨h, e⟩ := List.getElem?_eq_some_iff.1 hu
  rw [List.count_set h, e]
  have : 0 < l.count false := List.count_pos_iff.2 (e ▸ List.getElem_mem h)
  simp
  omega

theorem match_dfs_so (g : List (List Nat)) (k : Nat) : ∀ (u : Nat) (s : BState), s.vis.count false < k →
    SatOr True (AugmentedPath.dfs k u g s) fun o =>
      o.1.vis.count false ≤ s.vis.count false ∧ o.1.vis.length = s.vis.length := by
  induction k with
  | zero => intro u s h; omega
  | succ k ih =>
    intro u s h0
    unfold AugmentedPath.dfs
    refine satOr_bind (so_idx.mono fun b hb => ?_)
    cases b with
    | true => rw [if_pos rfl]; exact satOr_ok.2 ⟨Nat.le_refl _, rfl⟩
    | false =>
      rw [if_neg (by simp)]
      refine satOr_bind (so_upd.mono ?_)
      rintro _ ⟨-, rfl⟩
      have hc := count_set_false hb
      refine satOr_bind (so_idx.mono fun gu _ => ?_)
      refine satOr_bind ((forBrk_satOr (fun _ _ => True) (fun (t : BState) => t.vis = s.vis.set u true) gu () trivial ?_).mono ?_)
      · rintro v _ _ - -
        refine satOr_bind (so_idx.mono fun rv _ => ?_)
        split
        · exact satOr_bind (so_upd.mono fun _ _ => satOr_bind (so_upd.mono fun _ _ => satOr_ok.2 rfl))
        · exact satOr_ok.2 trivial
      · rintro (_ | t) h
        · refine satOr_bind ((forBrk_satOr (fun _ (t : BState) => t.vis.count false + 1 ≤ s.vis.count false ∧ t.vis.length = s.vis.length)
            (fun (t : BState) => t.vis.count false ≤ s.vis.count false ∧ t.vis.length = s.vis.length) gu _ ⟨by simp only; omega, by simp⟩ ?_).mono ?_)
          · rintro v _ t - ⟨h1, h2⟩
            refine satOr_bind (so_idx.mono fun rv _ => satOr_bind (so_unwrap.mono fun w _ => ?_))
            refine satOr_bind ((ih w t (by omega)).mono ?_)
            rintro ⟨t', b⟩ ⟨h3, h4⟩
            simp only at h3 h4 ⊢
            split
            · refine satOr_bind (so_upd.mono fun _ _ => satOr_bind (so_upd.mono fun _ _ => satOr_ok.2 ?_))
              exact ⟨by simp only; omega, by simp only; omega⟩
            · exact satOr_ok.2 ⟨by omega, by omega⟩
          · rintro (t | t) ⟨h1, h2⟩
            · exact satOr_ok.2 ⟨by simp only; omega, h2⟩
            · exact satOr_ok.2 ⟨by simp only; omega, h2⟩
        · have h : t.vis = s.vis.set u true := h
          exact satOr_ok.2 ⟨by simp only [h]; omega, by simp [h]⟩

theorem phase_so {k n : Nat} {g : List (List Nat)} {s : BState} (hs : s.vis.length < k) :
    SatOr True (AugmentedPath.phaseDepth k n g s) fun o => o.1.vis.length = s.vis.length := by
  unfold AugmentedPath.phaseDepth
  refine (forRange_satOr (fun _ (o : BState × Bool) => o.1.vis.count false < k ∧ o.1.vis.length = s.vis.length)
    (Nat.zero_le _) ?_ ?_).mono fun o h => h.2
  · simpa using hs
  · rintro i ⟨t, found⟩ - - ⟨h1, h2⟩
    simp only at h1 h2 ⊢
    refine satOr_bind (so_idx.mono fun li _ => ?_)
    split
    · refine satOr_bind ((match_dfs_so g k i t h1).mono ?_)
      rintro ⟨t', b⟩ ⟨h3, h4⟩
      exact satOr_ok.2 ⟨by simp only at h3 ⊢; omega, by simp only at h4 ⊢; omega⟩
    · exact satOr_ok.2 ⟨h1, h2⟩

theorem solve_enough {t : AugmentedPath} {k : Nat} (ht : t.vis.length = t.l.length) (hk : t.l.length < k) :
    AugmentedPath.solveDepth k t = t.solve := by
  have key : ∀ s : BState, s.vis.length = t.l.length →
      AugmentedPath.phaseDepth k t.l.length t.g s = AugmentedPath.phase t.l.length t.g s := by
    intro s hs
    exact (dp_mono (phase_dp · t.l.length t.g s) (k := t.l.length + 1) hk).eq (satOr_nd' (phase_so (by omega)))
  unfold AugmentedPath.solveDepth AugmentedPath.solve
  refine congrArg (· >>= _) (loop_congr (fun s : BState => s.vis.length = t.l.length) ?_ ?_ _ _ ht)
  · intro s hs; rw [key s hs]
  · intro s s' hs h
    obtain ⟨⟨s1, b⟩, e, h⟩ := bind_ok_inv h
    rcases phase_so (k := k) (n := t.l.length) (g := t.g) (s := s) (by omega) with ⟨a, e', h'⟩ | ⟨-, e'⟩
    · rw [e] at e'
      cases e'
      simp only at h h'
      cases b with
      | true => simp at h; subst h; omega
      | false => simp at h
    · rw [e] at e'; cases e'

/-! ### Maximum flow -/

theorem so_ck {ty : IntTy} {x : Int} : SatOr True (ty.ck x) fun y => y = x := by
  unfold IntTy.ck
  split
  · exact satOr_ok.2 rfl
  · exact satOr_panic trivial

theorem flow_dfs_so (ty : IntTy) {N : Nat} (k : Nat) : ∀ (d : Dinic) (u t : Nat) (f hu : Int),
    (∀ x ∈ d.h, x < N) → d.h[u]? = some hu → (N : Int) ≤ hu + k →
    SatOr True (Dinic.dfs ty k d u t f) fun o => o.1.h = d.h ∧ o.1.g = d.g ∧ o.1.n = d.n ∧ o.1.cur.length = d.cur.length := by
  induction k with
  | zero =>
    intro d u t f hu hN hu' hk
    have := hN hu (List.mem_of_getElem? hu')
    omega
  | succ k ih =>
    intro d u t f hu hN hu' hk
    unfold Dinic.dfs
    split
    · exact satOr_ok.2 ⟨rfl, rfl, rfl, rfl⟩
    refine satOr_bind (so_idx.mono fun i0 _ => satOr_bind (so_idx.mono fun gu0 hgu0 => ?_))
    refine satOr_bind ((loop_satOrG (fun (o : Dinic × Int × Nat) m => m = gu0.length - o.2.2 ∧ o.1.h = d.h ∧ o.1.g = d.g ∧
      o.1.n = d.n ∧ o.1.cur.length = d.cur.length)
      (fun (o : Dinic × Int) => o.1.h = d.h ∧ o.1.g = d.g ∧ o.1.n = d.n ∧ o.1.cur.length = d.cur.length) ?_ _ _ (gu0.length - i0)
      ⟨rfl, rfl, rfl, rfl, rfl⟩ (by omega)).mono ?_)
    · rintro ⟨d1, r, i⟩ m ⟨hm, h1, h2, h3, h4⟩
      simp only at hm h1 h2 h3 h4 ⊢
      rw [h2, idx_of_some hgu0, ok_bind]
      split
      rotate_left
      · exact satOr_ok.2 ⟨h1, h2, h3, h4⟩
      rename_i hi
      refine satOr_bind (so_idx.mono fun j _ => satOr_bind (so_idx.mono fun e _ => ?_))
      have key : SatOr True (if 0 < e.cap then do
            let hv ← idx d1.h e.to
            let hu ← idx d1.h u
            let hu1 ← ckI 32 (hu + 1)
            ok (decide (hv = hu1))
          else ok false : Res Bool) fun b => b = true → d1.h[e.to]? = some (hu + 1) := by
        split
        · refine satOr_bind (so_idx.mono fun hv hv' => satOr_bind (so_idx.mono fun hu2 hu2' => satOr_bind (so_ckI.mono ?_)))
          rintro _ rfl
          rw [h1, hu'] at hu2'
          cases hu2'
          refine satOr_ok.2 fun h => ?_
          rw [hv', of_decide_eq_true h]
        · exact satOr_ok.2 (by simp)
      refine satOr_bind (key.mono fun go hgo => ?_)
      refine satOr_bind (r := (if go = true then _ else _)) (SatOr.mono (P := fun (o : Dinic × Int × Bool) =>
        o.1.h = d.h ∧ o.1.g = d.g ∧ o.1.n = d.n ∧ o.1.cur.length = d.cur.length) ?_ ?_)
      · split
        · rename_i hgt
          refine satOr_bind ((ih d1 e.to t (min r e.cap) (hu + 1) (by rw [h1]; exact hN) (hgo hgt) (by push_cast at hk; omega)).mono ?_)
          rintro ⟨d2, a⟩ ⟨k1, k2, k3, k4⟩
          simp only at k1 k2 k3 k4 ⊢
          refine satOr_bind (so_idx.mono fun _ _ => satOr_bind (so_ck.mono fun _ _ => satOr_bind (so_upd.mono fun _ _ =>
            satOr_bind (so_idx.mono fun _ _ => satOr_bind (so_ck.mono fun _ _ => satOr_bind (so_upd.mono fun _ _ =>
            satOr_bind (so_ck.mono fun _ _ => satOr_ok.2 ?_)))))))
          exact ⟨k1.trans h1, k2.trans h2, k3.trans h3, k4.trans h4⟩
        · exact satOr_ok.2 ⟨h1, h2, h3, h4⟩
      · rintro ⟨d2, r2, brk⟩ ⟨k1, k2, k3, k4⟩
        simp only at k1 k2 k3 k4 ⊢
        split
        · exact satOr_ok.2 ⟨k1, k2, k3, k4⟩
        · refine satOr_bind (so_upd.mono ?_)
          rintro _ ⟨-, rfl⟩
          exact satOr_ok.2 ⟨gu0.length - (i + 1), by omega, rfl, k1, k2, k3, by simpa using k4⟩
    · rintro ⟨d1, r⟩ h
      exact satOr_bind (so_ck.mono fun _ _ => satOr_ok.2 h)

theorem post_of_so {α : Type} {r : Res α} {P : α → Prop} (h : SatOr True r P) : Post r P := by
  rintro a rfl
  exact satOr_ok.1 h

/-- Levels set by a search from `s`: at least `-1`, below the number of vertices that have one, and set at `s`. -/
def Lv (s : Nat) (h : List Int) : Prop :=
  (∀ x ∈ h, -1 ≤ x ∧ x < h.countP (fun y => decide (y ≠ -1))) ∧ ∃ x, h[s]? = some x ∧ 0 ≤ x

theorem Lv.set {s u v : Nat} {h : List Int} {hu : Int} (L : Lv s h) (hu' : h[u]? = some hu) (hv : h[v]? = some (-1)) :
    Lv s (h.set v (hu + 1)) := by
  obtain ⟨h1, x, h2, h3⟩ := L
  have hb := h1 hu (List.mem_of_getElem? hu')
  obtain ⟨hvl, hve⟩ := List.getElem?_eq_some_iff.1 hv
  have hc : (h.set v (hu + 1)).countP (fun y => decide (y ≠ -1)) = h.countP (fun y => decide (y ≠ -1)) + 1 := by
    rw [List.countP_set hvl, hve]
    have : hu + 1 ≠ -1 := by omega
    simp [this]
  refine ⟨fun y hy => ?_, ?_⟩
  · rw [hc]
    rcases List.mem_or_eq_of_mem_set hy with hy | rfl
    · have := h1 y hy; push_cast; omega
    · push_cast; omega
  · have : v ≠ s := by rintro rfl; rw [hv] at h2; cases h2; omega
    exact ⟨x, by rw [List.getElem?_set_ne this]; exact h2, h3⟩

theorem bfs_post (d : Dinic) (s t : Nat) : Post (d.bfs s t) fun o => o.1.n = d.n ∧ o.1.h.length = d.h.length ∧ Lv s o.1.h := by
  unfold Dinic.bfs
  refine post_bind (post_upd.mono ?_)
  rintro _ ⟨hs, rfl⟩
  have h0 : Lv s ((List.replicate d.h.length (-1)).set s 0) := by
    have hc : ((List.replicate d.h.length (-1 : Int)).set s 0).countP (fun y => decide (y ≠ -1)) = 1 := by
      rw [List.countP_set hs]
      simp [List.countP_replicate]
    refine ⟨fun y hy => ?_, 0, by rw [List.getElem?_set_self hs], Int.le_refl 0⟩
    rw [hc]
    rcases List.mem_or_eq_of_mem_set hy with hy | rfl
    · rw [List.eq_of_mem_replicate hy]; simp
    · simp
  have hl : ((List.replicate d.h.length (-1 : Int)).set s 0).length = d.h.length := by simp
  generalize (List.replicate d.h.length (-1 : Int)).set s 0 = h at h0 hl
  refine post_bind (Post.mono (post_loop (I := fun (o : List Int × List Nat) => o.1.length = d.h.length ∧ Lv s o.1)
    (Q := fun (o : List Int × Bool) => o.1.length = d.h.length ∧ Lv s o.1) ⟨hl, h0⟩ ?_) ?_)
  · rintro ⟨h, q⟩ ⟨k1, k2⟩
    simp only at k1 k2 ⊢
    cases q with
    | nil => exact post_ok ⟨k1, k2⟩
    | cons u q =>
      refine post_bind (post_idx.mono fun gu _ => ?_)
      refine post_bind (Post.mono (post_forBrk (I := fun _ (o : List Int × List Nat) => o.1.length = d.h.length ∧ Lv s o.1)
        (Q := fun (o : List Int) => o.length = d.h.length ∧ Lv s o) ⟨k1, k2⟩ ?_) ?_)
      · rintro i _ ⟨h, q⟩ ⟨k1, k2⟩
        simp only at k1 k2 ⊢
        refine post_bind (post_idx.mono fun e _ => ?_)
        refine post_bind (x := (if 0 < e.cap then _ else _)) (Post.mono (P := fun b => b = true → h[e.to]? = some (-1)) ?_ fun c hc => ?_)
        · split
          · refine post_bind (post_idx.mono fun hv hv' => post_ok fun h => ?_)
            rw [hv', of_decide_eq_true h]
          · exact post_ok (by simp)
        split
        · rename_i hct
          refine post_bind (post_idx.mono fun hu hu' => post_bind ((post_of_so so_ckI).mono ?_))
          rintro _ rfl
          refine post_bind (post_upd.mono ?_)
          rintro _ ⟨-, rfl⟩
          have := k2.set hu' (hc hct)
          split
          · exact post_ok ⟨by simpa using k1, this⟩
          · exact post_ok ⟨by simpa using k1, this⟩
        · exact post_ok ⟨k1, k2⟩
      · rintro (⟨h, q⟩ | h) hh
        · exact post_ok hh
        · exact post_ok hh
  · rintro ⟨h, b⟩ hh
    exact post_ok ⟨rfl, hh⟩

theorem flow_step (ty : IntTy) {d : Dinic} {s t : Nat} : ∀ (d1 d2 : Dinic) (b : Bool) (j : Nat), d1.h.length = d.n → d1.n = d.n →
    d1.bfs s t = ok (d2, b) → d.n ≤ j →
      SatOr True (Dinic.dfs ty j { d2 with cur := List.replicate d2.cur.length 0 } s t ty.mx) fun o =>
        o.1.h.length = d.n ∧ o.1.n = d.n := by
  intro d1 d2 b j h1 h2 e hj
  obtain ⟨k1, k2, k3, x, k4, k5⟩ := bfs_post d1 s t _ e
  simp only at k1 k2 k3 k4
  refine (flow_dfs_so ty (N := d.n) j { d2 with cur := List.replicate d2.cur.length 0 } s t ty.mx x (fun y hy => ?_) k4 (by omega)).mono ?_
  · have := (k3 y hy).2
    have h : List.countP (fun y => decide (y ≠ -1)) d2.h ≤ d2.h.length := List.countP_le_length
    omega
  · rintro o ⟨j1, -, j3, -⟩
    exact ⟨by rw [j1]; simp only; omega, by rw [j3]; simp only; omega⟩

theorem flow_enough (ty : IntTy) {d : Dinic} {s t k : Nat} (hd : d.h.length = d.n) (hk : d.n ≤ k) :
    d.getMaxFlowDepth ty k s t = d.getMaxFlow ty s t := by
  unfold Dinic.getMaxFlowDepth Dinic.getMaxFlow
  refine bind_congr_of fun _ _ => bind_congr_of fun _ _ => ?_
  have hso := flow_step ty (d := d) (s := s) (t := t)
  refine loop_congr (fun (o : Dinic × Int) => o.1.h.length = d.n ∧ o.1.n = d.n) ?_ ?_ _ _ ⟨hd, rfl⟩
  · rintro ⟨d1, a⟩ ⟨h1, h2⟩
    refine bind_congr_of ?_
    rintro ⟨d2, b⟩ e
    cases b with
    | false => rfl
    | true =>
      simp only [if_true]
      have hn : d2.n = d.n := by have := (bfs_post d1 s t _ e).1; simp only at this h2; omega
      have e1 := (dp_mono (flow_dfs_dp ty · { d2 with cur := List.replicate d2.cur.length 0 } s t ty.mx) hk).eq
        (satOr_nd' (hso d1 d2 _ _ h1 h2 e (Nat.le_refl _)))
      have e2 := (dp_mono (flow_dfs_dp ty · { d2 with cur := List.replicate d2.cur.length 0 } s t ty.mx) (Nat.le_succ d.n)).eq
        (satOr_nd' (hso d1 d2 _ _ h1 h2 e (Nat.le_refl _)))
      rw [e1, ← e2, hn]
  · rintro ⟨d1, a⟩ ⟨d3, a'⟩ ⟨h1, h2⟩ h
    obtain ⟨⟨d2, b⟩, e, h⟩ := bind_ok_inv h
    cases b with
    | false => simp at h
    | true =>
      simp only [if_true] at h
      obtain ⟨⟨d4, a4⟩, e4, h⟩ := bind_ok_inv h
      obtain ⟨a5, -, h⟩ := bind_ok_inv h
      cases h
      exact post_of_so (hso d1 d2 _ _ h1 h2 e hk) (d4, a4) e4

/-- `get_max_flow` keeps the number of vertices and of levels. -/
theorem flow_post (ty : IntTy) {d : Dinic} {s t : Nat} (hd : d.h.length = d.n) :
    Post (d.getMaxFlow ty s t) fun o => o.1.h.length = o.1.n := by
  unfold Dinic.getMaxFlow
  refine post_bind (post_assert.mono fun _ _ => post_bind (post_assert.mono fun _ _ => ?_))
  refine (post_loop (I := fun (o : Dinic × Int) => o.1.h.length = d.n ∧ o.1.n = d.n)
    (Q := fun (o : Dinic × Int) => o.1.h.length = d.n ∧ o.1.n = d.n) ⟨hd, rfl⟩ ?_).mono fun o h => h.1.trans h.2.symm
  rintro ⟨d1, a⟩ ⟨h1, h2⟩
  simp only at h1 h2 ⊢
  refine post_bind (Post.mono post_eq ?_)
  rintro ⟨d2, b⟩ e
  obtain ⟨k1, k2, -⟩ := bfs_post d1 s t _ e
  simp only at k1 k2 ⊢
  split
  · refine post_bind (Post.mono (post_of_so (flow_step ty (d := d) d1 d2 b (d2.n + 1) h1 h2 e (by omega))) ?_)
    rintro ⟨d3, a3⟩ h3
    exact post_bind fun _ _ => post_ok h3
  · exact post_ok ⟨by simp only; omega, by simp only; omega⟩

/-- A search for an augmenting path keeps the lengths. -/
theorem match_dfs_post (g : List (List Nat)) (k : Nat) : ∀ (u : Nat) (s : BState),
    Post (AugmentedPath.dfs k u g s) fun o => o.1.vis.length = s.vis.length ∧ o.1.l.length = s.l.length := by
  induction k with
  | zero => intro u s o e; cases e
  | succ k ih =>
    intro u s
    unfold AugmentedPath.dfs
    refine post_bind (post_idx.mono fun b _ => ?_)
    split
    · exact post_ok ⟨rfl, rfl⟩
    refine post_bind (post_upd.mono ?_)
    rintro _ ⟨-, rfl⟩
    refine post_bind (post_idx.mono fun gu _ => ?_)
    refine post_bind (Post.mono (post_forBrk (I := fun _ _ => True)
      (Q := fun (t : BState) => t.vis.length = s.vis.length ∧ t.l.length = s.l.length) trivial ?_) ?_)
    · rintro v _ _ -
      refine post_bind (post_idx.mono fun rv _ => ?_)
      split
      · refine post_bind (post_upd.mono ?_)
        rintro _ ⟨-, rfl⟩
        exact post_bind (post_upd.mono fun _ _ => post_ok ⟨by simp, by simp⟩)
      · exact post_ok trivial
    · rintro (_ | t) h
      · refine post_bind (Post.mono (post_forBrk (I := fun _ (t : BState) => t.vis.length = s.vis.length ∧ t.l.length = s.l.length)
          (Q := fun (t : BState) => t.vis.length = s.vis.length ∧ t.l.length = s.l.length) ⟨by simp, rfl⟩ ?_) ?_)
        · rintro v _ t ⟨h1, h2⟩
          refine post_bind (post_idx.mono fun rv _ => post_bind fun w _ => ?_)
          refine post_bind ((ih w t).mono ?_)
          rintro ⟨t', b⟩ ⟨h3, h4⟩
          simp only at h3 h4 ⊢
          split
          · refine post_bind (post_upd.mono ?_)
            rintro _ ⟨-, rfl⟩
            exact post_bind (post_upd.mono fun _ _ => post_ok ⟨by simp only; omega, by simp; omega⟩)
          · exact post_ok ⟨by omega, by omega⟩
        · rintro (t | t) h
          · exact post_ok h
          · exact post_ok h
      · exact post_ok h

/-- `solve` keeps the lengths. -/
theorem solve_post {t : AugmentedPath} (ht : t.vis.length = t.l.length) :
    Post t.solve fun o => o.1.vis.length = o.1.l.length := by
  unfold AugmentedPath.solve
  refine post_bind (Post.mono (post_loop (I := fun (s : BState) => s.vis.length = s.l.length)
    (Q := fun (s : BState) => s.vis.length = s.l.length) ht ?_) ?_)
  · intro s hs
    refine post_bind (Post.mono (P := fun (o : BState × Bool) => o.1.vis.length = o.1.l.length) ?_ ?_)
    · unfold AugmentedPath.phase
      refine post_forRange (I := fun (o : BState × Bool) => o.1.vis.length = o.1.l.length) (by simpa using hs) ?_
      rintro i ⟨s, found⟩ h
      simp only at h ⊢
      refine post_bind (post_idx.mono fun li _ => ?_)
      split
      · refine post_bind ((match_dfs_post _ _ i s).mono ?_)
        rintro ⟨s', b⟩ ⟨h1, h2⟩
        exact post_ok (by simp only at h1 h2 ⊢; omega)
      · exact post_ok h
    · rintro ⟨s', b⟩ h
      simp only at h ⊢
      split
      · exact post_ok h
      · exact post_ok h
  · intro s h
    exact post_bind fun _ _ => post_ok h

end Verif.DepthP
