import Verif.Proof.DepthDeep
import Verif.Proof.HLDAny
/-! How deep the searches of binary lifting and heavy-light decomposition nest. -/
namespace Verif.DepthP
open Res Model Spec TreeP HLDP BLP

variable {g : List (List Nat)} {root : Nat}

theorem nrw_of_path {l : List Nat} {q u : Nat} (hc : (u :: l).IsChain (fun a b => b ∈ g.getD a [])) (hn : (u :: l).Nodup)
    (hq : q ∉ l) : NoReturnWalk g l.length q u := by
  induction l generalizing q u with
  | nil => trivial
  | cons v l ih =>
    rw [List.isChain_cons_cons] at hc
    rw [List.nodup_cons] at hn
    exact ⟨v, hc.1, fun h => hq (by simp [h]), ih hc.2 hn.2 fun h => hn.1 (by simp [h])⟩

/-- A walk as long as the longest path exists, a longer one does not. -/
theorem nrw_longest (S : IsSimpleGraph g) (hr : root < g.length) (hno : ¬ HasCycleAt g root) {k : Nat}
    (h : LongestFrom g root k) : 1 ≤ k ∧ NoReturnWalk g (k - 1) root root ∧ ¬ NoReturnWalk g k root root := by
  obtain ⟨⟨v, p, hp, rfl⟩, hmax⟩ := h
  obtain ⟨l, hl⟩ := List.head?_eq_some_iff.1 hp.head
  subst hl
  have hn := List.nodup_cons.1 hp.nodup
  refine ⟨by simp, by simpa using nrw_of_path hp.chain hp.nodup hn.1, fun hw => ?_⟩
  obtain ⟨l', h1, h2, h3, h4⟩ := nrw_list hw
  by_cases hd : (root :: l').Nodup
  · have := hmax ((root :: l').getLast (by simp)) (root :: l') ⟨rfl, List.getLast?_eq_some_getLast (by simp), h2, hd⟩
    simp only [List.length_cons] at this h1
    omega
  · refine hno ((nrw_component S hr).2 fun k => ?_)
    cases l' with
    | nil => simp at hd
    | cons v l' =>
      cases k with
      | zero => trivial
      | succ k =>
        exact ⟨v, (List.isChain_cons_cons.1 h2).1, h4 v rfl, nrw_of_repeat S.irrefl h2 h3 hd k⟩

theorem frep_nrw {u p : Nat} {l : List Nat} {f : Forest} (h : FRep g u p l f) (hl : ∀ v ∈ l, v ∈ g.getD u []) :
    NoReturnWalk g f.height p u := by
  induction h with
  | nil => trivial
  | skip _ ih => exact ih fun v hv => hl v (by simp [hv])
  | @child u p v l c s hne _ _ ih1 ih2 =>
    rw [Forest.height]
    rcases Nat.le_total (1 + c.height) s.height with h | h
    · rw [Nat.max_eq_right h]; exact ih2 fun w hw => hl w (by simp [hw])
    · rw [Nat.max_eq_left h, Nat.add_comm]
      exact ⟨v, hl v (by simp), hne, ih1 fun w hw => hw⟩

theorem path_le (S : IsSimpleGraph g) (hr : root < g.length) {v : Nat} {p : List Nat} (hp : IsPath g root v p) :
    p.length ≤ g.length := by
  obtain ⟨l, hl⟩ := List.head?_eq_some_iff.1 hp.head
  have hlt : ∀ x ∈ p, x < g.length := by
    intro x hx
    have hc := hp.chain
    rw [hl] at hc hx
    exact conn_lt S.inRange hr (chain_conn hc x hx)
  have := (List.subperm_of_subset hp.nodup (l₂ := List.range g.length) fun x hx => by simpa using hlt x hx).length_le
  simpa using this

theorem longest_le (S : IsSimpleGraph g) (hr : root < g.length) {k : Nat} (h : LongestFrom g root k) : k ≤ g.length := by
  obtain ⟨⟨v, p, hp, rfl⟩, -⟩ := h
  exact path_le S hr hp

theorem exists_longest (S : IsSimpleGraph g) (hr : root < g.length) : ∃ k, LongestFrom g root k := by
  have key : ∀ m k, (∃ v p, IsPath g root v p ∧ p.length = k) → g.length - k ≤ m → ∃ k, LongestFrom g root k := by
    intro m
    induction m with
    | zero =>
      intro k h hm
      exact ⟨k, h, fun v p hp => by have := path_le S hr hp; omega⟩
    | succ m ih =>
      intro k h hm
      by_cases hmax : ∀ v p, IsPath g root v p → p.length ≤ k
      · exact ⟨k, h, hmax⟩
      · simp only [not_forall, not_le] at hmax
        obtain ⟨v, p, hp, hlt⟩ := hmax
        exact ih p.length ⟨v, p, hp, rfl⟩ (by omega)
  exact key _ 1 ⟨root, [root], ⟨rfl, rfl, by simp, by simp⟩, rfl⟩ (Nat.le_refl _)

theorem lift_needs (S : IsSimpleGraph g) (hr : root < g.length) (hno : ¬ HasCycleAt g root) (hn : g.length < 2 ^ 64)
    {k : Nat} (h : LongestFrom g root k) :
    NeedsDepth (fun j => BinaryLifting.fromDepth j g root) k ∧ ∀ j, k ≤ j →
      BinaryLifting.fromDepth j g root = BinaryLifting.from g root := by
  obtain ⟨h1, h2, h3⟩ := nrw_longest S hr hno h
  obtain ⟨_, -, t, ht, -⟩ := from_component S hr hno hn
  have hle := longest_le S hr h
  have hfrom : BinaryLifting.from g root = BinaryLifting.fromDepth (g.length + (g.map List.length).sum + 2) g root := rfl
  have hnd : ∀ j, k ≤ j → BinaryLifting.fromDepth j g root ≠ .diverge := by
    intro j hj
    have hlg : lg g.length ≠ .diverge := by
      intro e
      unfold BinaryLifting.from at ht
      simp only [e, diverge_bind] at ht
      cases ht
    unfold BinaryLifting.fromDepth
    exact nd_bind hlg fun _ => nd_bind nd_addU fun _ => nd_bind (dfs_nd fun hw => h3 (nrw_le hj hw)) fun _ => nd_ok
  have heq : ∀ j, k ≤ j → BinaryLifting.fromDepth j g root = BinaryLifting.from g root := by
    intro j hj
    rw [hfrom, (dp_mono (lift_dp · g root) hj).eq (hnd k (Nat.le_refl _)),
      (dp_mono (lift_dp · g root) (show k ≤ g.length + (g.map List.length).sum + 2 by omega)).eq (hnd k (Nat.le_refl _))]
  refine ⟨needs_of (lift_dp · g root) (hnd k (Nat.le_refl _)) ?_, heq⟩
  rintro j rfl
  have hw : NoReturnWalk g j root root := by simpa using h2
  cases e : BinaryLifting.fromDepth j g root with
  | diverge => rfl
  | panic =>
    have := (dp_mono (lift_dp · g root) (Nat.le_succ j)).eq (by rw [e]; exact nd_panic)
    rw [heq _ (Nat.le_refl _), ht, e] at this
    cases this
  | ok r =>
    unfold BinaryLifting.fromDepth at e
    obtain ⟨_, -, e⟩ := bind_ok_inv e
    obtain ⟨_, -, e⟩ := bind_ok_inv e
    obtain ⟨_, e1, -⟩ := bind_ok_inv e
    exact absurd hw (dfs_ok_bounded e1)

variable {S' F : Type} [Monoid S'] {M : MapOps S' F}

theorem hld_new_sat (hM : LawfulMap M) (S : IsSimpleGraph g) (hr : root < g.length) (hno : ¬ HasCycleAt g root)
    (hgl : g.length < 2 ^ 32) {k : Nat} (hk : ¬ NoReturnWalk g k root root) :
    ∃ h, HLD.newDepth k M.ops g root = ok h := by
  have T := gplus_tree S hr hno
  have hl : (gplus g root).length = g.length := gplus_length
  have hroot : root < (gplus g root).length := by omega
  obtain ⟨f, h1, h2, h3, hnd, hlt, hm⟩ := component_forest S hr hno
  have h1' : FRep g root root (g.getD root []) f := by
    refine frep_congr h1 fun x hx => ?_
    rw [gplus_getD (hlt x hx), if_pos ((hm x).1 (List.mem_cons_of_mem _ hx)), if_neg]
    rintro rfl
    exact (List.nodup_cons.1 hnd).1 hx
  obtain ⟨j, rfl⟩ : ∃ j, k = j + 1 := by
    cases k with
    | zero => exact absurd trivial hk
    | succ j => exact ⟨j, rfl⟩
  have hj : f.height ≤ j := by
    by_contra hc
    exact hk (nrw_le (by omega) (frep_nrw h1' fun v hv => hv))
  have hb := built T hroot hl hgl h1' h2 hnd hlt hj _ rfl
  have : Sat (HLD.newDepth (j + 1) M.ops g root) fun _ => True := by
    unfold HLD.newDepth
    simp only []
    rw [assert_true hr, ok_bind, sat_bind]
    unfold LazySegtree.new
    rw [MapOps.ops_e, hM.e_eq]
    refine (LazyP.from_sat hM (a := List.replicate g.length 1) (by simpa using hgl)).mono ?_
    intro d hd
    rw [upd_of_lt (by simpa using hr), ok_bind]
    simp only [sat_bind] at hb ⊢
    refine hb.mono ?_
    rintro ⟨t, s⟩ h1
    refine h1.mono ?_
    rintro ⟨t2, s2⟩ -
    simp only [sat_ok]
  obtain ⟨h, e, -⟩ := this
  exact ⟨h, e⟩

theorem hld_needs (hM : LawfulMap M) (S : IsSimpleGraph g) (hr : root < g.length) (hno : ¬ HasCycleAt g root)
    (hgl : g.length < 2 ^ 32) {k : Nat} (h : LongestFrom g root k) :
    NeedsDepth (fun j => HLD.newDepth j M.ops g root) k ∧ ∀ j, k ≤ j →
      HLD.newDepth j M.ops g root = HLD.new M.ops g root := by
  obtain ⟨h1, h2, h3⟩ := nrw_longest S hr hno h
  have hle := longest_le S hr h
  have hok := fun j (hj : k ≤ j) => hld_new_sat (k := j) hM S hr hno hgl fun hw => h3 (nrw_le hj hw)
  have hnd : HLD.newDepth k M.ops g root ≠ .diverge := by
    obtain ⟨x, e⟩ := hok k (Nat.le_refl _)
    rw [e]; exact nd_ok
  have hnew : HLD.new M.ops g root = HLD.newDepth (g.length + 1) M.ops g root := rfl
  refine ⟨needs_of (hld_dp M.ops · g root) hnd ?_, fun j hj => ?_⟩
  · rintro j rfl
    have hw : NoReturnWalk g j root root := by simpa using h2
    cases e : HLD.newDepth j M.ops g root with
    | diverge => rfl
    | panic =>
      have := (dp_mono (hld_dp M.ops · g root) (Nat.le_succ j)).eq (by rw [e]; exact nd_panic)
      obtain ⟨x, e'⟩ := hok _ (Nat.le_refl _)
      rw [e', e] at this
      cases this
    | ok r =>
      unfold HLD.newDepth at e
      obtain ⟨_, -, e⟩ := bind_ok_inv e
      obtain ⟨_, -, e⟩ := bind_ok_inv e
      obtain ⟨p, e0, e⟩ := bind_ok_inv e
      obtain ⟨_, e1, -⟩ := bind_ok_inv e
      refine absurd hw (dfs1_ok S.irrefl (p := root) ?_ e1).1
      obtain ⟨h, rfl⟩ := upd_ok_inv e0
      exact List.getElem?_set_self h
  · rw [hnew, (dp_mono (hld_dp M.ops · g root) hj).eq hnd,
      (dp_mono (hld_dp M.ops · g root) (show k ≤ g.length + 1 by omega)).eq hnd]

end Verif.DepthP
