import Verif.Proof.ReleaseWrap
import Verif.Proof.Dinic
/-! Maximum flow in a release build. -/
namespace Verif.ReleaseP
open Res Model Spec FlowP DinicP Finset Relation

variable {N : List NEdge} {ty : IntTy}

theorem Rls.sat {α : Type} {x y : Res α} {P : α → Prop} (h : Rls x y) (hx : Sat x P) : Sat y P := by
  obtain ⟨a, e, ha⟩ := hx
  exact ⟨a, h.run e, ha⟩

theorem release_loop_sat {d0 : Dinic} {s t : Nat} (h0 : St N d0)
    (hini : ∀ j, j < 2 * N.length → cp d0 j = cap0 N j) (hfit : Fits ty N)
    (hmx : 0 < ty.mx) (hn : d0.n < 2 ^ 31) (hs : s < d0.n) (ht : t < d0.n) :
    Sat (Release.Dinic.getMaxFlow ty d0 s t) (fun o => ∃ v, o.2 = Release.wrap ty v ∧
      St N o.1 ∧ o.1.n = d0.n ∧ o.1.g = d0.g ∧ IsFlow N s t (flowOf N o.1) ∧
      netOut N (flowOf N o.1) s = v ∧ IsMaxFlow N s t v ∧ (s ≠ t → IsMinCut N s t v)) := by
  have hnn0 : ∀ k < N.length, 0 ≤ (ed N k).a ∧ 0 ≤ (ed N k).b := by
    intro k hk
    have h1 := h0.nn (2 * k) (by omega)
    have h2 := h0.nn (2 * k + 1) (by omega)
    rw [hini _ (by omega), cap0_even] at h1
    rw [hini _ (by omega), cap0_odd] at h2
    exact ⟨h1, h2⟩
  have hpot0 : ∀ y, pot N d0 y = pot0 N y := by
    intro y
    unfold pot pot0
    refine Finset.sum_congr rfl fun k hk => ?_
    rw [hini _ (by have := mem_range.1 hk; omega), cap0_even]
  unfold Release.Dinic.getMaxFlow
  rw [assert_true hs, ok_bind, assert_true ht, ok_bind]
  have htot0 : 0 ≤ total N := by
    unfold total
    exact Finset.sum_nonneg fun k hk => by have := hnn0 k (mem_range.1 hk); omega
  refine loop_satG (σ := Dinic × Int) (fun o k => ∃ ans, o.2 = Release.wrap ty ans ∧
    St N o.1 ∧ o.1.n = d0.n ∧ o.1.g = d0.g ∧
    (∀ y, pot N o.1 y = pot0 N y - (dl s y ans - dl t y ans)) ∧ 0 ≤ ans ∧ (s = t → ans = 0) ∧
    k = (total N - ans).toNat) _ ?_ _ _ (total N).toNat ⟨0, (wrap_of_in (IntTy.in_of_nonneg (le_refl _) (le_of_lt hmx))).symm,
      h0, rfl, rfl, ?_, le_refl _, fun _ => rfl, by simp⟩ (by have := sum_toNat_le d0.e; rw [total_eq h0] at this; omega)
  · rintro ⟨d, w⟩ k ⟨ans, hw, hst, hdn, hdg, hpot, hans, hself, rfl⟩
    simp only at hw hst hdn hdg hpot hans hself ⊢
    subst hw
    rw [sat_bind]
    refine (Rls.sat (dinicBfs_rls d s t) (bfs_sat (t := t) hst (by omega) (by omega))).mono ?_
    rintro ⟨d1, b⟩ ⟨h, hd1, hb⟩
    simp only at hd1 hb ⊢
    subst hd1
    have hst1 : St N { d with h := h } := ⟨hst.el, hst.gl, hst.cl, hb.hi.len, hst.toh, hst.tln, hst.g,
      hst.nn, hst.pair⟩
    cases b with
    | true =>
      simp only [if_true]
      obtain ⟨hstt, hht, -⟩ := hb.found rfl
      have hst2 : St N { d with h := h, cur := List.replicate d.cur.length 0 } :=
        ⟨hst.el, hst.gl, by simpa using hst.cl, hb.hi.len, hst.toh, hst.tln, hst.g, hst.nn, hst.pair⟩
      have hcur : CurOk N t { d with h := h, cur := List.replicate d.cur.length 0 } := by
        intro x i j hi
        have : i < (List.replicate d.cur.length 0).getD x 0 := hi
        rw [getD_replicate] at this
        omega
      have hlvs : lv { d with h := h, cur := List.replicate d.cur.length 0 } s = 0 := hb.hi.hs
      rw [sat_bind]
      refine (Rls.sat (dinicDfs_rls ty _ _ _ _ _) (dfs_sat (n := d.n) t hfit (by omega) (d.n + 1) s ty.mx _ hst2 hcur rfl (by omega)
        (fun x => hb.hi.lt x) (by rw [hlvs]) hmx (le_refl _) (by rw [hlvs]; push_cast; omega))).mono ?_
      rintro ⟨d2, a⟩ ⟨hP, ha0, ham, hdead⟩
      simp only at hP ha0 ham hdead ⊢
      have hpath : ReflTransGen (LStep N { d with h := h, cur := List.replicate d.cur.length 0 }) s t := by
        refine ReflTransGen.mono ?_ _ _ (hb.hi.reach t hht)
        rintro x y ⟨j, h1, h2, h3, h4, _, h6⟩
        exact ⟨j, h1, h2, h3, h4, h6⟩
      have hapos : 0 < a := by
        apply lt_of_le_of_ne ha0
        intro e
        have hz := hP.zero e.symm
        apply hdead (by omega)
        refine ReflTransGen.mono ?_ _ _ hpath
        rintro x y ⟨j, h1, h2, h3, h4, h5⟩
        refine ⟨j, h1, h2, h3, by rw [hz j h1]; exact h4, ?_⟩
        rw [hP.mono.lv]; exact h5
      have hpot2 : ∀ y, pot N d2 y = pot0 N y - (dl s y (ans + a) - dl t y (ans + a)) := by
        intro y
        have e1 := hP.pot y
        have e2 : pot N { d with h := h, cur := List.replicate d.cur.length 0 } y = pot N d y := rfl
        rw [e1, e2, hpot]
        simp only [dl]
        split <;> split <;> omega
      obtain ⟨hfl, hval⟩ := isFlow_of hP.st hpot2
      have hvs : netOut N (flowOf N d2) s = ans + a := by
        rw [hval]; simp [dl, Ne.symm hstt]
      have hle := value_le_total hfl hnn0
      rw [hvs] at hle
      unfold Release.ck
      rw [ok_bind, wrap_add_left, sat_ok]
      exact ⟨(total N - (ans + a)).toNat, by omega, ans + a, rfl, hP.st, hP.n.trans hdn, hP.g.trans hdg,
        hpot2, by omega, fun e => absurd e hstt, rfl⟩
    | false =>
      simp only [Bool.false_eq_true, if_false]
      obtain ⟨hfl, hval⟩ := isFlow_of hst hpot
      have hfl1 : flowOf N { d with h := h } = flowOf N d := rfl
      rw [sat_ok]
      by_cases hstt : s = t
      · subst hstt
        have hz := hself rfl
        have hv0 := value_self hfl
        refine ⟨ans, rfl, hst1, hdn, hdg, hfl, by rw [hfl1, hv0, hz], ⟨⟨_, hfl, by rw [hv0, hz]⟩, fun x hx => ?_⟩,
          fun h => absurd rfl h⟩
        rw [value_self hx, hz]
      · have hvs : netOut N (flowOf N d) s = ans := by
          rw [hval]; simp [dl, Ne.symm hstt]
        obtain ⟨hcut1, hcut2⟩ := hb.cut rfl
        let S : Finset Nat := (range d.n).filter fun x => h.getD x (-1) ≠ -1
        have hS : ∀ x, x ∈ S ↔ h.getD x (-1) ≠ -1 := by
          intro x
          simp only [S, mem_filter, mem_range]
          exact ⟨fun h => h.2, fun hx => ⟨by rw [← hb.hi.len]; exact lt_of_getD_ne hx, hx⟩⟩
        have hsS : s ∈ S := (hS s).2 (by rw [hb.hi.hs]; decide)
        have htS : t ∉ S := fun h' => (hS t).1 h' (hcut1 (Ne.symm hstt))
        have hclose : ∀ j, j < 2 * N.length → tl N j ∈ S → hd N j ∉ S → cp d j = 0 := by
          intro j hj h1 h2
          have h3 := hst.nn j hj
          apply le_antisymm _ h3
          apply not_lt.1
          intro hc
          exact h2 ((hS _).2 (hcut2 j hj ((hS _).1 h1) hc))
        have heq : netOut N (flowOf N d) s = cutCap N S := by
          rw [value_cut hfl hsS htS, cutCap_range]
          refine Finset.sum_congr rfl fun k hk => ?_
          have hk := mem_range.1 hk
          have e1 : tl N (2 * k) = (ed N k).u := by
            unfold tl; rw [if_pos (by omega), show 2 * k / 2 = k by omega]
          have e2 : hd N (2 * k) = (ed N k).v := by
            unfold hd; rw [if_pos (by omega), show 2 * k / 2 = k by omega]
          have e3 : tl N (2 * k + 1) = (ed N k).v := by
            unfold tl; rw [if_neg (by omega), show (2 * k + 1) / 2 = k by omega]
          have e4 : hd N (2 * k + 1) = (ed N k).u := by
            unfold hd; rw [if_neg (by omega), show (2 * k + 1) / 2 = k by omega]
          have c1 := hclose (2 * k) (by omega)
          have c2 := hclose (2 * k + 1) (by omega)
          have hp := hst.pair' hk
          rw [e1, e2] at c1
          rw [e3, e4] at c2
          unfold flowOf
          by_cases hu : (ed N k).u ∈ S <;> by_cases hv : (ed N k).v ∈ S
          · simp [hu, hv]
          · have := c1 hu hv
            simp [hu, hv, this]
          · have := c2 hv hu
            simp [hu, hv]; omega
          · simp [hu, hv]
        refine ⟨ans, rfl, hst1, hdn, hdg, hfl, hvs, ⟨⟨_, hfl, hvs⟩, fun x hx => ?_⟩, fun _ => ⟨⟨S, hsS, htS, ?_⟩, ?_⟩⟩
        · rw [← hvs, heq]; exact value_le_cut hx hsS htS
        · rw [← heq, hvs]
        · intro S' h1 h2
          rw [← hvs]; exact value_le_cut hfl h1 h2
  · intro y
    rw [hpot0]; simp [dl]
end Verif.ReleaseP
