import Verif.Proof.TreeAnc
/-! Entry and exit times of a depth-first search. -/
namespace Verif.TreeP
open Spec

/-- Entry and exit times of a forest visited from time `τ`. -/
def Stamped (tin tout : List Nat) : Nat → Forest → Prop
  | _, .nil => True
  | τ, .cons v c s => tin[v]? = some τ ∧ tout[v]? = some (τ + 1 + c.size) ∧
      Stamped tin tout (τ + 1) c ∧ Stamped tin tout (τ + 1 + c.size) s

theorem Stamped.congr {tin tout tin' tout' : List Nat} {τ : Nat} {f : Forest}
    (h : Stamped tin tout τ f) (h1 : ∀ x ∈ f.pre, tin'[x]? = tin[x]?)
    (h2 : ∀ x ∈ f.pre, tout'[x]? = tout[x]?) : Stamped tin' tout' τ f := by
  induction f generalizing τ with
  | nil => trivial
  | cons v c s ih1 ih2 =>
    obtain ⟨a, b, hc, hs⟩ := h
    refine ⟨by rw [h1 v (by simp [Forest.pre]), a], by rw [h2 v (by simp [Forest.pre]), b], ?_, ?_⟩
    · exact ih1 hc (fun x hx => h1 x (by simp [Forest.pre, hx]))
        (fun x hx => h2 x (by simp [Forest.pre, hx]))
    · exact ih2 hs (fun x hx => h1 x (by simp [Forest.pre, hx]))
        (fun x hx => h2 x (by simp [Forest.pre, hx]))

/-- Times of the nodes of a forest lie in its interval. -/
theorem Stamped.bounds {tin tout : List Nat} {τ : Nat} {f : Forest} (h : Stamped tin tout τ f) :
    ∀ x ∈ f.pre, ∃ a b, tin[x]? = some a ∧ tout[x]? = some b ∧ τ ≤ a ∧ a < b ∧
      b ≤ τ + f.size := by
  induction f generalizing τ with
  | nil => simp [Forest.pre]
  | cons v c s ih1 ih2 =>
    obtain ⟨a, b, hc, hs⟩ := h
    intro x hx
    simp only [Forest.pre, List.mem_cons, List.mem_append] at hx
    simp only [Forest.size]
    rcases hx with rfl | hx | hx
    · exact ⟨_, _, a, b, by omega, by omega, by omega⟩
    · obtain ⟨p, q, h1, h2, h3, h4, h5⟩ := ih1 hc x hx
      exact ⟨p, q, h1, h2, by omega, h4, by omega⟩
    · obtain ⟨p, q, h1, h2, h3, h4, h5⟩ := ih2 hs x hx
      exact ⟨p, q, h1, h2, by omega, h4, by omega⟩

theorem pre_prefix2 {u : Nat} {f : Forest} {R : Nat → List Nat} (h : PathsOk R u f) :
    ∀ x ∈ f.pre, ∃ v ∈ f.pre, R u ++ [v] <+: R x := by
  induction f generalizing u with
  | nil => simp [Forest.pre]
  | cons v c s ih1 ih2 =>
    obtain ⟨h1, h2, h3⟩ := h
    intro x hx
    simp only [Forest.pre, List.mem_cons, List.mem_append] at hx
    rcases hx with rfl | hx | hx
    · exact ⟨x, by simp [Forest.pre], by rw [h1]⟩
    · obtain ⟨w, hw, hwp⟩ := ih1 h2 x hx
      refine ⟨v, by simp [Forest.pre], ?_⟩
      rw [h1] at hwp
      exact (List.prefix_append _ _).trans hwp
    · obtain ⟨w, hw, hwp⟩ := ih2 h3 x hx
      exact ⟨w, by simp [Forest.pre, hw], hwp⟩

/-- Interval containment is ancestry. -/
theorem Stamped.anc {u : Nat} {f : Forest} {R : Nat → List Nat} (hn : f.pre.Nodup)
    {tin tout : List Nat} {τ : Nat} (h : Stamped tin tout τ f) (hp : PathsOk R u f) :
    ∀ x ∈ f.pre, ∀ y ∈ f.pre, ∀ a b t, tin[x]? = some a → tout[x]? = some b → tin[y]? = some t →
      (a ≤ t ∧ t < b ↔ R x <+: R y) := by
  induction f generalizing τ u with
  | nil => simp [Forest.pre]
  | cons v c s ih1 ih2 =>
    obtain ⟨h1, h2, hsc, hss⟩ := h
    obtain ⟨hv, hpc, hps⟩ := hp
    simp only [Forest.pre, List.nodup_cons, List.mem_append, not_or, List.nodup_append] at hn
    obtain ⟨⟨-, hl1⟩, hnc, hns, -⟩ := hn
    have bc := hsc.bounds
    have bs := hss.bounds
    have pc := pre_prefix2 hpc
    have ps := pre_prefix2 hps
    have hvs : ∀ x ∈ s.pre, ∀ y, R v <+: R y → ¬ R x <+: R y := by
      intro x hx y hy hxy
      obtain ⟨w, hw, hwp⟩ := ps x hx
      rw [hv] at hy
      exact hl1 (prefix_snoc_inj hy (hwp.trans hxy) ▸ hw)
    have hvs' : ∀ x ∈ s.pre, ∀ y, R v <+: R y → ¬ R y <+: R x := by
      intro x hx y hy hxy
      obtain ⟨w, hw, hwp⟩ := ps x hx
      rw [hv] at hy
      exact hl1 (prefix_snoc_inj (hy.trans hxy) hwp ▸ hw)
    have hvc : ∀ x ∈ c.pre, R v <+: R x ∧ (R v).length < (R x).length := by
      intro x hx
      obtain ⟨w, _, hwp⟩ := pc x hx
      have := hwp.length_le
      refine ⟨(List.prefix_append _ _).trans hwp, ?_⟩
      simp at this; omega
    intro x hx y hy a b t ha hb ht
    simp only [Forest.pre, List.mem_cons, List.mem_append] at hx hy
    rcases hx with rfl | hx | hx
    · rw [h1] at ha; cases ha
      rw [h2] at hb; cases hb
      rcases hy with rfl | hy | hy
      · rw [h1] at ht; cases ht
        exact ⟨fun _ => List.prefix_refl _, fun _ => by omega⟩
      · obtain ⟨p', q', k1, k2, k3, k4, k5⟩ := bc y hy
        rw [k1] at ht; cases ht
        exact ⟨fun _ => (hvc y hy).1, fun _ => by omega⟩
      · obtain ⟨p', q', k1, k2, k3, k4, k5⟩ := bs y hy
        rw [k1] at ht; cases ht
        exact ⟨fun _ => by omega, fun hh => absurd hh (hvs' y hy x (List.prefix_refl _))⟩
    · obtain ⟨p', q', k1, k2, k3, k4, k5⟩ := bc x hx
      rw [k1] at ha; cases ha
      rw [k2] at hb; cases hb
      rcases hy with rfl | hy | hy
      · rw [h1] at ht; cases ht
        refine ⟨fun _ => by omega, fun hh => ?_⟩
        have := hh.length_le
        have := (hvc x hx).2
        omega
      · exact ih1 hnc hsc hpc x hx y hy _ _ _ k1 k2 ht
      · obtain ⟨p2, q2, j1, j2, j3, j4, j5⟩ := bs y hy
        rw [j1] at ht; cases ht
        exact ⟨fun _ => by omega, fun hh => absurd hh (hvs' y hy x (hvc x hx).1)⟩
    · obtain ⟨p', q', k1, k2, k3, k4, k5⟩ := bs x hx
      rcases hy with rfl | hy | hy
      · rw [k1] at ha; cases ha
        rw [k2] at hb; cases hb
        rw [h1] at ht; cases ht
        exact ⟨fun _ => by omega, fun hh => absurd hh (hvs x hx y (List.prefix_refl _))⟩
      · rw [k1] at ha; cases ha
        rw [k2] at hb; cases hb
        obtain ⟨p2, q2, j1, j2, j3, j4, j5⟩ := bc y hy
        rw [j1] at ht; cases ht
        exact ⟨fun _ => by omega, fun hh => absurd hh (hvs x hx y (hvc y hy).1)⟩
      · exact ih2 hns hss hps x hx y hy _ _ _ ha hb ht

/-- The `i`-th node in preorder is entered at time `τ + i`. -/
theorem Stamped.pre_get {tin tout : List Nat} {τ : Nat} {f : Forest} (h : Stamped tin tout τ f) :
    ∀ (i x : Nat), f.pre[i]? = some x → tin[x]? = some (τ + i) := by
  induction f generalizing τ with
  | nil => simp [Forest.pre]
  | cons v c s ih1 ih2 =>
    obtain ⟨a, b, hc, hs⟩ := h
    intro i x hx
    simp only [Forest.pre] at hx
    cases i with
    | zero => simp at hx; subst hx; exact a
    | succ i =>
      simp only [List.getElem?_cons_succ] at hx
      by_cases hi : i < c.pre.length
      · rw [List.getElem?_append_left hi] at hx
        rw [ih1 hc i x hx]; congr 1; omega
      · rw [List.getElem?_append_right (by omega)] at hx
        rw [ih2 hs _ x hx, Forest.pre_length]
        rw [Forest.pre_length] at hi
        congr 1; omega

end Verif.TreeP
