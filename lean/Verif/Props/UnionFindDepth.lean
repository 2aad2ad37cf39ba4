import Verif.Props.UnionFind
/-! C72: nesting of `UnionFind::find` and path compression. -/
namespace Verif.Spec

/-- The element reached from `i` by following `k` parent links. -/
def up (fa : List Nat) : Nat → Nat → Nat
  | 0, i => i
  | k + 1, i => up fa k (fa.getD i i)

end Verif.Spec

namespace Verif.Props
open Res Model Spec UFP

theorem up_parent {fa : List Nat} {i p : Nat} (h : fa[i]? = some p) (k : Nat) : up fa (k + 1) i = up fa k p := by
  show up fa k (fa.getD i i) = _
  rw [List.getD_eq_getElem?_getD, h]; rfl

/-- The links from `i` lead to `r` in `d` steps. -/
theorem rootOf_up {fa : List Nat} {i r d : Nat} (h : RootOf fa i r d) :
    up fa d i = r ∧ fa[r]? = some r ∧ ∀ e, e < d → fa[up fa e i]? ≠ some (up fa e i) := by
  refine ⟨?_, h.root_self, ?_⟩
  · induction h with
    | base h => rfl
    | step h hne h2 ih => rw [up_parent h]; exact ih
  · induction h with
    | base h => intro e he; omega
    | @step i p r d h hne h2 ih =>
      intro e he
      cases e with
      | zero =>
        show fa[i]? ≠ some i
        rw [h]; simpa using hne
      | succ e => rw [up_parent h]; exact ih e (by omega)

theorem findF_diverge {u : UF} {i r d : Nat} (h : RootOf u.fa i r d) : ∀ k, k ≤ d → UF.findF k u i = .diverge := by
  suffices H : ∀ fa, fa = u.fa → RootOf fa i r d → ∀ k, k ≤ d → UF.findF k u i = .diverge from H _ rfl h
  clear h
  intro fa hfa h
  induction h with
  | base h =>
    intro k hk
    obtain rfl : k = 0 := by omega
    rfl
  | @step i p r d h hne h2 ih =>
    intro k hk
    cases k with
    | zero => rfl
    | succ k =>
      rw [UF.findF, idx_of_some (hfa ▸ h), ok_bind, if_neg hne, ih k (by omega)]; rfl

theorem findF_exact {u : UF} {i r d : Nat} (h : RootOf u.fa i r d) : ∀ k, d < k →
    Sat (UF.findF k u i) fun x => x.1 = r ∧ x.2.n = u.n ∧ x.2.sz = u.sz ∧ x.2.fa.length = u.fa.length ∧
      ∀ j, ((∃ e, e ≤ d ∧ up u.fa e i = j) → x.2.fa[j]? = some r) ∧
        ((¬ ∃ e, e ≤ d ∧ up u.fa e i = j) → x.2.fa[j]? = u.fa[j]?) := by
  suffices H : ∀ fa, fa = u.fa → RootOf fa i r d → ∀ k, d < k →
    Sat (UF.findF k u i) fun x => x.1 = r ∧ x.2.n = u.n ∧ x.2.sz = u.sz ∧ x.2.fa.length = u.fa.length ∧
      ∀ j, ((∃ e, e ≤ d ∧ up u.fa e i = j) → x.2.fa[j]? = some r) ∧
        ((¬ ∃ e, e ≤ d ∧ up u.fa e i = j) → x.2.fa[j]? = u.fa[j]?) from H _ rfl h
  clear h
  intro fa hfa h
  induction h with
  | @base r h =>
    intro k hk
    obtain ⟨k, rfl⟩ : ∃ k', k = k' + 1 := ⟨k - 1, by omega⟩
    rw [UF.findF, idx_of_some (hfa ▸ h), ok_bind, if_pos rfl, sat_ok]
    refine ⟨rfl, rfl, rfl, rfl, fun j => ⟨?_, fun _ => rfl⟩⟩
    rintro ⟨e, he, rfl⟩
    obtain rfl : e = 0 := by omega
    exact hfa ▸ h
  | @step i p r d h hne h2 ih =>
    intro k hk
    obtain ⟨k, rfl⟩ : ∃ k', k = k' + 1 := ⟨k - 1, by omega⟩
    subst hfa
    rw [UF.findF, idx_of_some h, ok_bind, if_neg hne, sat_bind]
    refine (ih k (by omega)).mono ?_
    rintro ⟨r', u'⟩ ⟨h1, h3, h4, h5, h6⟩
    simp only at h1 h3 h4 h5 h6
    subst h1
    have hi : i < u'.fa.length := by rw [h5]; exact (List.getElem?_eq_some_iff.1 h).1
    simp only [sat_bind, sat_upd, sat_idx, sat_ok]
    refine ⟨hi, r', List.getElem?_set_self hi, rfl, h3, h4, by simpa using h5, fun j => ?_⟩
    by_cases hj : j = i
    · subst hj
      rw [List.getElem?_set_self hi]
      exact ⟨fun _ => rfl, fun hn => absurd ⟨0, Nat.zero_le _, rfl⟩ hn⟩
    · rw [List.getElem?_set_ne (Ne.symm hj)]
      have hiff : (∃ e, e ≤ d + 1 ∧ up u.fa e i = j) ↔ ∃ e, e ≤ d ∧ up u.fa e p = j := by
        constructor
        · rintro ⟨e, he, hu⟩
          cases e with
          | zero => exact absurd hu.symm hj
          | succ e => exact ⟨e, by omega, by rw [← up_parent h]; exact hu⟩
        · rintro ⟨e, he, hu⟩
          exact ⟨e + 1, by omega, by rw [up_parent h]; exact hu⟩
      rw [hiff]
      exact h6 j

/-- C72: in every reached state, `find(x)` follows the `d` links from `x` to its representative, `d < n`; it makes
exactly `d + 1` nested calls (the model of the recursion needs that much fuel). Afterwards every element on this way is
linked to the representative directly, and nothing else has changed. -/
theorem C72_find (n : Nat) (ops : List UF.Op) (u : UF) (x : Nat) (hr : UF.run (UF.new n) ops = .ok u) (hx : x < n) :
    ∃ d r u', d < n ∧ up u.fa d x = r ∧ u.fa[r]? = some r ∧ (∀ e, e < d → u.fa[up u.fa e x]? ≠ some (up u.fa e x)) ∧
      u.find x = ok (r, u') ∧ (∀ k, k ≤ d → UF.findF k u x = .diverge) ∧ (∀ k, d < k → UF.findF k u x = ok (r, u')) ∧
      u'.n = u.n ∧ u'.sz = u.sz ∧
      ∀ j, ((∃ e, e ≤ d ∧ up u.fa e x = j) → u'.fa[j]? = some r) ∧
        ((¬ ∃ e, e ≤ d ∧ up u.fa e x = j) → u'.fa[j]? = u.fa[j]?) := by
  obtain ⟨hi, hn, -⟩ := reach_inv ops hr
  obtain ⟨r, d, hd⟩ := hi.root x (hn ▸ hx)
  obtain ⟨h1, h2, h3⟩ := rootOf_up hd
  have hdn := hd.depth_lt
  rw [hi.fa_len] at hdn
  obtain ⟨⟨r', u'⟩, e, rfl, k1, k2, k3, k4⟩ := findF_exact hd (u.n + 1) (by omega)
  simp only at k1 k2 k3 k4 e h1 h2
  refine ⟨d, r', u', hn ▸ hdn, h1, h2, h3, e, findF_diverge hd, fun k hk => ?_, k1, k2, k4⟩
  obtain ⟨⟨r2, u2⟩, e2, rfl, m1, m2, m3, m4⟩ := findF_exact hd k hk
  simp only at m1 m2 m3 m4 e2 h1 h2
  have : u2 = u' := by
    obtain ⟨n2, f2, s2⟩ := u2
    obtain ⟨n1, f1, s1⟩ := u'
    simp only at k1 k2 k3 k4 m1 m2 m3 m4
    have : f2 = f1 := by
      refine List.ext_getElem? fun j => ?_
      by_cases hj : ∃ e, e ≤ d ∧ up u.fa e x = j
      · rw [(k4 j).1 hj, (m4 j).1 hj]
      · rw [(k4 j).2 hj, (m4 j).2 hj]
    rw [this, k1, k2, m1, m2]
  rw [e2, this]

/-- The joins `(0, 1), (1, 2), …, (k - 1, k)`. -/
def chainJoins (k : Nat) : List UF.Op := (List.range k).map fun i => .join i (i + 1)

/-- The state after these joins. -/
def chainState (n k : Nat) : UF where
  n := n
  fa := (List.range n).map fun i => if i < k then i + 1 else i
  sz := (List.range n).map fun i => if i ≤ k then i + 1 else 1

theorem chain_run {n : Nat} (hn : n < 2 ^ 64) : ∀ k, k < n → UF.run (UF.new n) (chainJoins k) = ok (chainState n k) := by
  intro k
  induction k with
  | zero =>
    intro _
    simp only [chainJoins, List.range_zero, List.map_nil, UF.run, UF.new, chainState, Nat.not_lt_zero, if_false,
      Nat.le_zero_eq, List.map_id']
    congr 2
    refine List.ext_getElem (by simp) fun i h1 h2 => ?_
    simp only [List.getElem_replicate, List.getElem_map, List.getElem_range]
    split <;> omega
  | succ k ih =>
    intro hk
    have e : chainJoins (k + 1) = chainJoins k ++ [.join k (k + 1)] := by simp [chainJoins, List.range_succ]
    rw [e, run_append, ih (by omega), ok_bind]
    have f1 : (chainState n k).fa[k]? = some k := by
      simp [chainState, List.getElem?_map, List.getElem?_range (show k < n by omega)]
    have f2 : (chainState n k).fa[k + 1]? = some (k + 1) := by
      simp [chainState, List.getElem?_map, List.getElem?_range hk]
    have s1 : (chainState n k).sz[k]? = some (k + 1) := by
      simp [chainState, List.getElem?_map, List.getElem?_range (show k < n by omega)]
    have s2 : (chainState n k).sz[k + 1]? = some 1 := by
      simp [chainState, List.getElem?_map, List.getElem?_range hk]
    have g1 : (chainState n k).find k = ok (k, chainState n k) := by
      rw [UF.find, UF.findF, idx_of_some f1, ok_bind, if_pos rfl]
    have g2 : (chainState n k).find (k + 1) = ok (k + 1, chainState n k) := by
      rw [UF.find, UF.findF, idx_of_some f2, ok_bind, if_pos rfl]
    have hl : (chainState n k).fa.length = n := by simp [chainState]
    have hz : (chainState n k).sz.length = n := by simp [chainState]
    have ha : addU 64 1 (k + 1) = ok (1 + (k + 1)) := addU_of_lt (by omega)
    simp only [UF.run, UF.step, UF.join]
    rw [assert_true (show k < (chainState n k).n by show k < n; omega), ok_bind,
      assert_true (show k + 1 < (chainState n k).n from hk), ok_bind, g1, ok_bind]
    simp only [g2, ok_bind]
    rw [if_neg (by omega), idx_of_some s1, ok_bind, idx_of_some s2, ok_bind, upd_of_lt (by omega), ok_bind, ha, ok_bind,
      upd_of_lt (by omega), ok_bind]
    simp only [ok_bind]
    congr 1
    simp only [chainState, UF.mk.injEq, true_and]
    constructor
    · refine List.ext_getElem (by simp) fun i h1 h2 => ?_
      simp only [List.getElem_set, List.getElem_map, List.getElem_range]
      repeat' split
      all_goals omega
    · refine List.ext_getElem (by simp) fun i h1 h2 => ?_
      simp only [List.getElem_set, List.getElem_map, List.getElem_range]
      repeat' split
      all_goals omega

/-- C72: union by size is without effect. After the joins `(0, 1), (1, 2), …, (n - 2, n - 1)` the elements form one chain:
`find(0)` makes `n` nested calls, the most possible. -/
theorem C72_chain {n : Nat} (h0 : 0 < n) (hn : n < 2 ^ 64) :
    ∃ u u', UF.run (UF.new n) (chainJoins (n - 1)) = ok u ∧ u.find 0 = ok (n - 1, u') ∧
      UF.findF (n - 1) u 0 = .diverge ∧ UF.findF n u 0 = ok (n - 1, u') := by
  have hr := chain_run hn (n - 1) (by omega)
  obtain ⟨d, r, u', h1, h2, h3, h4, h5, h6, h7, -⟩ := C72_find n _ _ 0 hr h0
  have hup : ∀ e i, i + e < n → up (chainState n (n - 1)).fa e i = i + e := by
    intro e
    induction e with
    | zero => intro i _; rfl
    | succ e ih =>
      intro i hi
      have : (chainState n (n - 1)).fa[i]? = some (i + 1) := by
        simp [chainState, List.getElem?_map, List.getElem?_range (show i < n by omega)]; omega
      rw [up_parent this, ih _ (by omega)]; omega
  have hr2 : r = d := by rw [← h2, hup d 0 (by omega)]; omega
  have hd : d = n - 1 := by
    rcases Nat.lt_or_ge d (n - 1) with hlt | hge
    · subst hr2
      simp [chainState, List.getElem?_map, List.getElem?_range h1, hlt] at h3
    · omega
  subst hd
  subst hr2
  exact ⟨_, u', hr, h5, h6 _ (Nat.le_refl _), h7 n (by omega)⟩

/-- The chain of five elements, and `find(0)` on it. -/
example : (do let u ← UF.run (UF.new 5) (chainJoins 4); u.find 0 : Res _) =
    ok (4, ⟨5, [4, 4, 4, 4, 4], [1, 2, 3, 4, 5]⟩) := by decide +kernel

end Verif.Props
