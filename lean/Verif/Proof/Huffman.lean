import Verif.Spec.Huffman
import Mathlib.Algebra.Order.Group.Multiset
import Mathlib.Algebra.BigOperators.Group.Multiset.Basic
import Mathlib.Algebra.Order.Ring.Nat
import Mathlib.Tactic.Ring
/-! The exchange argument for optimal binary codes, on multisets of (weight, depth) pairs. -/
namespace Verif.HuffmanP
open Spec

/-- Multisets of depths of the leaves of binary trees. -/
inductive Real : Multiset Nat → Prop where
  | one : Real {0}
  | split {d : Nat} {S : Multiset Nat} : Real (d ::ₘ S) → Real ((d + 1) ::ₘ (d + 1) ::ₘ S)

theorem Real.deepest {S : Multiset Nat} (h : Real S) (hc : 2 ≤ S.card) {D : Nat} (hD : D ∈ S) (hm : ∀ d ∈ S, d ≤ D) :
    ∃ D' S0, D = D' + 1 ∧ S = D ::ₘ D ::ₘ S0 ∧ Real (D' ::ₘ S0) := by
  induction h with
  | one => simp at hc
  | @split d S1 h1 ih =>
    by_cases e : D = d + 1
    · exact ⟨d, S1, e, by rw [e], h1⟩
    · have hlt : d + 1 < D := by
        have := hm (d + 1) (Multiset.mem_cons_self _ _)
        omega
      have hD1 : D ∈ S1 := by
        rcases Multiset.mem_cons.1 hD with h | h
        · exact absurd h e
        · rcases Multiset.mem_cons.1 h with h | h
          · exact absurd h e
          · exact h
      have hcard : 2 ≤ (d ::ₘ S1).card := by
        have := Multiset.card_pos_iff_exists_mem.2 ⟨D, hD1⟩
        rw [Multiset.card_cons]
        omega
      obtain ⟨D', S0, e1, e2, e3⟩ := ih hcard (Multiset.mem_cons_of_mem hD1) (by
        intro x hx
        rcases Multiset.mem_cons.1 hx with rfl | hx
        · omega
        · exact hm x (Multiset.mem_cons_of_mem (Multiset.mem_cons_of_mem hx)))
      have hd : d ∈ S0 := by
        have : d ∈ D ::ₘ D ::ₘ S0 := e2 ▸ Multiset.mem_cons_self _ _
        rcases Multiset.mem_cons.1 this with h | h
        · omega
        · rcases Multiset.mem_cons.1 h with h | h
          · omega
          · exact h
      obtain ⟨S2, rfl⟩ := Multiset.exists_cons_of_mem hd
      refine ⟨D', (d + 1) ::ₘ (d + 1) ::ₘ S2, e1, ?_, ?_⟩
      · rw [Multiset.cons_swap D d, Multiset.cons_swap D d, Multiset.cons_inj_right] at e2
        rw [e2, Multiset.cons_swap D (d + 1), Multiset.cons_swap D (d + 1), Multiset.cons_swap D (d + 1),
          Multiset.cons_swap D (d + 1)]
      · rw [Multiset.cons_swap D' (d + 1), Multiset.cons_swap D' (d + 1)]
        apply Real.split
        rw [Multiset.cons_swap d D']
        exact e3

/-- Sum of weight times depth. -/
def cost (P : Multiset (Nat × Nat)) : Nat := (P.map fun p => p.1 * p.2).sum

@[simp] theorem cost_cons (p : Nat × Nat) (P : Multiset (Nat × Nat)) : cost (p ::ₘ P) = p.1 * p.2 + cost P := by
  simp [cost]

/-- The least weight can be put at a deepest place. -/
theorem exchange {x D a : Nat} {Q : Multiset (Nat × Nat)} {W : Multiset Nat} (hD : ∀ p ∈ Q, p.2 ≤ D)
    (hW : ((x, D) ::ₘ Q).map Prod.fst = a ::ₘ W) (ha : ∀ w ∈ W, a ≤ w) :
    ∃ Q', Q'.map Prod.fst = W ∧ Q'.map Prod.snd = Q.map Prod.snd ∧ a * D + cost Q' ≤ cost ((x, D) ::ₘ Q) := by
  rw [Multiset.map_cons] at hW
  simp only at hW
  by_cases e : x = a
  · subst e
    exact ⟨Q, by simpa using hW, rfl, by simp⟩
  · have hmem : a ∈ Q.map Prod.fst := by
      have : a ∈ x ::ₘ Q.map Prod.fst := hW ▸ Multiset.mem_cons_self _ _
      rcases Multiset.mem_cons.1 this with h | h
      · exact absurd h.symm e
      · exact h
    have hxW : x ∈ W := by
      have : x ∈ a ::ₘ W := hW ▸ Multiset.mem_cons_self _ _
      rcases Multiset.mem_cons.1 this with h | h
      · exact absurd h e
      · exact h
    obtain ⟨⟨a', d⟩, hp, rfl⟩ := Multiset.mem_map.1 hmem
    obtain ⟨Q1, rfl⟩ := Multiset.exists_cons_of_mem hp
    simp only at *
    refine ⟨(x, d) ::ₘ Q1, ?_, by simp, ?_⟩
    · rw [Multiset.map_cons, Multiset.cons_swap, Multiset.cons_inj_right] at hW
      rw [Multiset.map_cons]
      exact hW
    · have h1 := ha x hxW
      have h2 : d ≤ D := hD (a', d) (Multiset.mem_cons_self _ _)
      simp only [cost_cons]
      obtain ⟨k, rfl⟩ := Nat.exists_eq_add_of_le h1
      obtain ⟨m, rfl⟩ := Nat.exists_eq_add_of_le h2
      have : (a' + k) * (d + m) = a' * d + a' * m + k * d + k * m := by ring
      have h3 : a' * (d + m) = a' * d + a' * m := by ring
      have h4 : (a' + k) * d = a' * d + k * d := by ring
      omega

/-- Costs reached by always merging two least weights. -/
inductive Merged : Multiset Nat → Nat → Prop where
  | none : Merged 0 0
  | one (w : Nat) : Merged {w} 0
  | merge {a b c : Nat} {W : Multiset Nat} : a ≤ b → (∀ w ∈ W, b ≤ w) → Merged ((a + b) ::ₘ W) c →
      Merged (a ::ₘ b ::ₘ W) (a + b + c)

theorem Merged.le {W : Multiset Nat} {c : Nat} (h : Merged W c) {P : Multiset (Nat × Nat)} (hP : P.map Prod.fst = W)
    (hR : Real (P.map Prod.snd)) : c ≤ cost P := by
  induction h generalizing P with
  | none => exact Nat.zero_le _
  | one => exact Nat.zero_le _
  | @merge a b c W hab hb hm ih =>
    have hcard : P.card = W.card + 2 := by
      have := congrArg Multiset.card hP
      simpa using this
    obtain ⟨D, hD, hmax⟩ : ∃ D ∈ P.map Prod.snd, ∀ d ∈ P.map Prod.snd, d ≤ D := by
      have hne : P.map Prod.snd ≠ 0 := by
        rw [← Multiset.card_pos, Multiset.card_map]
        omega
      generalize P.map Prod.snd = S at hne
      induction S using Multiset.induction with
      | empty => exact absurd rfl hne
      | cons x S ihS =>
        by_cases hS : S = 0
        · subst hS
          exact ⟨x, by simp, by simp⟩
        · obtain ⟨D, h1, h2⟩ := ihS hS
          rcases Nat.le_total x D with hxD | hxD
          · refine ⟨D, Multiset.mem_cons_of_mem h1, fun d hd => ?_⟩
            rcases Multiset.mem_cons.1 hd with rfl | hd
            · exact hxD
            · exact h2 d hd
          · refine ⟨x, Multiset.mem_cons_self _ _, fun d hd => ?_⟩
            rcases Multiset.mem_cons.1 hd with rfl | hd
            · exact Nat.le_refl _
            · exact Nat.le_trans (h2 d hd) hxD
    obtain ⟨D', S0, rfl, eS, hR'⟩ := hR.deepest (by rw [Multiset.card_map]; omega) hD hmax
    obtain ⟨⟨x, d⟩, hx, hxd⟩ := Multiset.mem_map.1 hD
    simp only at hxd
    subst hxd
    obtain ⟨Q, rfl⟩ := Multiset.exists_cons_of_mem hx
    rw [Multiset.map_cons, Multiset.cons_inj_right] at eS
    have hQ : ∀ p ∈ Q, p.2 ≤ D' + 1 := fun p hp =>
      hmax p.2 (Multiset.mem_map.2 ⟨p, Multiset.mem_cons_of_mem hp, rfl⟩)
    obtain ⟨Q1, w1, d1, c1⟩ := exchange hQ hP (by
      intro w hw
      rcases Multiset.mem_cons.1 hw with rfl | hw
      · exact hab
      · exact Nat.le_trans hab (hb w hw))
    rw [eS] at d1
    have hD1 : D' + 1 ∈ Q1.map Prod.snd := by rw [d1]; exact Multiset.mem_cons_self _ _
    obtain ⟨⟨y, d⟩, hy, hyd⟩ := Multiset.mem_map.1 hD1
    simp only at hyd
    subst hyd
    obtain ⟨Q2, rfl⟩ := Multiset.exists_cons_of_mem hy
    rw [Multiset.map_cons, Multiset.cons_inj_right] at d1
    have hQ2 : ∀ p ∈ Q2, p.2 ≤ D' + 1 := by
      intro p hp
      have h1 : p.2 ∈ S0 := d1 ▸ Multiset.mem_map.2 ⟨p, hp, rfl⟩
      have h2 : p.2 ∈ Q.map Prod.snd := by rw [eS]; exact Multiset.mem_cons_of_mem h1
      obtain ⟨q, hq, e⟩ := Multiset.mem_map.1 h2
      rw [← e]
      exact hQ q hq
    obtain ⟨Q3, w3, d3, c3⟩ := exchange hQ2 w1 hb
    have := ih (P := (a + b, D') ::ₘ Q3) (by rw [Multiset.map_cons, w3]) (by rw [Multiset.map_cons, d3, d1]; exact hR')
    rw [cost_cons] at this
    simp only at this
    have e1 : (a + b) * D' = a * D' + b * D' := by ring
    have e2 : a * (D' + 1) = a * D' + a := by ring
    have e3 : b * (D' + 1) = b * D' + b := by ring
    omega

/-! ### Trees -/

/-- Weights and depths of the leaves. -/
def pairs (d : Nat) : BinTree → Multiset (Nat × Nat)
  | .leaf w => {(w, d)}
  | .node l r => pairs (d + 1) l + pairs (d + 1) r

theorem pairs_fst (t : BinTree) : ∀ d, (pairs d t).map Prod.fst = t.leaves := by
  induction t with
  | leaf w => intro d; rfl
  | node l r ihl ihr => intro d; rw [pairs, Multiset.map_add, ihl, ihr, BinTree.leaves]

theorem pairs_cost (t : BinTree) : ∀ d, cost (pairs d t) = t.pathCost d := by
  induction t with
  | leaf w => intro d; simp [pairs, cost, BinTree.pathCost]
  | node l r ihl ihr =>
    intro d
    rw [BinTree.pathCost, ← ihl, ← ihr, pairs, cost, cost, cost, Multiset.map_add, Multiset.sum_add]

theorem pairs_real (t : BinTree) : ∀ (d : Nat) (S : Multiset Nat), Real (d ::ₘ S) →
    Real ((pairs d t).map Prod.snd + S) := by
  induction t with
  | leaf w => intro d S h; simpa [pairs] using h
  | node l r ihl ihr =>
    intro d S h
    rw [pairs, Multiset.map_add, Multiset.add_assoc]
    apply ihl
    rw [← Multiset.add_cons]
    apply ihr
    exact Real.split h

theorem Merged.le_tree {W : Multiset Nat} {c : Nat} (h : Merged W c) (t : BinTree) (ht : t.leaves = W) :
    c ≤ t.pathCost 0 := by
  rw [← pairs_cost]
  refine h.le ((pairs_fst t 0).trans ht) ?_
  have := pairs_real t 0 0 Real.one
  rwa [Multiset.add_zero] at this

/-- Weight of a tree. -/
def weight (t : BinTree) : Nat := t.leaves.sum

theorem pathCost_succ (t : BinTree) : ∀ d, t.pathCost (d + 1) = t.pathCost d + weight t := by
  induction t with
  | leaf w => intro d; simp [BinTree.pathCost, weight, BinTree.leaves, Nat.mul_succ]
  | node l r ihl ihr =>
    intro d
    simp only [BinTree.pathCost, ihl, ihr, weight, BinTree.leaves, Multiset.sum_add]
    omega

/-- The greedy cost is attained by a tree. -/
theorem Merged.attained {W : Multiset Nat} {c : Nat} (h : Merged W c) : W ≠ 0 → ∀ F : Multiset BinTree,
    F.map weight = W → ∃ t : BinTree, t.leaves = (F.map BinTree.leaves).sum ∧
      t.pathCost 0 = (F.map fun s => s.pathCost 0).sum + c := by
  induction h with
  | none => intro h; exact absurd rfl h
  | one w =>
    intro _ F hF
    have : F.card = 1 := by rw [← Multiset.card_map weight, hF]; rfl
    obtain ⟨t, rfl⟩ := Multiset.card_eq_one.1 this
    exact ⟨t, by simp, by simp⟩
  | @merge a b c W hab hb hm ih =>
    intro _ F hF
    have ha : a ∈ F.map weight := hF ▸ Multiset.mem_cons_self _ _
    obtain ⟨ta, hta, rfl⟩ := Multiset.mem_map.1 ha
    obtain ⟨F1, rfl⟩ := Multiset.exists_cons_of_mem hta
    rw [Multiset.map_cons, Multiset.cons_inj_right] at hF
    have hb' : b ∈ F1.map weight := hF ▸ Multiset.mem_cons_self _ _
    obtain ⟨tb, htb, rfl⟩ := Multiset.mem_map.1 hb'
    obtain ⟨F2, rfl⟩ := Multiset.exists_cons_of_mem htb
    rw [Multiset.map_cons, Multiset.cons_inj_right] at hF
    obtain ⟨t, e1, e2⟩ := ih (Multiset.cons_ne_zero) (BinTree.node ta tb ::ₘ F2) (by
      rw [Multiset.map_cons, hF]
      simp [weight, BinTree.leaves])
    refine ⟨t, ?_, ?_⟩
    · rw [e1]
      simp [BinTree.leaves, Multiset.add_assoc]
    · rw [e2]
      simp only [Multiset.map_cons, Multiset.sum_cons, BinTree.pathCost, pathCost_succ]
      omega

end Verif.HuffmanP
