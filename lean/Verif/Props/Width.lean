import Verif.Proof.Width
import Verif.Proof.WidthDijkstra
import Verif.Proof.WidthLifting
import Verif.Props.BinaryLifting
import Verif.Props.Dijkstra
import Verif.Props.Fenwick
/-! C92: targets where `usize` has 32 bits. `lg` has the constant 64 in its text, so there it is 32 too large (and 31 at
zero); what that does to its two users, and that the other functions that compute with `usize` are right. -/
namespace Verif.Props
open Res Model Spec WidthP

/-- The functions of `Model/Width.lean` at 64 bits are those of the other modules. -/
theorem C92_64 {T : Type} :
    (∀ i, Width.lg 64 i = lg i) ∧
    (∀ (v : List T) init op, v.length < 2 ^ 64 → Width.SparseTable.from 64 v init op = SparseTable.from v init op) ∧
    (∀ g root, Width.BinaryLifting.from 64 g root = BinaryLifting.from g root) ∧
    (∀ t u v, Width.BinaryLifting.dis 64 t u v = BinaryLifting.dis t u v) ∧
    (∀ B g s, Width.dijkstra 64 B g s = dijkstra B g s) :=
  ⟨fun _ => rfl, sparse64, lifting64, fun _ _ _ => rfl, fun _ _ _ => rfl⟩

/-- On 32 bits `lg(i)` is 32 more than the floor of the binary logarithm, and `lg(0)`, which panics on 64 bits, is 31. -/
theorem C92_lg :
    Width.lg 32 0 = .ok 31 ∧ ∀ i, i ≠ 0 → i < 2 ^ 32 → Width.lg 32 i = .ok (32 + Nat.log2 i) := by
  refine ⟨by decide, fun i h0 hi => ?_⟩
  rw [lg_at (by omega) (by omega) hi]
  simp only [bitLen, h0, if_false]
  rw [if_neg (by omega)]; exact congrArg _ (by omega)

theorem lg32_ok {n : Nat} (h : n < 2 ^ 32) : Width.lg 32 n = .ok (31 + bitLen n) := by
  rw [lg_at (by omega) (by omega) h, if_neg (by omega)]; congr 1; omega

section
variable {T : Type}

/-- On 32 bits `SparseTable::from` panics in a debug build, whatever the slice and the operation (provided that the
operation itself does not run for ever). -/
theorem C92_sparse (v : List T) (init : T) (op : T → T → Res T) (hop : ∀ a b, op a b ≠ .diverge)
    (hn : v.length < 2 ^ 32) : Width.SparseTable.from 32 v init op = .panic :=
  sparse_panics v init op hop (lg32_ok hn) (by omega) (by omega)

/-- In a release build too, for slices that fit in memory: the subtraction wraps around and the next index is out of
range. -/
theorem C92_sparse_release (v : List T) (init : T) (op : T → T → Res T) (hop : ∀ a b, op a b ≠ .diverge)
    (hn : v.length < 2 ^ 31) : Width.SparseTable.fromRelease 32 v init op = .panic :=
  sparse_release_panics v init op hop (lg32_ok (by omega)) (by omega) (by omega)
    (Nat.lt_succ_of_le (bitLen_le_iff.2 hn)) (by omega)

/-- The same slice on 64 bits. -/
example : Width.SparseTable.from 64 [3, 1, 2] 0 (fun a b => .ok (min a b)) = .ok ⟨[[3, 1, 2], [1, 1, 0]]⟩ ∧
    Width.SparseTable.from 32 [3, 1, 2] 0 (fun a b => .ok (min a b)) = .panic ∧
    Width.SparseTable.fromRelease 64 [3, 1, 2] 0 (fun a b => .ok (min a b)) = .ok ⟨[[3, 1, 2], [1, 1, 0]]⟩ ∧
    Width.SparseTable.fromRelease 32 [3, 1, 2] 0 (fun a b => .ok (min a b)) = .panic := by
  refine ⟨by decide +kernel, C92_sparse _ _ _ (by simp) (by decide), by decide +kernel,
    C92_sparse_release _ _ _ (by simp) (by decide)⟩

end

/-- Binary lifting on 32 bits: the table has 32 columns more than needed, and every answer is right. -/
theorem C92_lifting {g : List (List Nat)} {root : Nat} (T : IsTree g) (hr : root < g.length) (hn : g.length < 2 ^ 31) :
    ∃ t, Width.BinaryLifting.from 32 g root = .ok t ∧ t.level = Nat.log2 g.length + 33 ∧
      ∀ u v, u < g.length → v < g.length →
        (∃ b, t.isAncestor u v = .ok b ∧ (b = true ↔ Ancestor g root u v)) ∧
        (∃ l, t.lca u v = .ok l ∧ IsLca g root u v l) ∧
        (∃ d, Width.BinaryLifting.dis 32 t u v = .ok d ∧ IsTreeDist g u v d) := by
  have h0 : g.length ≠ 0 := by omega
  have hlog : Nat.log2 g.length < 31 := (Nat.log2_lt h0).2 hn
  have h1 : g.length < 2 ^ (32 + Nat.log2 g.length + 1) :=
    Nat.lt_of_lt_of_le (Nat.lt_log2_self (n := g.length)) (Nat.pow_le_pow_right (by omega) (by omega))
  obtain ⟨t, e, h2, h3⟩ := BLP.fromW_sat T hr (C92_lg.2 _ h0 (by omega)) h1 (by omega) (by omega)
  refine ⟨t, e, by omega, fun u v hu hv => ⟨BLP.isAncestor_sat T hr h2 hu hv, BLP.lca_sat T hr h2 hu hv,
    BLP.disW_sat T hr h2 (by omega) hu hv⟩⟩

example : IsTree treeExample ∧ 1 < treeExample.length ∧ treeExample.length < 2 ^ 31 ∧
    (do let t ← Width.BinaryLifting.from 32 treeExample 0; t.lca 4 5) = .ok 3 ∧
    (do let t ← Width.BinaryLifting.from 32 treeExample 0; Width.BinaryLifting.dis 32 t 2 5) = .ok 4 :=
  ⟨treeExample_isTree, by decide, by decide, by decide +kernel, by decide +kernel⟩

section
variable {A : Type}

/-- A history of `add(i, v)` calls on a 32-bit target. -/
def fenwickRun32 (add : A → A → Res A) (t : Fenwick A) : List (Nat × A) → Res (Fenwick A)
  | [] => .ok t
  | (i, v) :: ops => do let t ← Width.Fenwick.addAt 32 add t i v; fenwickRun32 add t ops

theorem addAt_n {U : Type} {add : A → U → Res A} {t t' : Fenwick A} {i : Nat} {v : U}
    (h : t.addAt add i v = .ok t') : t'.n = t.n := by
  unfold Fenwick.addAt at h
  obtain ⟨_, -, h⟩ := bind_ok_inv h
  obtain ⟨_, -, h⟩ := bind_ok_inv h
  cases h; rfl

theorem from_n {add : A → A → Res A} {zero : A} {a : List A} {t : Fenwick A} (h : Fenwick.from add zero a = .ok t) :
    t.n = a.length := by
  unfold Fenwick.from at h
  obtain ⟨_, -, h⟩ := bind_ok_inv h
  cases h; rfl

theorem fenwickRun32_eq [AddCommMonoid A] (add : A → A → Res A) (t : Fenwick A) (ops : List (Nat × A))
    (hn : t.n < 2 ^ 31) (hi : ∀ p ∈ ops, p.1 + 1 < 2 ^ 32) : fenwickRun32 add t ops = fenwickRun add t ops := by
  induction ops generalizing t with
  | nil => rfl
  | cons p ops ih =>
    obtain ⟨i, v⟩ := p
    unfold fenwickRun32 fenwickRun
    rw [fenwick_add (by omega) add t i v (by omega) (hi (i, v) (by simp))]
    cases e : t.addAt add i v with
    | panic => rfl
    | diverge => rfl
    | ok t' =>
      exact ih t' (by rw [addAt_n e]; exact hn) fun p hp => hi p (List.mem_cons_of_mem _ hp)

/-- Fenwick trees of fewer than `2^31` elements behave on 32 bits as on 64 bits, whatever the operations: `from` and any
history of `add`s, and `partition_point` of any tree (`pref` and `sum` do not compute with the width). So C02 and C03
hold there as well. -/
theorem C92_fenwick [AddCommMonoid A] (add : A → A → Res A) :
    (∀ (a : List A) (ops : List (Nat × A)), a.length < 2 ^ 31 → (∀ p ∈ ops, p.1 + 1 < 2 ^ 32) →
      (do let t ← Width.Fenwick.from 32 add 0 a; fenwickRun32 add t ops) =
        (do let t ← Fenwick.from add 0 a; fenwickRun add t ops)) ∧
    (∀ (t : Fenwick A) pred, t.n < 2 ^ 31 →
      Width.Fenwick.partitionPoint 32 add 0 t pred = t.partitionPoint add 0 pred) := by
  refine ⟨fun a ops hn hi => ?_, fun t pred hn => fenwick_partition (by omega) (by omega) add 0 t pred (by omega)⟩
  rw [fenwick_from (by omega) add 0 a (by omega)]
  cases e : Fenwick.from add 0 a with
  | panic => rfl
  | diverge => rfl
  | ok t => exact fenwickRun32_eq add t ops (by rw [from_n e]; exact hn) hi

/-- The bound is sharp: `from` of `2^31` elements (of a type without size) panics on 32 bits only. -/
theorem C92_fenwick_sharp (t : Fenwick A) (v : A) (add : A → A → Res A) (hn : t.n = 2 ^ 31) (hl : t.ary.length = 2 ^ 31)
    (ha : ∀ x, ∃ y, add x v = .ok y) :
    Width.Fenwick.addAt 32 add t (2 ^ 31 - 1) v = .panic ∧ ∃ t', t.addAt add (2 ^ 31 - 1) v = .ok t' := by
  have e1 : addU 32 (2 ^ 31 - 1) 1 = .ok (2 ^ 31) := by decide
  have e2 : addU 64 (2 ^ 31 - 1) 1 = .ok (2 ^ 31) := by decide
  obtain ⟨x, hx⟩ : ∃ x, t.ary[2 ^ 31 - 1]? = some x := ⟨t.ary[2 ^ 31 - 1], by simp [hl]⟩
  obtain ⟨y, hy⟩ := ha x
  have hlt : 2 ^ 31 - 1 < t.ary.length := by omega
  constructor
  · unfold Width.Fenwick.addAt
    rw [e1, ok_bind]
    unfold whileLoop
    simp only [hn, Nat.le_refl, decide_true, ok_bind, if_true]
    rw [idx_of_some hx, ok_bind, hy, ok_bind, upd_of_lt hlt, ok_bind]
    have : addU 32 (2 ^ 31) (2 ^ 31 &&& wnegU 32 (2 ^ 31)) = .panic := by decide
    rw [this]; rfl
  · unfold Fenwick.addAt
    rw [e2, ok_bind, hn, show (2 : Nat) ^ 31 + 1 = (2 ^ 31 - 1) + 1 + 1 by omega]
    have : addU 64 (2 ^ 31) (2 ^ 31 &&& wnegU 64 (2 ^ 31)) = .ok (2 ^ 32) := by decide
    unfold whileLoop
    simp only [Nat.le_refl, decide_true, ok_bind, if_true]
    rw [idx_of_some hx, ok_bind, hy, ok_bind, upd_of_lt hlt, ok_bind, this, ok_bind, ok_bind]
    unfold whileLoop
    rw [show decide ((2 : Nat) ^ 32 ≤ 2 ^ 31) = false from by decide]
    exact ⟨_, rfl⟩

example : (do
    let t ← Width.Fenwick.from 32 (fun a b => ckI 32 (a + b)) (0 : Int) [1, 2, 3, 4]
    let t ← fenwickRun32 (fun a b => ckI 32 (a + b)) t [(3, 10), (0, -1)]
    Width.Fenwick.partitionPoint 32 (fun a b => ckI 32 (a + b)) 0 t (· < 6)) = .ok 3 := by decide +kernel

end

section
variable {B : BinaryHeap (Nat ×ₗ Nat)ᵒᵈ} {g : List (List (Nat × Nat))} {s : Nat}

/-- `dijkstra` on 32 bits: exact distances, or a panic when a distance plus the weight of an outgoing edge exceeds
`u32::MAX` (or an edge leaves the graph). -/
theorem C92_dijkstra (hs : s < g.length) (hE : ¬ LeavesGraph g s) (ho : ¬ DistOverflowAt 32 g s) :
    ∃ dis, Width.dijkstra 32 B g s = .ok dis ∧ dis.length = g.length ∧ ∀ v, v < g.length →
      (dis[v]? = some none ↔ ¬ ∃ d, Walk g s v d) ∧
      ∀ d, dis[v]? = some (some d) ↔ IsDist g s v d := by
  obtain ⟨dis, h1, h2, h3, h4⟩ := (DijkstraP.dijkstraW_satOr (B := B) hs).sat (by tauto)
  refine ⟨dis, h1, h2, fun v hv => ?_⟩
  rw [DijkstraP.getD_some (h2 ▸ hv)]
  cases hd : dis.getD v none with
  | none =>
    have := h3 v hv hd
    refine ⟨⟨fun _ ⟨d, hw⟩ => this d hw, fun _ => rfl⟩, fun d => ⟨fun h => by simp at h, ?_⟩⟩
    intro h; exact absurd h.1 (this d)
  | some d =>
    have hD := (h4 v d hd).1
    refine ⟨⟨fun h => by simp at h, fun h => absurd ⟨d, hD.1⟩ h⟩, fun d' => ⟨?_, ?_⟩⟩
    · intro h
      have : d = d' := by simpa using h
      exact this ▸ hD
    · intro h
      rw [Nat.le_antisymm (hD.2 d' h.1) (h.2 d hD.1)]

/-- Exactly when `dijkstra` panics on 32 bits. -/
theorem C92_dijkstra_panics :
    Width.dijkstra 32 B g s = .panic ↔ g.length ≤ s ∨ DistOverflowAt 32 g s ∨ LeavesGraph g s := by
  constructor
  · intro h
    by_contra hc
    simp only [not_or, Nat.not_le] at hc
    obtain ⟨dis, h1, -⟩ := C92_dijkstra (B := B) hc.1 hc.2.2 hc.2.1
    rw [h1] at h; cases h
  · rcases Nat.lt_or_ge s g.length with hs | hs
    · intro hbad
      refine (DijkstraP.dijkstraW_satOr (N := 32) (B := B) hs).panic ?_
      rintro dis ⟨h2, h3, h4⟩
      have hlt : ∀ {u e}, e ∈ g.getD u [] → u < g.length := by
        intro u e he
        by_contra hu
        rw [List.getD_eq_getElem?_getD, List.getElem?_eq_none (by omega)] at he
        simp at he
      rcases hbad with h | ⟨u, d, v, c, hd, he, hov⟩ | ⟨u, d, v, c, hd, he, hv⟩
      · omega
      · cases hx : dis.getD u none with
        | none => exact h3 u (hlt he) hx d hd.1
        | some x =>
          obtain ⟨hD, hr⟩ := h4 u x hx
          have h5 := (hr _ he).1
          have := hd.2 x hD.1
          simp only at h5
          omega
      · cases hx : dis.getD u none with
        | none => exact h3 u (hlt he) hx d hd
        | some x =>
          have h5 := ((h4 u x hx).2 _ he).2
          simp only at h5
          omega
    · intro _
      have : upd (List.replicate g.length (none : Option Nat)) s (some 0) = .panic :=
        upd_panic (by simpa using hs)
      simp only [Width.dijkstra, this, panic_bind]

/-- A distance that fits and an edge back that does not: 64 bits are enough, 32 are not. -/
example : Width.dijkstra 32 (listHeap _) [[(1, 2 ^ 32 - 1)], [(0, 1)]] 0 = .panic ∧
    Width.dijkstra 64 (listHeap _) [[(1, 2 ^ 32 - 1)], [(0, 1)]] 0 = .ok [some 0, some (2 ^ 32 - 1)] ∧
    Width.dijkstra 32 (listHeap _) dijkstraExample 0 = .ok [some 0, some 3, some 1, none] := by
  refine ⟨by decide +kernel, by decide +kernel, by decide +kernel⟩

end
end Verif.Props
