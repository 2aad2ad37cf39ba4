import Verif.Props.SegtreeAny
import Verif.Props.LazySegtree
import Verif.Props.Monoids
import Verif.Proof.LazyRange
import Mathlib.Data.List.Infix
import Mathlib.Order.Bounds.Basic
/-! C117: programs that use the segment trees: longest increasing subsequences, greatest sums of subarrays, balanced
brackets, overlapping intervals. -/
namespace Verif.Props
open Res Model Spec

section summary
variable {E S : Type}

theorem setAll_len (a : List E) (ops : List (Nat × E)) : (setAll a ops).length = a.length := by
  induction ops generalizing a with
  | nil => rfl
  | cons p ops ih => rw [setAll, ih, List.length_set]

/-- C117: let the elements of a segment tree describe lists, `RS x w` saying that `x` describes `w`, so that the
operation describes concatenations. Then `prod(l, r)` describes the list of the entries `l..r` at the time. -/
theorem C117_describes (RS : S → List E → Prop) (R : MonoidOps S) (he : RS R.e [])
    (hop : ∀ x y u w, RS x u → RS y w → ∃ z, R.op x y = ok z ∧ RS z (u ++ w)) (one : E → S) (h1 : ∀ x, RS (one x) [x])
    (v : List E) (hn : v.length < 2 ^ 32) (ops : List (Nat × E)) (hops : ∀ o ∈ ops, o.1 < v.length) :
    ∃ t, SegReached R (v.map one) (ops.map fun o => (o.1, one o.2)) t ∧
      (∀ l r, l ≤ r → r ≤ v.length → ∃ x, t.prod R l r = ok x ∧ RS x (((setAll v ops).take r).drop l)) ∧
      ∃ x, t.allProd = ok x ∧ RS x (setAll v ops) := by
  have hs : SegSim.OpSim False False (fun x (w : FreeMonoid E) => RS x w.toList) R (pureOps (FreeMonoid E)) := by
    refine ⟨he, fun x y u w h1 h2 => ?_⟩
    obtain ⟨z, e, h⟩ := hop x y u.toList w.toList h1 h2
    rw [e]
    exact sim_ok h
  have hlist : ListRel (fun x (w : FreeMonoid E) => RS x w.toList) (v.map one) (v.map FreeMonoid.of) :=
    ⟨by simp, fun i a b h2 h3 => by
      rw [List.getElem?_map] at h2 h3
      cases hv : v[i]? with
      | none => rw [hv] at h2; cases h2
      | some x => rw [hv] at h2 h3; cases h2; cases h3; exact h1 x⟩
  obtain ⟨t0, e0, h0⟩ := SegP.from_sat (pureOps_lawful (A := FreeMonoid E)) (a := v.map FreeMonoid.of)
    (fun _ _ => trivial) (by simpa using hn)
  have hsim0 := SegSim.from_sim hs hlist
  rw [e0] at hsim0
  obtain ⟨s0, es0, k0⟩ : ∃ s0, Segtree.from R (v.map one) = ok s0 ∧ SegSim.TS (fun x (w : FreeMonoid E) => RS x w.toList) s0 t0 := by
    rcases hsim0 with ⟨h, _⟩ | ⟨h, _⟩ | ⟨_, h⟩ | ⟨_, h⟩ | ⟨a, b, e1, e2, h⟩
    · exact h.elim
    · exact h.elim
    · cases h
    · cases h
    · cases e2; exact ⟨a, e1, h⟩
  have step : ∀ (ops : List (Nat × E)) (w : List E) (s0 : Segtree S) (t0 : Segtree (FreeMonoid E)),
      (∀ o ∈ ops, o.1 < w.length) → SegSim.TS (fun x (w : FreeMonoid E) => RS x w.toList) s0 t0 →
      SegP.Rep t0 (w.map FreeMonoid.of) →
      ∃ s t, segRun R s0 (ops.map fun o => (o.1, one o.2)) = ok s ∧
        SegSim.TS (fun x (w : FreeMonoid E) => RS x w.toList) s t ∧ SegP.Rep t ((setAll w ops).map FreeMonoid.of) := by
    intro ops
    induction ops with
    | nil => intro w s0 t0 _ k h; exact ⟨s0, t0, rfl, k, h⟩
    | cons o ops ih =>
      intro w s0 t0 ho k h
      obtain ⟨t1, e1, k1⟩ := SegP.set_sat (pureOps_lawful (A := FreeMonoid E)) h (p := o.1) (x := FreeMonoid.of o.2)
        (by simpa using ho o (by simp)) (fun _ _ => trivial)
      have hsim := SegSim.set_sim hs k o.1 (x := one o.2) (x' := FreeMonoid.of o.2) (h1 o.2)
      rw [e1] at hsim
      rcases hsim with ⟨h, _⟩ | ⟨h, _⟩ | ⟨_, h⟩ | ⟨_, h⟩ | ⟨a, b, e2, e3, h'⟩
      · exact h.elim
      · exact h.elim
      · cases h
      · cases h
      cases e3
      rw [← List.map_set] at k1
      obtain ⟨s, t, e4, k2, k3⟩ := ih (w.set o.1 o.2) a t1 (fun o' h => by rw [List.length_set]; exact ho o' (by simp [h])) h' k1
      exact ⟨s, t, by rw [List.map_cons, segRun, e2, ok_bind, e4], k2, k3⟩
  obtain ⟨s, t, e1, k1, k2⟩ := step ops v s0 t0 hops k0 h0
  have hp : ∀ w : List E, ((w.map FreeMonoid.of).prod).toList = w := by
    intro w
    induction w with
    | nil => rfl
    | cons x w ih => rw [List.map_cons, List.prod_cons, FreeMonoid.toList_mul, ih]; rfl
  refine ⟨s, ⟨s0, es0, e1⟩, fun l r hlr hr => ?_, ?_⟩
  · have hsim := SegSim.prod_sim hs k1 l r
    rw [SegP.prod_sat (pureOps_lawful (A := FreeMonoid E)) k2 (fun _ _ => trivial) hlr
      (by rw [List.length_map, setAll_len]; exact hr)] at hsim
    rcases hsim with ⟨h, _⟩ | ⟨h, _⟩ | ⟨_, h⟩ | ⟨_, h⟩ | ⟨a, b, e2, e3, h'⟩
    · exact h.elim
    · exact h.elim
    · cases h
    · cases h
    cases e3
    rw [rangeProd, ← List.map_take, ← List.map_drop, hp] at h'
    exact ⟨a, e2, h'⟩
  · have hsim := SegSim.allProd_sim (p := False) (q := False) k1
    rw [SegP.allProd_sat k2] at hsim
    rcases hsim with ⟨h, _⟩ | ⟨h, _⟩ | ⟨_, h⟩ | ⟨_, h⟩ | ⟨a, b, e2, e3, h'⟩
    · exact h.elim
    · exact h.elim
    · cases h
    · cases h
    cases e3
    rw [hp] at h'
    exact ⟨a, e2, h'⟩

end summary

/-- Longest increasing subsequence of a list of numbers below `n`: the tree holds, for each number, the length of the
longest one that ends with it so far; it uses `Max` of the crate over `u64`. -/
def lis (n : Nat) (v : List Nat) : Res Int := do
  let t ← Segtree.new (maxOps ⟨false, 64⟩) n
  let t ← forList v t fun x t => do
    let b ← t.prod (maxOps ⟨false, 64⟩) 0 x
    let y ← Val.ck ⟨false, 64⟩ (b.val + 1)
    t.set (maxOps ⟨false, 64⟩) x y
  let r ← t.allProd
  ok r.val

/-- `k` is the length of the longest increasing subsequence of `u` that ends with `x`, `0` if there is none. -/
def EndLis (u : List Nat) (x : Nat) (k : Int) : Prop :=
  (k = 0 ∨ ∃ w : List Nat, (w ++ [x]).Sublist u ∧ (w ++ [x]).Pairwise (· < ·) ∧ k = w.length + 1) ∧
    ∀ w : List Nat, (w ++ [x]).Sublist u → (w ++ [x]).Pairwise (· < ·) → (w.length : Int) + 1 ≤ k

theorem snoc_sublist {w u : List Nat} {x y : Nat} : (w ++ [x]).Sublist (u ++ [y]) ↔
    (w ++ [x]).Sublist u ∨ x = y ∧ w.Sublist u := by
  rw [← List.reverse_sublist, List.reverse_append, List.reverse_append]
  simp only [List.reverse_cons, List.reverse_nil, List.nil_append, List.singleton_append]
  constructor
  · intro h
    cases h with
    | cons _ h =>
      left
      rw [← List.reverse_sublist]; simpa using h
    | cons_cons _ h =>
      right
      exact ⟨rfl, List.reverse_sublist.1 h⟩
  · rintro (h | ⟨rfl, h⟩)
    · refine .cons _ ?_
      rw [← List.reverse_sublist] at h; simpa using h
    · exact (List.reverse_sublist.2 h).cons_cons _

theorem maxProd_val (ty : IntTy) (xs : List (Val ty)) :
    letI := maxMonoid ty
    (∀ x ∈ xs, x.1 ≤ xs.prod.1) ∧ (xs.prod ∈ xs ∨ xs.prod.1 = ty.mn) := by
  let := maxMonoid ty
  induction xs with
  | nil => exact ⟨by simp, .inr rfl⟩
  | cons x xs ih =>
    rw [List.prod_cons]
    obtain ⟨c, e, hc⟩ := maxOps_val x xs.prod
    have e' : x * xs.prod = c := by injection e
    rw [e']
    constructor
    · intro y hy
      rcases List.mem_cons.1 hy with rfl | hy
      · omega
      · have := ih.1 y hy; omega
    · by_cases h : x.1 ≤ xs.prod.1
      · have : c = xs.prod := val_ext (by omega)
        rw [this]
        rcases ih.2 with h | h
        · exact .inl (List.mem_cons_of_mem _ h)
        · exact .inr h
      · have : c = x := val_ext (by omega)
        rw [this]
        exact .inl (by simp)

/-- C117: the program returns the greatest length of a strictly increasing subsequence. -/
theorem C117_lis (n : Nat) (v : List Nat) (hn : n < 2 ^ 32) (hv : ∀ x ∈ v, x < n) (hl : v.length < 2 ^ 64) :
    ∃ k : Nat, lis n v = ok (k : Int) ∧ (∃ w : List Nat, w.Sublist v ∧ w.Pairwise (· < ·) ∧ w.length = k) ∧
      ∀ w : List Nat, w.Sublist v → w.Pairwise (· < ·) → w.length ≤ k := by
  let := maxMonoid ⟨false, 64⟩
  have hM : LawfulOps (maxOps ⟨false, 64⟩) (fun _ => True) := ⟨rfl, fun _ _ _ => rfl⟩
  have hmn : (⟨false, 64⟩ : IntTy).mn = 0 := rfl
  let Inv : List Nat → Segtree (Val ⟨false, 64⟩) → Prop := fun u t =>
    ∃ a : List (Val ⟨false, 64⟩), SegP.Rep t a ∧ a.length = n ∧ ∀ x y, a[x]? = some y → EndLis u x y.1
  have h0 : Sat (Segtree.new (maxOps ⟨false, 64⟩) n) (Inv []) := by
    rw [C04_new hM]
    refine (SegP.from_sat hM (fun _ _ => trivial) (by simpa using hn)).mono fun t ht => ⟨_, ht, by simp, ?_⟩
    intro x y hxy
    obtain ⟨_, rfl⟩ : x < n ∧ 1 = y := by
      rw [List.getElem?_replicate] at hxy; split at hxy
      · cases hxy; exact ⟨by assumption, rfl⟩
      · cases hxy
    refine ⟨.inl rfl, fun w h => ?_⟩
    simp at h
  have hstep : ∀ (u : List Nat) (x : Nat) (t : Segtree (Val ⟨false, 64⟩)), x < n → u.length + 1 < 2 ^ 64 → Inv u t →
      Sat (do
        let b ← t.prod (maxOps ⟨false, 64⟩) 0 x
        let y ← Val.ck ⟨false, 64⟩ (b.val + 1)
        t.set (maxOps ⟨false, 64⟩) x y) (Inv (u ++ [x])) := by
    rintro u x t hx hu ⟨a, hr, ha, hE⟩
    rw [SegP.prod_sat hM hr (fun _ _ => trivial) (Nat.zero_le _) (by omega), ok_bind]
    obtain ⟨hb1, hb2⟩ := maxProd_val ⟨false, 64⟩ ((a.take x).drop 0)
    change (∀ y : Val ⟨false, 64⟩, y ∈ _ → y.1 ≤ (rangeProd a 0 x).1) at hb1
    change (rangeProd a 0 x) ∈ _ ∨ (rangeProd a 0 x).1 = _ at hb2
    generalize rangeProd a 0 x = b at hb1 hb2
    rw [List.drop_zero] at hb1 hb2
    have hlow : ∀ z y, z < x → a[z]? = some y → y.1 ≤ b.1 := fun z y hz hy =>
      hb1 y (List.mem_iff_getElem?.2 ⟨z, by rw [List.getElem?_take, if_pos hz, hy]⟩)
    have hatt : b.1 = 0 ∨ ∃ z w, z < x ∧ (w ++ [z]).Sublist u ∧ (w ++ [z]).Pairwise (· < ·) ∧ b.1 = (w.length : Int) + 1 := by
      rcases hb2 with h | h
      · obtain ⟨z, hz⟩ := List.mem_iff_getElem?.1 h
        rw [List.getElem?_take] at hz
        split at hz
        · rcases (hE z b hz).1 with h | ⟨w, h1, h2, h3⟩
          · exact .inl h
          · exact .inr ⟨z, w, by assumption, h1, h2, h3⟩
        · cases hz
      · exact .inl (h.trans hmn)
    have hbu : 0 ≤ b.1 ∧ b.1 ≤ u.length := by
      rcases hatt with h | ⟨z, w, _, h1, _, h3⟩
      · omega
      · have := h1.length_le
        simp at this
        omega
    have hin : (⟨false, 64⟩ : IntTy).In (b.1 + 1) := by
      have : (⟨false, 64⟩ : IntTy).mx = 2 ^ 64 - 1 := rfl
      refine ⟨by rw [hmn]; omega, by rw [this]; omega⟩
    rw [Val.ck, dif_pos hin, ok_bind]
    refine (SegP.set_sat hM hr (by omega) (fun _ _ => trivial)).mono fun t' ht' => ⟨_, ht', by simpa using ha, ?_⟩
    intro z y hz
    rw [List.getElem?_set] at hz
    split at hz
    · rename_i hxz
      subst hxz
      rw [if_pos (by omega)] at hz
      cases hz
      constructor
      · right
        rcases hatt with h | ⟨z, w, hzx, h1, h2, h3⟩
        · exact ⟨[], by simp, by simp, by simp [h]⟩
        · refine ⟨w ++ [z], snoc_sublist.2 (.inr ⟨rfl, h1⟩), ?_, by simp [h3]⟩
          rw [List.pairwise_append]
          refine ⟨h2, by simp, fun c hc d hd => ?_⟩
          obtain rfl : d = x := by simpa using hd
          rcases List.mem_append.1 hc with hc | hc
          · exact Nat.lt_trans ((List.pairwise_append.1 h2).2.2 c hc z (by simp)) hzx
          · obtain rfl : c = z := by simpa using hc
            exact hzx
      · intro w h1 h2
        show (w.length : Int) + 1 ≤ b.1 + 1
        have hw : w.Sublist u := by
          rcases snoc_sublist.1 h1 with h | ⟨_, h⟩
          · exact (List.sublist_append_left _ _).trans h
          · exact h
        rcases List.eq_nil_or_concat w with rfl | ⟨w', z, rfl⟩
        · simp; omega
        · rw [List.concat_eq_append] at *
          have hzx : z < x := (List.pairwise_append.1 h2).2.2 z (by simp) x (by simp)
          obtain ⟨y, hy⟩ : ∃ y, a[z]? = some y := ⟨a[z], by simp⟩
          have := (hE z y hy).2 w' hw (List.pairwise_append.1 h2).1
          have := hlow z y hzx hy
          simp; omega
    · rename_i hxz
      obtain ⟨h1, h2⟩ := hE z y hz
      refine ⟨?_, fun w h3 h4 => ?_⟩
      · rcases h1 with h1 | ⟨w, h3, h4, h5⟩
        · exact .inl h1
        · exact .inr ⟨w, snoc_sublist.2 (.inl h3), h4, h5⟩
      · rcases snoc_sublist.1 h3 with h | ⟨h, _⟩
        · exact h2 w h h4
        · exact absurd h.symm hxz
  have hrun : Sat (lis n v) (fun k => 0 ≤ k ∧ (∃ w : List Nat, w.Sublist v ∧ w.Pairwise (· < ·) ∧ (w.length : Int) = k) ∧
      ∀ w : List Nat, w.Sublist v → w.Pairwise (· < ·) → (w.length : Int) ≤ k) := by
    unfold lis
    rw [sat_bind]
    refine h0.mono fun t0 ht0 => ?_
    rw [sat_bind]
    refine (forList_sat Inv v [] t0 ht0 ?_).mono fun t ht => ?_
    · intro p x r t e hI
      rw [List.nil_append] at e
      refine hstep p x t (hv x (by rw [e]; simp)) ?_ hI
      have := congrArg List.length e
      simp at this
      omega
    · obtain ⟨a, hr, ha, hE⟩ := ht
      rw [List.nil_append] at hE
      rw [SegP.allProd_sat hr, ok_bind, sat_ok]
      obtain ⟨hb1, hb2⟩ := maxProd_val ⟨false, 64⟩ a
      generalize a.prod = b at hb1 hb2
      refine ⟨by have := b.2.1; rw [hmn] at this; exact this, ?_, ?_⟩
      · rcases hb2 with h | h
        · obtain ⟨z, hz⟩ := List.mem_iff_getElem?.1 h
          rcases (hE z b hz).1 with h | ⟨w, h1, h2, h3⟩
          · exact ⟨[], by simp, by simp, by simp [h]⟩
          · exact ⟨w ++ [z], h1, h2, by simp [h3]⟩
        · exact ⟨[], by simp, by simp, by simp [h, hmn]⟩
      · intro w h1 h2
        rcases List.eq_nil_or_concat w with rfl | ⟨w', z, rfl⟩
        · have := b.2.1; rw [hmn] at this; simpa using this
        · rw [List.concat_eq_append] at *
          have hz : z < n := hv z (h1.subset (by simp))
          obtain ⟨y, hy⟩ : ∃ y, a[z]? = some y := ⟨a[z], by simp⟩
          have := (hE z y hy).2 w' h1 h2
          have := hb1 y (List.mem_of_getElem? hy)
          simp; omega
  obtain ⟨k, e, hk, h1, h2⟩ := hrun
  obtain ⟨k, rfl⟩ := Int.eq_ofNat_of_zero_le hk
  refine ⟨k, e, ?_, fun w hw hp => by exact_mod_cast h2 w hw hp⟩
  obtain ⟨w, h3, h4, h5⟩ := h1
  exact ⟨w, h3, h4, by exact_mod_cast h5⟩

/-- What a node of a tree for greatest sums of subarrays holds. -/
structure Sub where
  sum : Int
  pre : Int
  suf : Int
  best : Int
deriving DecidableEq

/-- The monoid a user writes for greatest sums of subarrays, which may be empty. -/
def subarrayOps : MonoidOps Sub := ⟨⟨0, 0, 0, 0⟩, fun x y => ok
  { sum := x.sum + y.sum, pre := max x.pre (x.sum + y.pre), suf := max y.suf (y.sum + x.suf),
    best := max (max x.best y.best) (x.suf + y.pre) }⟩

/-- The element for one number. -/
def Sub.one (x : Int) : Sub := ⟨x, max x 0, max x 0, max x 0⟩

/-- `k` is the greatest sum of the lists in `P`. -/
def Top (P : List Int → Prop) (k : Int) : Prop := (∃ p, P p ∧ p.sum = k) ∧ ∀ p, P p → p.sum ≤ k

/-- `x` holds the sum of `w` and the greatest sums of its prefixes, suffixes and infixes. -/
def SubOf (x : Sub) (w : List Int) : Prop :=
  x.sum = w.sum ∧ Top (· <+: w) x.pre ∧ Top (· <:+ w) x.suf ∧ Top (· <:+: w) x.best

theorem prefix_app {α : Type} {p u w : List α} : p <+: u ++ w ↔ p <+: u ∨ ∃ q, q <+: w ∧ p = u ++ q := by
  constructor
  · rintro ⟨s, h⟩
    rcases List.append_eq_append_iff.1 h with ⟨a, h1, h2⟩ | ⟨c, h1, h2⟩
    · exact .inl ⟨a, h1.symm⟩
    · exact .inr ⟨c, ⟨s, h2.symm⟩, h1⟩
  · rintro (h | ⟨q, ⟨s, h⟩, rfl⟩)
    · exact h.trans (List.prefix_append _ _)
    · exact ⟨s, by rw [List.append_assoc, h]⟩

theorem suffix_app {α : Type} {p u w : List α} : p <:+ u ++ w ↔ p <:+ w ∨ ∃ q, q <:+ u ∧ p = q ++ w := by
  constructor
  · rintro ⟨s, h⟩
    rcases List.append_eq_append_iff.1 h with ⟨a, h1, h2⟩ | ⟨c, h1, h2⟩
    · exact .inr ⟨a, ⟨s, h1.symm⟩, h2⟩
    · exact .inl ⟨c, h2.symm⟩
  · rintro (h | ⟨q, ⟨s, h⟩, rfl⟩)
    · exact h.trans (List.suffix_append _ _)
    · exact ⟨s, by rw [← List.append_assoc, h]⟩

theorem infix_app {α : Type} {p u w : List α} :
    p <:+: u ++ w ↔ p <:+: u ∨ p <:+: w ∨ ∃ a c, a <:+ u ∧ c <+: w ∧ p = a ++ c := by
  constructor
  · rintro ⟨s, t, h⟩
    rcases List.append_eq_append_iff.1 h with ⟨a, h1, h2⟩ | ⟨c, h1, h2⟩
    · exact .inl ⟨s, a, h1.symm⟩
    · rcases List.append_eq_append_iff.1 h1 with ⟨a, h3, h4⟩ | ⟨d, h3, h4⟩
      · exact .inr (.inr ⟨a, c, ⟨s, h3.symm⟩, ⟨t, h2.symm⟩, h4⟩)
      · exact .inr (.inl ⟨d, t, by rw [← h4, h2]⟩)
  · rintro (h | h | ⟨a, c, ⟨s, rfl⟩, ⟨t, rfl⟩, rfl⟩)
    · exact h.trans (List.prefix_append _ _).isInfix
    · exact h.trans (List.suffix_append _ _).isInfix
    · exact ⟨s, t, by simp⟩

theorem subOf_op {x y : Sub} {u w : List Int} (h : SubOf x u) (k : SubOf y w) :
    ∃ z, subarrayOps.op x y = ok z ∧ SubOf z (u ++ w) := by
  obtain ⟨h1, ⟨⟨p1, hp1, hp2⟩, hp3⟩, ⟨⟨s1, hs1, hs2⟩, hs3⟩, ⟨⟨b1, hb1, hb2⟩, hb3⟩⟩ := h
  obtain ⟨k1, ⟨⟨p2, kp1, kp2⟩, kp3⟩, ⟨⟨s2, ks1, ks2⟩, ks3⟩, ⟨⟨b2, kb1, kb2⟩, kb3⟩⟩ := k
  refine ⟨_, rfl, by simp [h1, k1], ⟨?_, ?_⟩, ⟨?_, ?_⟩, ⟨?_, ?_⟩⟩
  · rcases Int.le_total (x.sum + y.pre) x.pre with h | h
    · exact ⟨p1, prefix_app.2 (.inl hp1), by simp only []; omega⟩
    · exact ⟨u ++ p2, prefix_app.2 (.inr ⟨p2, kp1, rfl⟩), by simp only [List.sum_append]; omega⟩
  · intro p hp
    simp only []
    rcases prefix_app.1 hp with h | ⟨q, h, rfl⟩
    · have := hp3 p h; omega
    · have := kp3 q h; rw [List.sum_append]; omega
  · rcases Int.le_total (y.sum + x.suf) y.suf with h | h
    · exact ⟨s2, suffix_app.2 (.inl ks1), by simp only []; omega⟩
    · exact ⟨s1 ++ w, suffix_app.2 (.inr ⟨s1, hs1, rfl⟩), by simp only [List.sum_append]; omega⟩
  · intro p hp
    simp only []
    rcases suffix_app.1 hp with h | ⟨q, h, rfl⟩
    · have := ks3 p h; omega
    · have := hs3 q h; rw [List.sum_append]; omega
  · rcases Int.le_total (x.suf + y.pre) (max x.best y.best) with h | h
    · rcases Int.le_total x.best y.best with h' | h'
      · exact ⟨b2, infix_app.2 (.inr (.inl kb1)), by simp only []; omega⟩
      · exact ⟨b1, infix_app.2 (.inl hb1), by simp only []; omega⟩
    · exact ⟨s1 ++ p2, infix_app.2 (.inr (.inr ⟨s1, p2, hs1, kp1, rfl⟩)), by simp only [List.sum_append]; omega⟩
  · intro p hp
    simp only []
    rcases infix_app.1 hp with h | h | ⟨a, c, h, h', rfl⟩
    · have := hb3 p h; omega
    · have := kb3 p h; omega
    · have := hs3 a h; have := kp3 c h'; rw [List.sum_append]; omega

theorem subOf_one (x : Int) : SubOf (Sub.one x) [x] := by
  have key : ∀ P : List Int → Prop, P [] → P [x] → (∀ p, P p → p = [] ∨ p = [x]) → Top P (max x 0) := by
    intro P h0 h1 h
    refine ⟨?_, fun p hp => ?_⟩
    · rcases Int.le_total x 0 with hx | hx
      · exact ⟨[], h0, by simp; omega⟩
      · exact ⟨[x], h1, by simp; omega⟩
    · rcases h p hp with rfl | rfl <;> simp
  have hl : ∀ p : List Int, p.Sublist [x] → p = [] ∨ p = [x] := fun p h => List.sublist_singleton.1 h
  refine ⟨by simp [Sub.one], key _ (List.nil_prefix) (List.prefix_refl _) fun p h => hl p h.sublist,
    key _ (List.nil_suffix) (List.suffix_refl _) fun p h => hl p h.sublist,
    key _ (List.nil_infix) (List.infix_refl _) fun p h => hl p h.sublist⟩

/-- C117: a segment tree with this monoid gives, after any writes and for every range, the greatest sum of a
contiguous part of the range. -/
theorem C117_subarray (v : List Int) (hn : v.length < 2 ^ 32) (ops : List (Nat × Int)) (hops : ∀ o ∈ ops, o.1 < v.length) :
    ∃ t, SegReached subarrayOps (v.map Sub.one) (ops.map fun o => (o.1, Sub.one o.2)) t ∧
      ∀ l r, l ≤ r → r ≤ v.length → ∃ x, t.prod subarrayOps l r = ok x ∧
        Top (· <:+: ((setAll v ops).take r).drop l) x.best := by
  obtain ⟨t, h1, h2, _⟩ := C117_describes SubOf subarrayOps
    ⟨rfl, ⟨⟨[], by simp, rfl⟩, by simp +contextual [subarrayOps]⟩, ⟨⟨[], by simp, rfl⟩, by simp +contextual [subarrayOps]⟩,
      ⟨[], by simp, rfl⟩, by simp +contextual [subarrayOps]⟩
    (fun x y u w h k => subOf_op h k) Sub.one subOf_one v hn ops hops
  refine ⟨t, h1, fun l r hlr hr => ?_⟩
  obtain ⟨x, e, h⟩ := h2 l r hlr hr
  exact ⟨x, e, h.2.2.2⟩

/-- The monoid of bracket sequences: numbers of closing and opening brackets that are left without a partner. -/
def bracketOps : MonoidOps (Nat × Nat) := ⟨(0, 0), fun x y =>
  ok (x.1 + (y.1 - x.2), (x.2 - y.1) + y.2)⟩

/-- The element for one bracket, `true` for an opening one. -/
def bracketOne (b : Bool) : Nat × Nat := if b then (0, 1) else (1, 0)

/-- Opening brackets (`true`) minus closing ones. -/
def height (w : List Bool) : Int := (w.count true : Int) - w.count false

/-- As many opening as closing brackets, and no prefix with more closing ones. -/
def BalancedSeq (w : List Bool) : Prop := height w = 0 ∧ ∀ p, p <+: w → 0 ≤ height p

/-- The least height of a prefix is `-x.1` and the height at the end `x.2 - x.1`. -/
def BracketOf (x : Nat × Nat) (w : List Bool) : Prop :=
  (∃ p, p <+: w ∧ height p = -x.1) ∧ (∀ p, p <+: w → -(x.1 : Int) ≤ height p) ∧ height w = (x.2 : Int) - x.1

theorem height_append (u w : List Bool) : height (u ++ w) = height u + height w := by
  simp only [height, List.count_append]; omega

/-- C117: a segment tree of brackets tells after any changes which ranges are balanced. -/
theorem C117_brackets (v : List Bool) (hn : v.length < 2 ^ 32) (ops : List (Nat × Bool))
    (hops : ∀ o ∈ ops, o.1 < v.length) :
    ∃ t, SegReached bracketOps (v.map bracketOne) (ops.map fun o => (o.1, bracketOne o.2)) t ∧
      ∀ l r, l ≤ r → r ≤ v.length → ∃ x, t.prod bracketOps l r = ok x ∧
        (x = (0, 0) ↔ BalancedSeq (((setAll v ops).take r).drop l)) := by
  obtain ⟨t, h1, h2, _⟩ := C117_describes BracketOf bracketOps
    ⟨⟨[], by simp, rfl⟩, by simp +contextual [bracketOps, height], rfl⟩
    (by
      rintro x y u w ⟨⟨p1, hp1, hp2⟩, hp3, hp4⟩ ⟨⟨p2, kp1, kp2⟩, kp3, kp4⟩
      refine ⟨_, rfl, ?_, fun p hp => ?_, by simp only [height_append]; omega⟩
      · by_cases h : y.1 ≤ x.2
        · exact ⟨p1, prefix_app.2 (.inl hp1), by simp only []; omega⟩
        · exact ⟨u ++ p2, prefix_app.2 (.inr ⟨p2, kp1, rfl⟩), by simp only [height_append]; omega⟩
      · simp only []
        rcases prefix_app.1 hp with h | ⟨q, h, rfl⟩
        · have := hp3 p h; omega
        · have := kp3 q h; rw [height_append]; omega)
    bracketOne (by
      intro b
      have hl : ∀ p : List Bool, p <+: [b] → p = [] ∨ p = [b] := fun p h => List.sublist_singleton.1 h.sublist
      cases b
      · refine ⟨⟨[false], List.prefix_refl _, by decide⟩, fun p hp => ?_, by decide⟩
        rcases hl p hp with rfl | rfl <;> decide
      · refine ⟨⟨[], List.nil_prefix, by decide⟩, fun p hp => ?_, by decide⟩
        rcases hl p hp with rfl | rfl <;> decide) v hn ops hops
  refine ⟨t, h1, fun l r hlr hr => ?_⟩
  obtain ⟨x, e, ⟨p, hp, hp2⟩, h3, h4⟩ := h2 l r hlr hr
  refine ⟨x, e, ?_⟩
  constructor
  · rintro rfl
    exact ⟨by simpa using h4, fun p hp => by simpa using h3 p hp⟩
  · rintro ⟨h5, h6⟩
    have := h6 p hp
    rw [h4] at h5
    exact Prod.ext (by show x.1 = 0; omega) (by show x.2 = 0; omega)

/-- Natural numbers with the maximum, as a monoid. -/
structure MaxNat where
  val : Nat
deriving DecidableEq

instance : Monoid MaxNat where
  mul a b := ⟨max a.val b.val⟩
  one := ⟨0⟩
  mul_assoc a b c := congrArg MaxNat.mk (Nat.max_assoc _ _ _)
  one_mul a := by cases a; exact congrArg MaxNat.mk (Nat.zero_max _)
  mul_one a := by cases a; exact congrArg MaxNat.mk (Nat.max_zero _)

/-- The map monoid a user writes for additions to ranges and maxima of ranges. -/
def addMax : MapOps MaxNat Nat where
  e := 1
  op a b := a * b
  idMap := 0
  mapping f x := ⟨x.val + f⟩
  comp f g := f + g

theorem addMax_lawful : LawfulMap addMax where
  e_eq := rfl
  op_eq _ _ := rfl
  id_map _ := rfl
  comp_map f g x := by show (⟨_⟩ : MaxNat) = ⟨_⟩; exact congrArg MaxNat.mk (by show x.val + (f + g) = x.val + g + f; omega)
  map_op f x y := by
    show (⟨max x.val y.val + f⟩ : MaxNat) = ⟨max (x.val + f) (y.val + f)⟩
    congr 1; omega

/-- Intervals `l..r` come one after the other; after each, the greatest number of them that share a point. -/
def overlaps (n : Nat) (us : List (Nat × Nat)) : Res (List Nat) := do
  let t ← LazySegtree.new addMax.ops n
  let s ← forList us (t, ([] : List Nat)) fun u s => do
    let t ← s.1.applyRange addMax.ops u.1 u.2 1
    let x ← t.allProd
    ok (t, s.2 ++ [x.val])
  ok s.2

/-- The number of intervals that contain `x`. -/
def cover (us : List (Nat × Nat)) (x : Nat) : Nat := us.countP fun u => decide (u.1 ≤ x ∧ x < u.2)

theorem maxNat_prod (xs : List MaxNat) : (∀ x ∈ xs, x.val ≤ xs.prod.val) ∧ (xs.prod ∈ xs ∨ xs.prod.val = 0) := by
  induction xs with
  | nil => exact ⟨by simp, .inr rfl⟩
  | cons x xs ih =>
    rw [List.prod_cons]
    have e : (x * xs.prod).val = max x.val xs.prod.val := rfl
    refine ⟨fun y hy => ?_, ?_⟩
    · rcases List.mem_cons.1 hy with rfl | hy
      · omega
      · have := ih.1 y hy; omega
    · by_cases h : x.val ≤ xs.prod.val
      · have : x * xs.prod = xs.prod := by
          show (⟨max x.val xs.prod.val⟩ : MaxNat) = xs.prod
          rw [max_eq_right h]
        rw [this]
        rcases ih.2 with h | h
        · exact .inl (List.mem_cons_of_mem _ h)
        · exact .inr h
      · have : x * xs.prod = x := by
          show (⟨max x.val xs.prod.val⟩ : MaxNat) = x
          rw [max_eq_left (by omega)]
        rw [this]
        exact .inl (by simp)

/-- C117: the program returns, and its `k`-th result is the greatest number of the first `k + 1` intervals that have a
point below `n` in common. -/
theorem C117_overlaps (n : Nat) (us : List (Nat × Nat)) (hn : n < 2 ^ 32) (hu : ∀ u ∈ us, u.1 ≤ u.2 ∧ u.2 ≤ n) :
    ∃ out, overlaps n us = ok out ∧ out.length = us.length ∧ ∀ k m, out[k]? = some m →
      (∀ x < n, cover (us.take (k + 1)) x ≤ m) ∧ (m = 0 ∨ ∃ x < n, cover (us.take (k + 1)) x = m) := by
  let Inv : List (Nat × Nat) → LazySegtree MaxNat Nat × List Nat → Prop := fun p s =>
    LazyP.Rep addMax s.1 ((List.range n).map fun x => ⟨cover p x⟩) ∧ s.2.length = p.length ∧
      ∀ k m, s.2[k]? = some m → (∀ x < n, cover (p.take (k + 1)) x ≤ m) ∧ (m = 0 ∨ ∃ x < n, cover (p.take (k + 1)) x = m)
  have h : Sat (overlaps n us) (fun out => out.length = us.length ∧ ∀ k m, out[k]? = some m →
      (∀ x < n, cover (us.take (k + 1)) x ≤ m) ∧ (m = 0 ∨ ∃ x < n, cover (us.take (k + 1)) x = m)) := by
    unfold overlaps
    rw [C07_new addMax_lawful, sat_bind]
    refine (LazyP.from_sat addMax_lawful (by simpa using hn)).mono fun t ht => ?_
    rw [sat_bind]
    refine (forList_sat Inv us [] _ ?_ ?_).mono fun s hs => ?_
    · refine ⟨?_, rfl, fun k m h => by simp at h⟩
      have e : List.replicate n (1 : MaxNat) = (List.range n).map fun x => ⟨cover [] x⟩ := by
        apply List.ext_getElem (by simp)
        intro i h1 h2
        simp only [List.getElem_replicate, List.getElem_map]
        rfl
      rw [← e]; exact ht
    · rintro p u r ⟨t, out⟩ e ⟨h1, h2, h3⟩
      rw [List.nil_append] at e
      have hu' := hu u (by rw [e]; simp)
      rw [sat_bind]
      refine (LazyP.applyRange_sat addMax_lawful h1 hu'.1 (by simpa using hu'.2)).mono fun t' ht' => ?_
      have e2 : mapRange (addMax.mapping 1) ((List.range n).map fun x => ⟨cover p x⟩) u.1 u.2 =
          (List.range n).map fun x => ⟨cover (p ++ [u]) x⟩ := by
        apply List.ext_getElem (by simp [mapRange])
        intro i h4 h5
        simp only [mapRange, List.getElem_mapIdx, List.getElem_map, List.getElem_range, cover, List.countP_append,
          List.countP_singleton]
        by_cases hc : u.1 ≤ i ∧ i < u.2
        · rw [if_pos hc, if_pos (by simpa using hc)]; rfl
        · rw [if_neg hc, if_neg (by simpa using hc)]; rfl
      rw [e2] at ht'
      rw [LazyP.allProd_sat addMax_lawful ht', ok_bind, sat_ok]
      refine ⟨ht', by simpa using h2, fun k m hm => ?_⟩
      rw [List.getElem?_append] at hm
      split at hm
      · rename_i hk
        rw [List.take_append_of_le_length (by simp only [] at h2 hk; omega)]
        exact h3 k m hm
      · rename_i hk
        obtain ⟨hk0, rfl⟩ : k - out.length = 0 ∧ (((List.range n).map fun x => (⟨cover (p ++ [u]) x⟩ : MaxNat)).prod).val = m := by
          cases hj : k - out.length with
          | zero => rw [hj] at hm; simpa using hm
          | succ j => rw [hj] at hm; simp at hm
        simp only [] at h2 hk
        rw [List.take_of_length_le (by rw [List.length_append]; simp; omega)]
        obtain ⟨h4, h5⟩ := maxNat_prod ((List.range n).map fun x => (⟨cover (p ++ [u]) x⟩ : MaxNat))
        refine ⟨fun x hx => h4 ⟨_⟩ (List.mem_map.2 ⟨x, by simpa using hx, rfl⟩), ?_⟩
        rcases h5 with h5 | h5
        · obtain ⟨x, hx, e3⟩ := List.mem_map.1 h5
          exact .inr ⟨x, by simpa using hx, congrArg MaxNat.val e3⟩
        · exact .inl h5
    · obtain ⟨_, h2, h3⟩ := hs
      rw [List.nil_append] at h2 h3
      rw [sat_ok]
      exact ⟨h2, h3⟩
  exact h

example : lis 10 [3, 1, 4, 1, 5, 9, 2, 6] = ok 4 ∧
    (do let t ← Segtree.from subarrayOps ([3, -5, 4, -1, 2, -7].map Sub.one)
        let t ← t.set subarrayOps 3 (Sub.one 6)
        let x ← t.prod subarrayOps 1 6
        ok x.best : Res Int) = ok 12 ∧
    (do let t ← Segtree.from bracketOps ([true, false, false, true].map bracketOne)
        let x ← t.prod bracketOps 0 2
        let y ← t.allProd
        ok (x, y) : Res _) = ok ((0, 0), (1, 1)) ∧
    overlaps 5 [(0, 3), (1, 2), (2, 5), (1, 4)] = ok [1, 2, 2, 3] := by decide +kernel

end Verif.Props
