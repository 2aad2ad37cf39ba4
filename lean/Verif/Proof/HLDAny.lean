import Mathlib.Data.Finset.Max
import Verif.Proof.HLD
import Verif.Proof.BLAny
/-! Heavy-light decomposition on graphs that need not be trees. -/
namespace Verif.HLDP
open Res Model Spec TreeP

section
variable {g : List (List Nat)} {root : Nat}

/-! ### When the search ends -/

theorem nrw_of_repeat (hir : ∀ u, u ∉ g.getD u []) {l : List Nat} {u v : Nat}
    (hc : (u :: v :: l).IsChain (fun a b => b ∈ g.getD a [])) (hb : NB (u :: v :: l))
    (hn : ¬ (u :: v :: l).Nodup) (k : Nat) : NoReturnWalk g k u v := by
  induction l generalizing u v k with
  | nil =>
    exfalso
    refine hn ?_
    have : u ≠ v := by
      rintro rfl
      exact hir u (List.isChain_cons_cons.1 hc).1
    simpa using this
  | cons w l ih =>
    by_cases hl : (v :: w :: l).Nodup
    · have ha : u ∈ v :: w :: l := by
        by_contra h
        exact hn (List.nodup_cons.2 ⟨h, hl⟩)
      obtain ⟨A, B, e⟩ := List.append_of_mem ha
      rw [e] at hc hb hl
      have hA : u ∉ A := fun hs => (List.nodup_append.1 hl).2.2 u hs u (by simp) rfl
      have hc' : (u :: A ++ u :: B).IsChain (fun a b => b ∈ g.getD a []) := by simpa using hc
      have key : IsCycle g (u :: A) := by
        refine ⟨?_, List.nodup_cons.2 ⟨hA, (List.nodup_append.1 hl).1⟩, hc'.left_of_append, ?_⟩
        · match A, hc, hb with
          | [], hc, _ =>
            simp only [List.nil_append, List.isChain_cons_cons] at hc
            exact absurd hc.1 (hir u)
          | [x], _, hb => exact absurd rfl hb.1
          | _ :: _ :: _, _, _ => simp
        · intro x y hx hy
          simp only [List.head?_cons, Option.some.injEq] at hx
          subst hx
          rw [List.getLast?_eq_some_iff] at hy
          obtain ⟨ys, hy⟩ := hy
          rw [hy, List.append_assoc] at hc'
          have := hc'.right_of_append
          simp only [List.singleton_append, List.isChain_cons_cons] at this
          exact this.1
      cases A with
      | nil => have := key.len; simp at this
      | cons b A =>
        simp only [List.cons_append, List.cons.injEq] at e
        rw [e.1]
        exact nrw_cycle key
    · cases k with
      | zero => trivial
      | succ k =>
        refine ⟨w, ?_, Ne.symm hb.1, ih (List.isChain_cons_cons.1 hc).2 hb.2 hl k⟩
        exact (List.isChain_cons_cons.1 (List.isChain_cons_cons.1 hc).2).1

/-- `x` is met on a walk from `u` that does not turn round and does not go to `p` first. -/
inductive Fw (g : List (List Nat)) : Nat → Nat → Nat → Prop where
  | here {p u v} : v ∈ g.getD u [] → v ≠ p → Fw g p u v
  | step {p u v x} : v ∈ g.getD u [] → v ≠ p → Fw g u v x → Fw g p u x

theorem Fw.list {p u x : Nat} (h : Fw g p u x) : ∃ l, x ∈ l ∧ (u :: l).IsChain (fun a b => b ∈ g.getD a []) ∧
    NB (u :: l) ∧ ∀ v, l.head? = some v → v ≠ p := by
  induction h with
  | @here p u v hv hne =>
    exact ⟨[v], by simp, by simpa using hv, trivial, by simpa using hne⟩
  | @step p u v x hv hne _ ih =>
    obtain ⟨l, h1, h2, h3, h4⟩ := ih
    refine ⟨v :: l, by simp [h1], List.isChain_cons_cons.2 ⟨hv, h2⟩, ?_, by simpa using hne⟩
    cases l with
    | nil => simp at h1
    | cons w l => exact ⟨Ne.symm (h4 w rfl), h3⟩

theorem not_fw_back (hir : ∀ u, u ∉ g.getD u []) {u v k : Nat} (hv : v ∈ g.getD u [])
    (h : ¬ NoReturnWalk g k u v) : ¬ Fw g u v u := by
  intro hf
  obtain ⟨l, h1, h2, h3, h4⟩ := hf.list
  refine h (nrw_of_repeat hir (List.isChain_cons_cons.2 ⟨hv, h2⟩) ?_ ?_ k)
  · cases l with
    | nil => simp at h1
    | cons w l => exact ⟨Ne.symm (h4 w rfl), h3⟩
  · intro hn
    exact (List.nodup_cons.1 hn).1 (List.mem_cons_of_mem _ h1)

theorem upd_ok_inv {α : Type} {l l' : List α} {i : Nat} {a : α} (h : upd l i a = ok l') :
    i < l.length ∧ l' = l.set i a := by
  by_cases hi : i < l.length
  · rw [upd_of_lt hi] at h; cases h; exact ⟨hi, rfl⟩
  · rw [upd_panic (by omega)] at h; cases h

theorem dfs1_ok (hir : ∀ u, u ∉ g.getD u []) {fuel u p : Nat} {t : HArr} {r : HArr × Nat} (hp : t.parent[u]? = some p)
    (h : HArr.dfs1 fuel g u t = ok r) :
    ¬ NoReturnWalk g fuel p u ∧ ∀ x, ¬ Fw g p u x → r.1.parent[x]? = t.parent[x]? := by
  induction fuel generalizing u p t r with
  | zero => unfold HArr.dfs1 at h; cases h
  | succ fuel ih =>
    unfold HArr.dfs1 at h
    obtain ⟨gu, hgu, h⟩ := bind_ok_inv h
    have hu : u < g.length := by
      by_contra hc
      rw [idx_panic (by omega)] at hgu; cases hgu
    rw [idx_of_some (getD_some' hu)] at hgu
    cases hgu
    obtain ⟨⟨t1, s1, m1⟩, hl, h⟩ := bind_ok_inv h
    cases h
    have key : ∀ (l : List Nat) (st st' : HArr × Nat × Nat), (∀ v ∈ l, v ∈ g.getD u []) → st.1.parent[u]? = some p →
        forList l st (step1 fuel g u) = ok st' →
        (∀ v ∈ l, v ≠ p → ¬ NoReturnWalk g fuel u v) ∧ ∀ x, ¬ Fw g p u x → st'.1.parent[x]? = st.1.parent[x]? := by
      intro l
      induction l with
      | nil => intro st st' _ _ h; rw [forList_nil] at h; cases h; exact ⟨by simp, fun _ _ => rfl⟩
      | cons v l ihl =>
        rintro ⟨t, s, m⟩ st' hml hpar h
        rw [forList_cons] at h
        obtain ⟨⟨t1, s1, m1⟩, h1, h2⟩ := bind_ok_inv h
        have hvm := hml v (by simp)
        have hstep : (v ≠ p → ¬ NoReturnWalk g fuel u v) ∧ t1.parent[u]? = some p ∧
            ∀ x, ¬ Fw g p u x → t1.parent[x]? = t.parent[x]? := by
          simp only [step1] at h1
          simp only at hpar
          rw [idx_of_some hpar, ok_bind] at h1
          by_cases hne : v = p
          · simp only [ne_eq, hne, not_true, if_false] at h1
            cases h1
            exact ⟨fun h => absurd hne h, hpar, fun _ _ => rfl⟩
          · simp only [ne_eq, hne, not_false_eq_true, if_true] at h1
            obtain ⟨pa, hpa, h1⟩ := bind_ok_inv h1
            obtain ⟨hvl, rfl⟩ := upd_ok_inv hpa
            obtain ⟨_, -, h1⟩ := bind_ok_inv h1
            obtain ⟨_, -, h1⟩ := bind_ok_inv h1
            obtain ⟨_, -, h1⟩ := bind_ok_inv h1
            obtain ⟨⟨t2, cs⟩, hd, h1⟩ := bind_ok_inv h1
            obtain ⟨_, -, h1⟩ := bind_ok_inv h1
            obtain ⟨hb, hfr⟩ := ih (p := u) (set_self hvl) hd
            simp only at hfr
            have huv : u ≠ v := by rintro rfl; exact hir _ hvm
            have e : t1.parent = t2.parent := by
              simp only at h1
              split at h1
              · obtain ⟨_, -, h1⟩ := bind_ok_inv h1
                cases h1; rfl
              · cases h1; rfl
            rw [e]
            refine ⟨fun _ => hb, ?_, ?_⟩
            · rw [hfr u (not_fw_back hir hvm hb), set_ne huv]; exact hpar
            · intro x hx
              rw [hfr x fun h => hx (.step hvm hne h), set_ne]
              rintro rfl
              exact hx (.here hvm hne)
        obtain ⟨k1, k2⟩ := ihl _ _ (fun w hw => hml w (List.mem_cons_of_mem _ hw)) hstep.2.1 h2
        refine ⟨?_, fun x hx => (k2 x hx).trans (hstep.2.2 x hx)⟩
        intro w hw hwp
        rcases List.mem_cons.1 hw with rfl | hw
        · exact hstep.1 hwp
        · exact k1 w hw hwp
    obtain ⟨k1, k2⟩ := key _ (t, 1, 0) _ (fun _ h => h) hp hl
    refine ⟨?_, k2⟩
    rintro ⟨v, hv, hne, hw⟩
    exact k1 v hv hne hw

/-! ### Adding the vertices that are not reached as leaves below the root -/

/-- Two lists of trees side by side. -/
def fapp : Forest → Forest → Forest
  | .nil, d => d
  | .cons v c s, d => .cons v c (fapp s d)

def leaves : List Nat → Forest
  | [] => .nil
  | v :: l => .cons v .nil (leaves l)

theorem fapp_pre (c d : Forest) : (fapp c d).pre = c.pre ++ d.pre := by
  induction c with
  | nil => rfl
  | cons v c s _ ih => simp [fapp, Forest.pre, ih]

theorem fapp_size (c d : Forest) : (fapp c d).size = c.size + d.size := by
  rw [← Forest.pre_length, fapp_pre, List.length_append, Forest.pre_length, Forest.pre_length]

theorem leaves_pre (l : List Nat) : (leaves l).pre = l := by
  induction l with
  | nil => rfl
  | cons v l ih => simp [leaves, Forest.pre, ih]

theorem leaves_size (l : List Nat) : (leaves l).size = l.length := by
  rw [← Forest.pre_length, leaves_pre]

theorem fapp_paths {R : Nat → List Nat} {u : Nat} {c d : Forest} (h1 : PathsOk R u c) (h2 : PathsOk R u d) :
    PathsOk R u (fapp c d) := by
  induction c with
  | nil => exact h2
  | cons v c s _ ih => exact ⟨h1.1, h1.2.1, ih h1.2.2⟩

theorem leaves_paths {R : Nat → List Nat} {u : Nat} {l : List Nat} (h : ∀ x ∈ l, R x = R u ++ [x]) :
    PathsOk R u (leaves l) := by
  induction l with
  | nil => trivial
  | cons v l ih => exact ⟨h v (by simp), trivial, ih fun x hx => h x (List.mem_cons_of_mem _ hx)⟩

theorem fapp_stamped {a b : List Nat} {τ : Nat} {c d : Forest} (h1 : Stamped a b τ c)
    (h2 : Stamped a b (τ + c.size) d) : Stamped a b τ (fapp c d) := by
  induction c generalizing τ with
  | nil => simpa [Forest.size, fapp] using h2
  | cons v c s _ ih =>
    refine ⟨h1.1, h1.2.1, h1.2.2.1, ih h1.2.2.2 ?_⟩
    have e : τ + 1 + c.size + s.size = τ + (Forest.cons v c s).size := by simp only [Forest.size]; omega
    rw [e]; exact h2

theorem leaves_stamped {a b : List Nat} {τ : Nat} {l : List Nat}
    (h : ∀ i x, l[i]? = some x → a[x]? = some (τ + i) ∧ b[x]? = some (τ + i + 1)) : Stamped a b τ (leaves l) := by
  induction l generalizing τ with
  | nil => trivial
  | cons v l ih =>
    have h0 := h 0 v rfl
    refine ⟨h0.1, by simpa [Forest.size] using h0.2, trivial, ih fun i x hx => ?_⟩
    have := h (i + 1) x hx
    simp only [Forest.size]
    rw [show τ + 1 + 0 + i = τ + (i + 1) by omega]
    exact this

theorem fapp_heads {a : List Nat} {o : Option Nat} {c d : Forest} (h1 : Heads a o c)
    (h2 : Heads a (if c.size = 0 then o else none) d) : Heads a o (fapp c d) := by
  cases c with
  | nil => simpa [fapp, Forest.size] using h2
  | cons v c s =>
    refine ⟨h1.1, h1.2.1, ?_⟩
    have h3 := h1.2.2
    have h4 : Heads a none d := by
      rwa [if_neg (by simp only [Forest.size]; omega)] at h2
    clear h1 h2
    show Heads a none (fapp s d)
    induction s with
    | nil => exact h4
    | cons w e s _ ih => exact ⟨h3.1, h3.2.1, ih h3.2.2⟩

theorem leaves_heads {a : List Nat} {l : List Nat} (h : ∀ x ∈ l, a[x]? = some x) : Heads a none (leaves l) := by
  induction l with
  | nil => trivial
  | cons v l ih => exact ⟨h v (by simp), trivial, ih fun x hx => h x (List.mem_cons_of_mem _ hx)⟩

theorem leaves_lf {l : List Nat} {b : Nat} (hb : 1 ≤ b) : LF (some b) (leaves l) := by
  induction l generalizing b with
  | nil => trivial
  | cons v l ih =>
    refine ⟨?_, trivial, ih hb⟩
    rintro _ ⟨⟩
    simpa [Forest.size] using hb

theorem fapp_lf {c : Forest} {l : List Nat} (h : LF none c) : LF none (fapp c (leaves l)) := by
  cases c with
  | nil =>
    cases l with
    | nil => trivial
    | cons v l => exact ⟨by simp, trivial, leaves_lf (by simp [Forest.size])⟩
  | cons v c s =>
    refine ⟨h.1, h.2.1, ?_⟩
    have h3 := h.2.2
    have hb : 1 ≤ (none : Option Nat).getD (1 + c.size) := by simp
    generalize (none : Option Nat).getD (1 + c.size) = b at h3 hb
    clear h
    show LF (some b) (fapp s (leaves l))
    induction s generalizing b with
    | nil => exact leaves_lf hb
    | cons w e s _ ih => exact ⟨h3.1, h3.2.1, ih b h3.2.2 hb⟩

theorem frep_congr {G : List (List Nat)} {u p : Nat} {l : List Nat} {f : Forest} (h : FRep G u p l f)
    (he : ∀ x ∈ f.pre, G.getD x [] = g.getD x []) : FRep g u p l f := by
  induction h with
  | nil => exact .nil
  | skip _ ih => exact .skip (ih he)
  | @child u p v l c s hne _ _ ih1 ih2 =>
    refine .child hne ?_ (ih2 fun x hx => he x (by simp [Forest.pre, hx]))
    rw [← he v (by simp [Forest.pre])]
    exact ih1 fun x hx => he x (by simp [Forest.pre, hx])

/-- The arrays as they would be with the missing vertices as leaves below the root. -/
noncomputable def fill (G : List (List Nat)) (root : Nat) (V outs : List Nat) (c : Forest) (t : HArr) : HArr :=
  { parent := (List.range G.length).map (par G root)
    dep := (List.range G.length).map fun x => (rpath G root x).length - 1
    heavyChild := t.heavyChild
    head := (List.range G.length).map fun x =>
      if x ∈ V then t.head.getD x 0 else if c.size = 0 ∧ outs.head? = some x then root else x
    pos := (List.range G.length).map fun x => if x ∈ V then t.pos.getD x 0 else 1 + c.size + outs.idxOf x
    posR := (List.range G.length).map fun x =>
      if x = root then G.length else if x ∈ V then t.posR.getD x 0 else 1 + c.size + outs.idxOf x + 1 }

theorem map_range_get {n x : Nat} {F : Nat → Nat} (hx : x < n) : ((List.range n).map F)[x]? = some (F x) := by
  rw [List.getElem?_map, List.getElem?_range hx]; rfl

theorem fill_ok {G : List (List Nat)} (T : IsTree G) (hr : root < G.length) {f c : Forest} {t : HArr}
    (B : Built G root f t c) (hn : (root :: f.pre).Nodup) (hlt : ∀ x ∈ f.pre, x < G.length) {outs : List Nat}
    (ho : outs.Nodup) (hom : ∀ x, x ∈ outs ↔ x < G.length ∧ x ∉ root :: f.pre)
    (hop : ∀ x ∈ outs, rpath G root x = rpath G root root ++ [x]) :
    HOk G root (fill G root (root :: f.pre) outs c t) (fapp c (leaves outs)) := by
  have hmem : ∀ x, x ∈ root :: c.pre ↔ x ∈ root :: f.pre := fun x => (B.perm.cons root).mem_iff
  have hVlt : ∀ x ∈ root :: f.pre, x < G.length := by
    intro x hx
    rcases List.mem_cons.1 hx with rfl | hx
    · exact hr
    · exact hlt x hx
  have hperm : (root :: (fapp c (leaves outs)).pre).Perm (List.range G.length) := by
    rw [List.perm_ext_iff_of_nodup ?_ List.nodup_range]
    · intro x
      rw [fapp_pre, leaves_pre, ← List.cons_append, List.mem_append, hmem, hom, List.mem_range]
      constructor
      · rintro (h | h)
        · exact hVlt x h
        · exact h.1
      · intro h
        by_cases hx : x ∈ root :: f.pre
        · exact .inl hx
        · exact .inr ⟨h, hx⟩
    · rw [fapp_pre, leaves_pre, ← List.cons_append, List.nodup_append]
      refine ⟨((B.perm.cons root).nodup_iff).2 hn, ho, ?_⟩
      rintro x hx y hy rfl
      exact ((hom x).1 hy).2 ((hmem x).1 hx)
  have hsize : 1 + (c.size + outs.length) = G.length := by
    have := hperm.length_eq
    rw [List.length_cons, Forest.pre_length, fapp_size, leaves_size, List.length_range] at this
    omega
  obtain ⟨s1, s2, s3, -⟩ := B.stamped
  obtain ⟨e1, e2, -⟩ := B.heads
  have hrc : root ∉ c.pre := fun h => (List.nodup_cons.1 hn).1 (B.perm.mem_iff.1 h)
  refine ⟨⟨by simp [fill], by simp [fill], B.wf.heavy, by simp [fill], by simp [fill], by simp [fill]⟩, ?_, ?_,
    hperm, fapp_paths B.paths (leaves_paths hop), ⟨?_, ?_, ?_, trivial⟩, ⟨?_, ?_, trivial⟩, fapp_lf B.lf⟩
  · intro x hx; exact map_range_get hx
  · intro x hx; exact map_range_get hx
  · show (fill G root (root :: f.pre) outs c t).pos[root]? = _
    rw [fill, map_range_get hr, if_pos (by simp), getD_of_some s1]
  · show (fill G root (root :: f.pre) outs c t).posR[root]? = _
    rw [fill, map_range_get hr, if_pos rfl, fapp_size, leaves_size]
    congr 1; omega
  · refine fapp_stamped (s3.congr ?_ ?_) (leaves_stamped ?_)
    · intro x hx
      have hxV : x ∈ root :: f.pre := (hmem x).1 (List.mem_cons_of_mem _ hx)
      show (fill G root (root :: f.pre) outs c t).pos[x]? = _
      rw [fill, map_range_get (hVlt x hxV), if_pos hxV, some_of_lt (by rw [B.wf.pos]; exact hVlt x hxV)]
    · intro x hx
      have hxV : x ∈ root :: f.pre := (hmem x).1 (List.mem_cons_of_mem _ hx)
      show (fill G root (root :: f.pre) outs c t).posR[x]? = _
      rw [fill, map_range_get (hVlt x hxV), if_neg (fun h : x = root => hrc (h ▸ hx)), if_pos hxV,
        some_of_lt (by rw [B.wf.posR]; exact hVlt x hxV)]
    · intro i x hx
      have hxo := List.mem_of_getElem? hx
      obtain ⟨h1, h2⟩ := (hom x).1 hxo
      have hi : outs.idxOf x = i := by
        obtain ⟨hil, e⟩ := List.getElem?_eq_some_iff.1 hx
        rw [← e]; exact ho.idxOf_getElem i hil
      have hxr : x ≠ root := fun h => h2 (by simp [h])
      constructor
      · show (fill G root (root :: f.pre) outs c t).pos[x]? = _
        rw [fill, map_range_get h1, if_neg h2, hi]
      · show (fill G root (root :: f.pre) outs c t).posR[x]? = _
        rw [fill, map_range_get h1, if_neg hxr, if_neg h2, hi]
  · show (fill G root (root :: f.pre) outs c t).head[root]? = _
    rw [fill, map_range_get hr, if_pos (by simp), getD_of_some e1]
  · refine fapp_heads (e2.congr ?_) ?_
    · intro x hx
      have hxV : x ∈ root :: f.pre := (hmem x).1 (List.mem_cons_of_mem _ hx)
      show (fill G root (root :: f.pre) outs c t).head[x]? = _
      rw [fill, map_range_get (hVlt x hxV), if_pos hxV, some_of_lt (by rw [B.wf.head]; exact hVlt x hxV)]
    · have hh : ∀ x ∈ outs, (fill G root (root :: f.pre) outs c t).head[x]? =
          some (if c.size = 0 ∧ outs.head? = some x then root else x) := by
        intro x hx
        obtain ⟨h1, h2⟩ := (hom x).1 hx
        rw [fill, map_range_get h1, if_neg h2]
      cases c with
      | nil =>
        simp only [Forest.size, if_true, Option.getD_some]
        cases outs with
        | nil => trivial
        | cons v l =>
          refine ⟨?_, trivial, leaves_heads fun x hx => ?_⟩
          · rw [hh v (by simp), if_pos ⟨rfl, rfl⟩]; rfl
          · rw [hh x (by simp [hx]), if_neg]
            rintro ⟨-, h⟩
            cases h
            exact (List.nodup_cons.1 ho).1 hx
      | cons v d s =>
        rw [if_neg (by simp only [Forest.size]; omega)]
        refine leaves_heads fun x hx => ?_
        rw [hh x hx, if_neg]
        rintro ⟨h, -⟩
        simp only [Forest.size] at h
        omega

end

/-! ### Operations on two sets of arrays that agree on a set of vertices -/
section
variable {S F : Type}

/-- The arrays agree on `V`, and the climbs stay in `V`. -/
structure Agree (V : Nat → Prop) (t t' : HArr) : Prop where
  len : t.head.length = t'.head.length
  parent : ∀ x, V x → t.parent[x]? = t'.parent[x]?
  dep : ∀ x, V x → t.dep[x]? = t'.dep[x]?
  head : ∀ x, V x → t.head[x]? = t'.head[x]?
  pos : ∀ x, V x → t.pos[x]? = t'.pos[x]?
  headV : ∀ x y, V x → t'.head[x]? = some y → V y
  parentV : ∀ x y, V x → t'.parent[x]? = some y → V y

theorem idx_congr {α : Type} {l l' : List α} {i : Nat} (h : l[i]? = l'[i]?) : idx l i = idx l' i := by
  unfold idx; rw [h]

theorem bind_congr_ok {α β : Type} {x : Res α} {f f' : α → Res β} (h : ∀ a, x = ok a → f a = f' a) :
    x >>= f = x >>= f' := by
  cases x with
  | ok a => exact h a rfl
  | panic => rfl
  | diverge => rfl

theorem whileLoop_congr {σ : Type} {cond cond' : σ → Res Bool} {body body' : σ → Res σ} (I : σ → Prop)
    (hc : ∀ s, I s → cond s = cond' s) (hb : ∀ s, I s → body s = body' s)
    (hi : ∀ s s', I s → body' s = ok s' → I s') {k : Nat} {s : σ} (hs : I s) :
    whileLoop k s cond body = whileLoop k s cond' body' ∧ ∀ s', whileLoop k s cond' body' = ok s' → I s' := by
  induction k generalizing s with
  | zero => exact ⟨rfl, fun s' h => by cases h⟩
  | succ k ih =>
    simp only [whileLoop]
    rw [hc s hs, hb s hs]
    constructor
    · refine bind_congr_ok fun b _ => ?_
      split
      · exact bind_congr_ok fun s' h => (ih (hi s s' hs h)).1
      · rfl
    · intro s' h
      obtain ⟨b, -, h⟩ := bind_ok_inv h
      split at h
      · obtain ⟨s1, h1, h⟩ := bind_ok_inv h
        exact (ih (hi s s1 hs h1)).2 s' h
      · cases h; exact hs

theorem bind_assoc' {α β γ : Type} (x : Res α) (f : α → Res β) (k : β → Res γ) :
    (x >>= f) >>= k = x >>= fun a => f a >>= k := by
  cases x <;> rfl

variable {M : MapMonoidOps S F} {V : Nat → Prop} {t t' : HArr} {d : LazySegtree S F}

theorem applyPath_agree (A : Agree V t t') {u v : Nat} (hu : V u) (hv : V v) (f : F) :
    (⟨d, t⟩ : HLD S F).applyPath M u v f =
      ((⟨d, t'⟩ : HLD S F).applyPath M u v f >>= fun h => ok ⟨h.data, t⟩) := by
  unfold HLD.applyPath
  simp only
  rw [A.len, bind_assoc']
  have key := whileLoop_congr (k := 2 * t'.head.length + 1) (s := ((d, u, v) : LazySegtree S F × Nat × Nat))
    (cond := fun (_, u, v) => do
      let hu ← idx t.head u
      let hv ← idx t.head v
      ok (decide (hu ≠ hv)))
    (cond' := fun (_, u, v) => do
      let hu ← idx t'.head u
      let hv ← idx t'.head v
      ok (decide (hu ≠ hv)))
    (body := fun (data, u, v) => do
      let hu ← idx t.head u
      let du ← idx t.dep hu
      let hv ← idx t.head v
      let dv ← idx t.dep hv
      let (u, v) := if du < dv then (v, u) else (u, v)
      let hu ← idx t.head u
      let l ← idx t.pos hu
      let r ← idx t.pos u
      let data ← data.applyRange M l (r + 1) f
      let u ← idx t.parent hu
      ok (data, u, v))
    (body' := fun (data, u, v) => do
      let hu ← idx t'.head u
      let du ← idx t'.dep hu
      let hv ← idx t'.head v
      let dv ← idx t'.dep hv
      let (u, v) := if du < dv then (v, u) else (u, v)
      let hu ← idx t'.head u
      let l ← idx t'.pos hu
      let r ← idx t'.pos u
      let data ← data.applyRange M l (r + 1) f
      let u ← idx t'.parent hu
      ok (data, u, v)) (fun s => V s.2.1 ∧ V s.2.2) ?_ ?_ ?_ ⟨hu, hv⟩
  · rw [key.1]
    refine bind_congr_ok ?_
    rintro ⟨d1, u1, v1⟩ h1
    obtain ⟨k1, k2⟩ := key.2 _ h1
    simp only at k1 k2 ⊢
    rw [idx_congr (A.pos _ k1), idx_congr (A.pos _ k2), bind_assoc']
    refine bind_congr_ok fun pu _ => ?_
    rw [bind_assoc']
    refine bind_congr_ok fun pv _ => ?_
    obtain ⟨a, b, e, ha, hb⟩ : ∃ a b, (if pu > pv then (v1, u1) else (u1, v1)) = (a, b) ∧ V a ∧ V b := by
      split
      · exact ⟨_, _, rfl, k2, k1⟩
      · exact ⟨_, _, rfl, k1, k2⟩
    rw [e]
    simp only
    rw [idx_congr (A.pos _ ha), idx_congr (A.pos _ hb), bind_assoc']
    refine bind_congr_ok fun l _ => ?_
    rw [bind_assoc']
    refine bind_congr_ok fun r _ => ?_
    rw [bind_assoc']
    exact bind_congr_ok fun d2 _ => rfl
  · rintro ⟨d1, u1, v1⟩ ⟨k1, k2⟩
    simp only at k1 k2 ⊢
    rw [idx_congr (A.head _ k1), idx_congr (A.head _ k2)]
  · rintro ⟨d1, u1, v1⟩ ⟨k1, k2⟩
    simp only at k1 k2 ⊢
    rw [idx_congr (A.head _ k1), idx_congr (A.head _ k2)]
    refine bind_congr_ok fun hu1 h1 => ?_
    have q1 := A.headV _ _ k1 (idx_eq_ok.1 h1)
    rw [idx_congr (A.dep _ q1)]
    refine bind_congr_ok fun du _ => ?_
    refine bind_congr_ok fun hv1 h2 => ?_
    have q2 := A.headV _ _ k2 (idx_eq_ok.1 h2)
    rw [idx_congr (A.dep _ q2)]
    refine bind_congr_ok fun dv _ => ?_
    obtain ⟨a, b, e, ha, hb⟩ : ∃ a b, (if du < dv then (v1, u1) else (u1, v1)) = (a, b) ∧ V a ∧ V b := by
      split
      · exact ⟨_, _, rfl, k2, k1⟩
      · exact ⟨_, _, rfl, k1, k2⟩
    rw [e]
    simp only
    rw [idx_congr (A.head _ ha)]
    refine bind_congr_ok fun ha1 h3 => ?_
    have q3 := A.headV _ _ ha (idx_eq_ok.1 h3)
    rw [idx_congr (A.pos _ q3), idx_congr (A.pos _ ha), idx_congr (A.parent _ q3)]
  · rintro ⟨d1, u1, v1⟩ s' ⟨k1, k2⟩ h
    simp only at k1 k2 h
    obtain ⟨hu1, h1, h⟩ := bind_ok_inv h
    obtain ⟨du, -, h⟩ := bind_ok_inv h
    obtain ⟨hv1, h2, h⟩ := bind_ok_inv h
    obtain ⟨dv, -, h⟩ := bind_ok_inv h
    obtain ⟨a, b, e, ha, hb⟩ : ∃ a b, (if du < dv then (v1, u1) else (u1, v1)) = (a, b) ∧ V a ∧ V b := by
      split
      · exact ⟨_, _, rfl, k2, k1⟩
      · exact ⟨_, _, rfl, k1, k2⟩
    rw [e] at h
    simp only at h
    obtain ⟨ha1, h3, h⟩ := bind_ok_inv h
    obtain ⟨_, -, h⟩ := bind_ok_inv h
    obtain ⟨_, -, h⟩ := bind_ok_inv h
    obtain ⟨_, -, h⟩ := bind_ok_inv h
    obtain ⟨p, h4, h⟩ := bind_ok_inv h
    cases h
    exact ⟨A.parentV _ _ (A.headV _ _ ha (idx_eq_ok.1 h3)) (idx_eq_ok.1 h4), hb⟩

theorem pathProd_agree (A : Agree V t t') {u v : Nat} (hu : V u) (hv : V v) :
    (⟨d, t⟩ : HLD S F).pathProd M u v =
      ((⟨d, t'⟩ : HLD S F).pathProd M u v >>= fun o => ok (⟨o.1.data, t⟩, o.2)) := by
  unfold HLD.pathProd
  simp only
  rw [A.len, bind_assoc']
  have key := whileLoop_congr (k := 2 * t'.head.length + 1) (s := ((d, M.e, u, v) : LazySegtree S F × S × Nat × Nat))
    (cond := fun (_, _, u, v) => do
      let hu ← idx t.head u
      let hv ← idx t.head v
      ok (decide (hu ≠ hv)))
    (cond' := fun (_, _, u, v) => do
      let hu ← idx t'.head u
      let hv ← idx t'.head v
      ok (decide (hu ≠ hv)))
    (body := fun (data, res, u, v) => do
      let hu ← idx t.head u
      let du ← idx t.dep hu
      let hv ← idx t.head v
      let dv ← idx t.dep hv
      let (u, v) := if du < dv then (v, u) else (u, v)
      let hu ← idx t.head u
      let l ← idx t.pos hu
      let r ← idx t.pos u
      let (data, x) ← data.prod M l (r + 1)
      let res ← M.op res x
      let u ← idx t.parent hu
      ok (data, res, u, v))
    (body' := fun (data, res, u, v) => do
      let hu ← idx t'.head u
      let du ← idx t'.dep hu
      let hv ← idx t'.head v
      let dv ← idx t'.dep hv
      let (u, v) := if du < dv then (v, u) else (u, v)
      let hu ← idx t'.head u
      let l ← idx t'.pos hu
      let r ← idx t'.pos u
      let (data, x) ← data.prod M l (r + 1)
      let res ← M.op res x
      let u ← idx t'.parent hu
      ok (data, res, u, v)) (fun s => V s.2.2.1 ∧ V s.2.2.2) ?_ ?_ ?_ ⟨hu, hv⟩
  · rw [key.1]
    refine bind_congr_ok ?_
    rintro ⟨d1, r1, u1, v1⟩ h1
    obtain ⟨k1, k2⟩ := key.2 _ h1
    simp only at k1 k2 ⊢
    rw [idx_congr (A.pos _ k1), idx_congr (A.pos _ k2), bind_assoc']
    refine bind_congr_ok fun pu _ => ?_
    rw [bind_assoc']
    refine bind_congr_ok fun pv _ => ?_
    obtain ⟨a, b, e, ha, hb⟩ : ∃ a b, (if pu > pv then (v1, u1) else (u1, v1)) = (a, b) ∧ V a ∧ V b := by
      split
      · exact ⟨_, _, rfl, k2, k1⟩
      · exact ⟨_, _, rfl, k1, k2⟩
    rw [e]
    simp only
    rw [idx_congr (A.pos _ ha), idx_congr (A.pos _ hb), bind_assoc']
    refine bind_congr_ok fun l _ => ?_
    rw [bind_assoc']
    refine bind_congr_ok fun r _ => ?_
    rw [bind_assoc']
    refine bind_congr_ok fun d2 _ => ?_
    rw [bind_assoc']
    exact bind_congr_ok fun x _ => rfl
  · rintro ⟨d1, r1, u1, v1⟩ ⟨k1, k2⟩
    simp only at k1 k2 ⊢
    rw [idx_congr (A.head _ k1), idx_congr (A.head _ k2)]
  · rintro ⟨d1, r1, u1, v1⟩ ⟨k1, k2⟩
    simp only at k1 k2 ⊢
    rw [idx_congr (A.head _ k1), idx_congr (A.head _ k2)]
    refine bind_congr_ok fun hu1 h1 => ?_
    have q1 := A.headV _ _ k1 (idx_eq_ok.1 h1)
    rw [idx_congr (A.dep _ q1)]
    refine bind_congr_ok fun du _ => ?_
    refine bind_congr_ok fun hv1 h2 => ?_
    have q2 := A.headV _ _ k2 (idx_eq_ok.1 h2)
    rw [idx_congr (A.dep _ q2)]
    refine bind_congr_ok fun dv _ => ?_
    obtain ⟨a, b, e, ha, hb⟩ : ∃ a b, (if du < dv then (v1, u1) else (u1, v1)) = (a, b) ∧ V a ∧ V b := by
      split
      · exact ⟨_, _, rfl, k2, k1⟩
      · exact ⟨_, _, rfl, k1, k2⟩
    rw [e]
    simp only
    rw [idx_congr (A.head _ ha)]
    refine bind_congr_ok fun ha1 h3 => ?_
    have q3 := A.headV _ _ ha (idx_eq_ok.1 h3)
    rw [idx_congr (A.pos _ q3), idx_congr (A.pos _ ha), idx_congr (A.parent _ q3)]
  · rintro ⟨d1, r1, u1, v1⟩ s' ⟨k1, k2⟩ h
    simp only at k1 k2 h
    obtain ⟨hu1, h1, h⟩ := bind_ok_inv h
    obtain ⟨du, -, h⟩ := bind_ok_inv h
    obtain ⟨hv1, h2, h⟩ := bind_ok_inv h
    obtain ⟨dv, -, h⟩ := bind_ok_inv h
    obtain ⟨a, b, e, ha, hb⟩ : ∃ a b, (if du < dv then (v1, u1) else (u1, v1)) = (a, b) ∧ V a ∧ V b := by
      split
      · exact ⟨_, _, rfl, k2, k1⟩
      · exact ⟨_, _, rfl, k1, k2⟩
    rw [e] at h
    simp only at h
    obtain ⟨ha1, h3, h⟩ := bind_ok_inv h
    obtain ⟨_, -, h⟩ := bind_ok_inv h
    obtain ⟨_, -, h⟩ := bind_ok_inv h
    obtain ⟨_, -, h⟩ := bind_ok_inv h
    obtain ⟨_, -, h⟩ := bind_ok_inv h
    obtain ⟨p, h4, h⟩ := bind_ok_inv h
    cases h
    exact ⟨A.parentV _ _ (A.headV _ _ ha (idx_eq_ok.1 h3)) (idx_eq_ok.1 h4), hb⟩

end

/-! ### The component of the root -/
section
open BLP
variable {g : List (List Nat)} {root : Nat}

/-- `t` is what the searches leave behind and `t'` the arrays of the completed tree; `k` vertices are connected
to the root. -/
structure Comp (g : List (List Nat)) (root : Nat) (t t' : HArr) (c : Forest) (k : Nat) : Prop where
  tree : HOk (gplus g root) root t' c
  agree : Agree (Connected g root) t t'
  posR : ∀ x, Connected g root x → x ≠ root → t.posR[x]? = t'.posR[x]?
  rootR : t.posR[root]? = some k
  kle : k ≤ g.length
  seg : ∀ x, x ∈ (root :: c.pre).take k ↔ Connected g root x
  rootPos : t.pos[root]? = some 0
  len : t.pos.length = g.length
  outside : ∀ x, x < g.length → ¬ Connected g root x →
    t.pos[x]? = some 0 ∧ t.posR[x]? = some 0 ∧ t.head[x]? = some 0 ∧ t.parent[x]? = some 0

theorem arr_component (S : IsSimpleGraph g) (hr : root < g.length) (hno : ¬ HasCycleAt g root)
    (hgl : g.length < 2 ^ 32) : ∀ parent, parent = (List.replicate g.length 0).set root root →
    Sat (do
      let (t, _) ← HArr.dfs1 (g.length + 1) g root
        { parent := parent, dep := List.replicate g.length 0
          heavyChild := List.replicate g.length none, head := List.replicate g.length 0
          pos := List.replicate g.length 0, posR := List.replicate g.length 0 }
      HArr.dfs2 (g.length + 1) g root root t 0) (fun o => ∃ t' c k, Comp g root o.1 t' c k) := by
  intro parent hpar
  have T := gplus_tree S hr hno
  have hl : (gplus g root).length = g.length := gplus_length
  have hroot : root < (gplus g root).length := by omega
  obtain ⟨f, h1, h2, h3, hnd, hlt, hm⟩ := component_forest S hr hno
  have h1' : FRep g root root (g.getD root []) f := by
    refine frep_congr h1 fun x hx => ?_
    rw [gplus_getD (hlt x hx), if_pos ((hm x).1 (List.mem_cons_of_mem _ hx)), if_neg]
    rintro rfl
    exact (List.nodup_cons.1 hnd).1 hx
  refine (built T hroot hl hgl h1' h2 hnd hlt (by omega) parent hpar).mono ?_
  rintro ⟨t, τ⟩ ⟨c, B⟩
  simp only at B ⊢
  have hlt' : ∀ x ∈ f.pre, x < (gplus g root).length := fun x hx => by rw [hl]; exact hlt x hx
  have hVl : ∀ x, Connected g root x → x < (gplus g root).length := fun x hx => by
    rw [hl]; exact conn_lt S.inRange hr hx
  generalize ho : (List.range g.length).filter (fun x => decide (x ∉ root :: f.pre)) = outs
  have hom : ∀ x, x ∈ outs ↔ x < (gplus g root).length ∧ x ∉ root :: f.pre := by
    intro x; rw [← ho, List.mem_filter, List.mem_range, hl]; simp
  have hon : outs.Nodup := by rw [← ho]; exact List.nodup_range.filter _
  have hop : ∀ x ∈ outs, rpath (gplus g root) root x = rpath (gplus g root) root root ++ [x] := by
    intro x hx
    obtain ⟨k1, k2⟩ := (hom x).1 hx
    rw [hm] at k2
    rw [rpath_root T hroot]
    refine rpath_eq T hroot ⟨rfl, rfl, ?_, ?_⟩
    · simp only [List.singleton_append, List.isChain_cons_cons, List.isChain_singleton, and_true]
      exact (gplus_mem hr).2 (.inr (.inl ⟨rfl, k2, hl ▸ k1⟩))
    · simp only [List.singleton_append, List.nodup_cons, List.mem_singleton, List.not_mem_nil, not_false_eq_true,
        List.nodup_nil, and_true]
      rintro rfl
      exact k2 (conn_refl _)
  have H := fill_ok T hroot B hnd hlt' hon hom hop
  have hmem : ∀ x, x ∈ root :: c.pre ↔ Connected g root x := fun x => (B.perm.cons root).mem_iff.trans (hm x)
  have anc : ∀ x y, Connected g root x → y < (gplus g root).length →
      rpath (gplus g root) root y <+: rpath (gplus g root) root x → Connected g root y := by
    intro x y hx hy h
    have := (anc_iff T hroot hy (hVl x hx)).2 h
    rw [gplus_anc S hr hno hx] at this
    exact (anc_conn this).1
  obtain ⟨s1, s2, -, -⟩ := B.stamped
  refine ⟨_, _, 1 + c.size, H, ⟨?_, ?_, ?_, ?_, ?_, ?_, ?_⟩, ?_, ?_, ?_, ?_, s1, ?_, ?_⟩
  · rw [B.wf.head, H.wf.head]
  · intro x hx; rw [B.parent x ((hm x).2 hx), H.parent x (hVl x hx)]
  · intro x hx; rw [B.dep x ((hm x).2 hx), H.dep x (hVl x hx)]
  · intro x hx
    rw [fill, map_range_get (hVl x hx), if_pos ((hm x).2 hx), some_of_lt (by rw [B.wf.head]; exact hVl x hx)]
  · intro x hx
    rw [fill, map_range_get (hVl x hx), if_pos ((hm x).2 hx), some_of_lt (by rw [B.wf.pos]; exact hVl x hx)]
  · intro x y hx hy
    rw [H.headSome (hVl x hx)] at hy
    cases hy
    obtain ⟨k1, -, k2, -⟩ := H.head_spec T hroot _ x (hVl x hx) rfl
    exact anc x _ hx k1 k2
  · intro x y hx hy
    rw [H.parent x (hVl x hx)] at hy
    cases hy
    obtain ⟨k1, k2⟩ := par_spec T hroot (hVl x hx)
    exact anc x _ hx k1 (k2 ▸ List.take_prefix _ _)
  · intro x hx hxr
    rw [fill, map_range_get (hVl x hx), if_neg hxr, if_pos ((hm x).2 hx),
      some_of_lt (by rw [B.wf.posR]; exact hVl x hx)]
  · rw [s2]
  · have := H.length
    rw [fapp_pre, List.length_cons, List.length_append, Forest.pre_length, hl] at this
    omega
  · intro x
    rw [fapp_pre, ← List.cons_append, List.take_left' (by rw [List.length_cons, Forest.pre_length]; omega)]
    exact hmem x
  · rw [B.wf.pos, hl]
  · intro x hx hxc
    obtain ⟨k1, k2, k3, k4, -⟩ := B.frame x (by omega) (fun h => hxc ((hm x).1 h))
    exact ⟨k1, k2, k3, k4⟩

variable {S' F : Type} [Monoid S'] {M : MapOps S' F}

theorem new_component (hM : LawfulMap M) (S : IsSimpleGraph g) (hr : root < g.length) (hno : ¬ HasCycleAt g root)
    (hgl : g.length < 2 ^ 32) : Sat (HLD.new M g root) (fun h => ∃ t' c k, Comp g root h.arr t' c k ∧
      Rep M (gplus g root) root c ⟨h.data, t'⟩ (List.replicate g.length 1)) := by
  unfold HLD.new
  simp only []
  rw [assert_true hr, ok_bind, sat_bind]
  unfold LazySegtree.new
  rw [MapOps.ops_e, hM.e_eq]
  refine (LazyP.from_sat hM (a := List.replicate g.length 1) (by simpa using hgl)).mono ?_
  intro d hd
  rw [upd_of_lt (by simpa using hr), ok_bind]
  have hb := arr_component S hr hno hgl _ rfl
  simp only [sat_bind] at hb ⊢
  refine hb.mono ?_
  rintro ⟨t, s⟩ h1
  refine h1.mono ?_
  rintro ⟨t2, s2⟩ ⟨t', c, k, hc⟩
  simp only [sat_ok]
  refine ⟨t', c, k, hc, by simp [gplus_length], hc.tree, ?_⟩
  rw [D_replicate, hc.tree.length, gplus_length]; exact hd

theorem withInit_component (hM : LawfulMap M) (S : IsSimpleGraph g) (hr : root < g.length)
    (hno : ¬ HasCycleAt g root) (hgl : g.length < 2 ^ 32) {v : List S'} (hv : v.length = g.length) :
    Sat (HLD.withInitValue M g root v) (fun h => ∃ t' c k a z, Comp g root h.arr t' c k ∧
      Rep M (gplus g root) root c ⟨h.data, t'⟩ a ∧ LastZero g root z ∧ a[root]? = v[z]? ∧
      ∀ x, Connected g root x → x ≠ root → a[x]? = v[x]?) := by
  classical
  have hl : (gplus g root).length = g.length := gplus_length
  unfold HLD.withInitValue
  rw [assert_true hv.symm, ok_bind, sat_bind]
  refine (new_component hM S hr hno hgl).mono ?_
  rintro h ⟨t', c, k, C, R⟩
  have hVl : ∀ x, Connected g root x → x < (gplus g root).length := fun x hx => by
    rw [hl]; exact conn_lt S.inRange hr hx
  have hP : ∀ x, Connected g root x → h.arr.pos[x]? = some (P t' x) := fun x hx => by
    rw [C.agree.pos x hx]; exact C.tree.posSome (hVl x hx)
  have h0 : P t' root = 0 := by
    have := hP root (conn_refl _)
    rw [C.rootPos] at this
    exact (Option.some.inj this).symm
  have hpos : ∀ x, Connected g root x → x ≠ root → P t' x ≠ 0 := by
    intro x hx hne he
    exact hne (C.tree.pos_inj (hVl x hx) (hVl root (conn_refl _)) (he.trans h0.symm))
  rw [sat_bind]
  refine (forRange_sat (fun j (a : List S') => a.length = v.length ∧
    (∀ i, i < j → Connected g root i → i ≠ root → a[P t' i]? = v[i]?) ∧
    ∀ z, z < j → (z = root ∨ ¬ Connected g root z) →
      (∀ y, y < j → (y = root ∨ ¬ Connected g root y) → y ≤ z) → a[0]? = v[z]?)
    (Nat.zero_le _) ⟨rfl, by omega, by omega⟩ ?_).mono ?_
  · intro j a _ hj ⟨h1, h2, h3⟩
    have hjl : j < g.length := by omega
    by_cases hz : j = root ∨ ¬ Connected g root j
    · have hj0 : h.arr.pos[j]? = some 0 := by
        rcases hz with rfl | hz
        · exact C.rootPos
        · exact (C.outside j hjl hz).1
      rw [idx_of_lt hj, ok_bind, idx_of_some hj0, ok_bind, upd_of_lt (by omega), sat_ok]
      refine ⟨by simpa using h1, ?_, ?_⟩
      · intro i hi hc hir
        have hij : i ≠ j := by
          rintro rfl
          rcases hz with h | h
          · exact hir h
          · exact h hc
        rw [set_ne (hpos i hc hir), h2 i (by omega) hc hir]
      · intro z hzj hz' hmax
        have : z = j := by
          have := hmax j (by omega) hz
          omega
        rw [this, set_self (by omega), List.getElem?_eq_getElem hj]
    · have hjc : Connected g root j := by tauto
      have hjr : j ≠ root := by tauto
      have hp := C.tree.pos_lt (hVl j hjc)
      rw [idx_of_lt hj, ok_bind, idx_of_some (hP j hjc), ok_bind, upd_of_lt (by omega), sat_ok]
      refine ⟨by simpa using h1, ?_, ?_⟩
      · intro i hi hc hir
        by_cases e : i = j
        · subst e
          rw [set_self (by omega), List.getElem?_eq_getElem hj]
        · rw [set_ne, h2 i (by omega) hc hir]
          intro hcc
          exact e (C.tree.pos_inj (hVl i hc) (hVl j hjc) hcc)
      · intro z hzj hz' hmax
        have hzj' : z ≠ j := fun e => hz (e ▸ hz')
        rw [set_ne (Ne.symm (hpos j hjc hjr))]
        exact h3 z (by omega) hz' fun y hy => hmax y (by omega)
  · intro a ⟨h1, h2, h3⟩
    rw [sat_bind]
    refine (LazyP.from_sat hM (a := a) (by omega)).mono ?_
    intro d hd
    simp only [sat_ok]
    -- the last vertex at position zero
    obtain ⟨z, hz⟩ : ∃ z, LastZero g root z := by
      let s := (Finset.range g.length).filter fun y => y = root ∨ ¬ Connected g root y
      have hs : s.Nonempty := ⟨root, by simp [s, hr]⟩
      refine ⟨s.max' hs, ?_, ?_, ?_⟩
      · have := s.max'_mem hs; simp only [s, Finset.mem_filter, Finset.mem_range] at this; exact this.1
      · have := s.max'_mem hs; simp only [s, Finset.mem_filter, Finset.mem_range] at this; exact this.2
      · intro y hy hy'
        exact s.le_max' y (by simp only [s, Finset.mem_filter, Finset.mem_range]; exact ⟨hy, hy'⟩)
    -- node values read off by position
    have hg : ∀ x, x < g.length → P t' x < a.length := fun x hx => by
      have := C.tree.pos_lt (x := x) (by omega); omega
    refine ⟨t', c, k, (List.range g.length).map (fun x => a.getD (P t' x) 1), z, C, ⟨by simp [hl], C.tree, ?_⟩, hz, ?_, ?_⟩
    · have e : D (root :: c.pre) ((List.range g.length).map (fun x => a.getD (P t' x) 1)) = a := by
        apply List.ext_getElem?
        intro i
        rw [D, List.getElem?_map]
        cases hx : (root :: c.pre)[i]? with
        | none =>
          have := List.getElem?_eq_none_iff.1 hx
          rw [C.tree.length] at this
          rw [List.getElem?_eq_none (by omega)]; rfl
        | some x =>
          have hxl := C.tree.mem.1 (List.mem_of_getElem? hx)
          have e := C.tree.ord_get hx
          have := hg x (by omega)
          rw [Option.map_some, List.getD_eq_getElem?_getD, List.getElem?_map, List.getElem?_range (by omega),
            Option.map_some, Option.getD_some, e, getD_eq_of_lt (by omega), List.getElem?_eq_getElem (by omega)]
      rw [e]; exact hd
    · rw [List.getElem?_map, List.getElem?_range hr, Option.map_some, h0, ← h3 z (by rw [hv]; exact hz.1) hz.2.1
        (fun y hy => hz.2.2 y (by omega)), getD_eq_of_lt (by omega), List.getElem?_eq_getElem (by omega)]
    · intro x hx hxr
      have hxl := conn_lt S.inRange hr hx
      rw [List.getElem?_map, List.getElem?_range hxl, Option.map_some, ← h2 x (by omega) hx hxr,
        getD_eq_of_lt (hg x hxl), List.getElem?_eq_getElem (hg x hxl)]

/-! ### Calls on connected vertices -/

theorem get_agree {d : LazySegtree S' F} {t t' : HArr} {V : Nat → Prop} (A : Agree V t t') {u : Nat} (hu : V u) :
    (⟨d, t⟩ : HLD S' F).get M u = ((⟨d, t'⟩ : HLD S' F).get M u >>= fun o => ok (⟨o.1.data, t⟩, o.2)) := by
  unfold HLD.get
  simp only []
  rw [idx_congr (A.pos u hu), bind_assoc']
  refine bind_congr_ok fun p _ => ?_
  rw [bind_assoc']; rfl

theorem set_agree {d : LazySegtree S' F} {t t' : HArr} {V : Nat → Prop} (A : Agree V t t') {u : Nat} (hu : V u) (x : S') :
    (⟨d, t⟩ : HLD S' F).set M u x = ((⟨d, t'⟩ : HLD S' F).set M u x >>= fun o => ok ⟨o.data, t⟩) := by
  unfold HLD.set
  simp only []
  rw [idx_congr (A.pos u hu), bind_assoc']
  refine bind_congr_ok fun p _ => ?_
  rw [bind_assoc']; rfl

theorem anc_root (S : IsSimpleGraph g) (hr : root < g.length) (hno : ¬ HasCycleAt g root) {x : Nat} :
    Ancestor g root root x ↔ Connected g root x := by
  constructor
  · exact fun h => (anc_conn h).2
  · intro hx
    have T := gplus_tree S hr hno
    obtain ⟨p, hp, -⟩ := T.path root x (by rw [gplus_length]; exact hr)
      (by rw [gplus_length]; exact conn_lt S.inRange hr hx)
    rw [gplus_path S hr hno (conn_refl _) hx] at hp
    exact ⟨p, hp, List.mem_of_head? hp.head⟩

theorem gplus_anc' (S : IsSimpleGraph g) (hr : root < g.length) (hno : ¬ HasCycleAt g root) {u x : Nat}
    (hu : Connected g root u) (hur : u ≠ root) : Ancestor (gplus g root) root u x ↔ Ancestor g root u x := by
  by_cases hx : Connected g root x
  · exact gplus_anc S hr hno hx
  · have T := gplus_tree S hr hno
    have hroot : root < (gplus g root).length := by rw [gplus_length]; exact hr
    constructor
    · intro h
      have hxl := (anc_lt T hroot h).2
      obtain ⟨p, hp, hup⟩ := h
      have h2 : IsPath (gplus g root) root x [root, x] := by
        refine ⟨rfl, rfl, ?_, ?_⟩
        · simp only [List.isChain_cons_cons, List.isChain_singleton, and_true]
          exact (gplus_mem hr).2 (.inr (.inl ⟨rfl, hx, gplus_length (g := g) (root := root) ▸ hxl⟩))
        · simp only [List.nodup_cons, List.mem_singleton, List.not_mem_nil, not_false_eq_true, List.nodup_nil, and_true]
          rintro rfl
          exact hx (conn_refl _)
      rw [hp.eq T h2 hroot] at hup
      simp only [List.mem_cons, List.not_mem_nil, or_false] at hup
      rcases hup with rfl | rfl
      · exact absurd rfl hur
      · exact absurd hu hx
    · exact fun h => absurd (anc_conn h).2 hx

section
variable {t t' : HArr} {c : Forest} {k : Nat} {a : List S'} {d : LazySegtree S' F}

theorem applySubtree_comp (hM : LawfulMap M) (S : IsSimpleGraph g) (hr : root < g.length) (hno : ¬ HasCycleAt g root)
    (C : Comp g root t t' c k) (R : Rep M (gplus g root) root c ⟨d, t'⟩ a) {u : Nat} (hu : Connected g root u) (f : F) :
    Sat ((⟨d, t⟩ : HLD S' F).applySubtree M u f) (fun o => o.arr = t ∧
      ∃ s, (∀ x, x ∈ s ↔ Ancestor g root u x) ∧
        Rep M (gplus g root) root c ⟨o.data, t'⟩ (mapNodes (M.mapping f) a s)) := by
  have T := gplus_tree S hr hno
  have hl : (gplus g root).length = g.length := gplus_length
  by_cases hur : u = root
  · subst hur
    simp only [HLD.applySubtree]
    rw [idx_of_some C.rootPos, ok_bind, idx_of_some C.rootR, ok_bind, sat_bind]
    have := C.kle
    refine (LazyP.applyRange_sat hM R.data (by omega) (by rw [R.dlen]; omega)).mono ?_
    intro d' h3
    simp only [sat_ok]
    rw [D_map C.tree.nodup R.lt, List.drop_zero] at h3
    exact ⟨trivial, _, fun x => (C.seg x).trans (anc_root S hr hno).symm,
      ⟨by rw [mapNodes_length]; exact R.len, C.tree, h3⟩⟩
  · have e : (⟨d, t⟩ : HLD S' F).applySubtree M u f =
        ((⟨d, t'⟩ : HLD S' F).applySubtree M u f >>= fun o => ok ⟨o.data, t⟩) := by
      unfold HLD.applySubtree
      simp only []
      rw [idx_congr (C.agree.pos u hu), idx_congr (C.posR u hu hur), bind_assoc']
      refine bind_congr_ok fun p _ => ?_
      rw [bind_assoc']
      refine bind_congr_ok fun q _ => ?_
      rw [bind_assoc']; rfl
    rw [e, sat_bind]
    refine (applySubtree_sat hM R T (by omega) (by rw [hl]; exact conn_lt S.inRange hr hu) f).mono ?_
    rintro ⟨d', _⟩ ⟨rfl, s, k1, k2⟩
    simp only [sat_ok]
    exact ⟨trivial, s, fun x => (k1 x).trans (gplus_anc' S hr hno hu hur), k2⟩

theorem subtreeProd_comp (hM : LawfulMap M) (S : IsSimpleGraph g) (hr : root < g.length) (hno : ¬ HasCycleAt g root)
    (C : Comp g root t t' c k) (R : Rep M (gplus g root) root c ⟨d, t'⟩ a) {u : Nat} (hu : Connected g root u) :
    Sat ((⟨d, t⟩ : HLD S' F).subtreeProd M u) (fun o => o.1.arr = t ∧ Rep M (gplus g root) root c ⟨o.1.data, t'⟩ a ∧
      ∃ s, s <:+: (root :: c.pre) ∧ (∀ x, x ∈ s ↔ Ancestor g root u x) ∧ o.2 = nodeProd a s) := by
  have T := gplus_tree S hr hno
  have hl : (gplus g root).length = g.length := gplus_length
  by_cases hur : u = root
  · subst hur
    simp only [HLD.subtreeProd]
    rw [idx_of_some C.rootPos, ok_bind, idx_of_some C.rootR, ok_bind, sat_bind]
    have := C.kle
    refine (LazyP.prod_sat hM R.data (by omega) (by rw [R.dlen]; omega)).mono ?_
    rintro ⟨d', x⟩ ⟨h3, h4⟩
    simp only [sat_ok]
    simp only at h4
    rw [D_prod, List.drop_zero] at h4
    exact ⟨trivial, ⟨R.len, C.tree, h3⟩, _, (List.take_prefix _ _).isInfix,
      fun x => (C.seg x).trans (anc_root S hr hno).symm, h4⟩
  · have e : (⟨d, t⟩ : HLD S' F).subtreeProd M u =
        ((⟨d, t'⟩ : HLD S' F).subtreeProd M u >>= fun o => ok (⟨o.1.data, t⟩, o.2)) := by
      unfold HLD.subtreeProd
      simp only []
      rw [idx_congr (C.agree.pos u hu), idx_congr (C.posR u hu hur), bind_assoc']
      refine bind_congr_ok fun p _ => ?_
      rw [bind_assoc']
      refine bind_congr_ok fun q _ => ?_
      rw [bind_assoc']; rfl
    rw [e, sat_bind]
    refine (subtreeProd_sat hM R T (by omega) (by rw [hl]; exact conn_lt S.inRange hr hu)).mono ?_
    rintro ⟨⟨d', _⟩, x⟩ ⟨rfl, k1, s, k2, k3, k4⟩
    simp only [sat_ok]
    exact ⟨trivial, k1, s, k2, fun x => (k3 x).trans (gplus_anc' S hr hno hu hur), k4⟩

end

/-! ### Paths that leave the component -/

theorem whileLoop_never {σ : Type} {cond : σ → Res Bool} {body : σ → Res σ} (I : σ → Prop)
    (hc : ∀ s, I s → cond s = ok true) (hi : ∀ s s', I s → body s = ok s' → I s') {k : Nat} {s s' : σ} (hs : I s) :
    whileLoop k s cond body ≠ ok s' := by
  induction k generalizing s with
  | zero => intro h; cases h
  | succ k ih =>
    intro h
    simp only [whileLoop] at h
    rw [hc s hs, ok_bind, if_pos rfl] at h
    obtain ⟨s1, h1, h⟩ := bind_ok_inv h
    exact ih (hi s s1 hs h1) h

theorem _root_.Verif.Spec.Apart.symm {u v : Nat} (h : Apart g root u v) : Apart g root v u := Or.symm h

section
variable {t t' : HArr} {c : Forest} {k : Nat} (C : Comp g root t t' c k) (S : IsSimpleGraph g) (hr : root < g.length)
  (h0 : ¬ Connected g root 0)
include C S hr h0

theorem apart_climb {u v y z : Nat} (h : Apart g root u v) (h1 : t.head[u]? = some y) (h2 : t.parent[y]? = some z) :
    Apart g root z v := by
  rcases h with ⟨k1, k2, k3⟩ | ⟨k1, k2, k3⟩
  · refine .inl ⟨?_, k2, k3⟩
    have := C.agree.headV u y k1 (by rw [← C.agree.head u k1]; exact h1)
    exact C.agree.parentV y z this (by rw [← C.agree.parent y this]; exact h2)
  · obtain ⟨-, -, o3, -⟩ := C.outside u k2 k3
    rw [h1] at o3; cases o3
    obtain ⟨-, -, -, o4⟩ := C.outside 0 (by omega) h0
    rw [h2] at o4; cases o4
    exact .inr ⟨k1, by omega, h0⟩

theorem apart_heads {u v : Nat} (h : Apart g root u v) :
    ∃ a b, t.head[u]? = some a ∧ t.head[v]? = some b ∧ a ≠ b := by
  have hd : ∀ x, Connected g root x → ∃ a, t.head[x]? = some a ∧ a ≠ 0 := by
    intro x hx
    have := C.tree.headSome (x := x) (by rw [gplus_length]; exact conn_lt S.inRange hr hx)
    refine ⟨_, (C.agree.head x hx).trans this, fun e => h0 ?_⟩
    have := C.agree.headV x _ hx this
    rwa [e] at this
  rcases h with ⟨k1, k2, k3⟩ | ⟨k1, k2, k3⟩
  · obtain ⟨a, e, ha⟩ := hd u k1
    exact ⟨a, 0, e, (C.outside v k2 k3).2.2.1, ha⟩
  · obtain ⟨a, e, ha⟩ := hd v k1
    exact ⟨0, a, (C.outside u k2 k3).2.2.1, e, ha.symm⟩

theorem applyPath_apart {u v : Nat} (h : Apart g root u v) (d : LazySegtree S' F) (f : F) (r : HLD S' F) :
    (⟨d, t⟩ : HLD S' F).applyPath M u v f ≠ ok r := by
  intro e
  unfold HLD.applyPath at e
  obtain ⟨s, hs, -⟩ := bind_ok_inv e
  revert hs
  refine whileLoop_never (fun s => Apart g root s.2.1 s.2.2) ?_ ?_ h
  · rintro ⟨d, u, v⟩ h
    obtain ⟨a, b, h1, h2, h3⟩ := apart_heads C S hr h0 h
    simp only [] at h1 h2 ⊢
    rw [idx_of_some h1, ok_bind, idx_of_some h2, ok_bind]
    simp [h3]
  · rintro ⟨d, u, v⟩ s' h hb
    simp only [] at h hb
    obtain ⟨hu, -, hb⟩ := bind_ok_inv hb
    obtain ⟨du, -, hb⟩ := bind_ok_inv hb
    obtain ⟨hv, -, hb⟩ := bind_ok_inv hb
    obtain ⟨dv, -, hb⟩ := bind_ok_inv hb
    have h' : Apart g root (if du < dv then (v, u) else (u, v)).1 (if du < dv then (v, u) else (u, v)).2 := by
      split
      · exact h.symm
      · exact h
    generalize (if du < dv then (v, u) else (u, v)) = w at hb h'
    obtain ⟨u, v⟩ := w
    simp only [] at hb h'
    obtain ⟨hu, e1, hb⟩ := bind_ok_inv hb
    obtain ⟨_, -, hb⟩ := bind_ok_inv hb
    obtain ⟨_, -, hb⟩ := bind_ok_inv hb
    obtain ⟨_, -, hb⟩ := bind_ok_inv hb
    obtain ⟨z, e2, hb⟩ := bind_ok_inv hb
    cases hb
    exact apart_climb C S hr h0 h' (idx_eq_ok.1 e1) (idx_eq_ok.1 e2)

theorem pathProd_apart {u v : Nat} (h : Apart g root u v) (d : LazySegtree S' F) (r : HLD S' F × S') :
    (⟨d, t⟩ : HLD S' F).pathProd M u v ≠ ok r := by
  intro e
  unfold HLD.pathProd at e
  obtain ⟨s, hs, -⟩ := bind_ok_inv e
  revert hs
  refine whileLoop_never (fun s => Apart g root s.2.2.1 s.2.2.2) ?_ ?_ h
  · rintro ⟨d, x, u, v⟩ h
    obtain ⟨a, b, h1, h2, h3⟩ := apart_heads C S hr h0 h
    simp only [] at h1 h2 ⊢
    rw [idx_of_some h1, ok_bind, idx_of_some h2, ok_bind]
    simp [h3]
  · rintro ⟨d, x, u, v⟩ s' h hb
    simp only [] at h hb
    obtain ⟨hu, -, hb⟩ := bind_ok_inv hb
    obtain ⟨du, -, hb⟩ := bind_ok_inv hb
    obtain ⟨hv, -, hb⟩ := bind_ok_inv hb
    obtain ⟨dv, -, hb⟩ := bind_ok_inv hb
    have h' : Apart g root (if du < dv then (v, u) else (u, v)).1 (if du < dv then (v, u) else (u, v)).2 := by
      split
      · exact h.symm
      · exact h
    generalize (if du < dv then (v, u) else (u, v)) = w at hb h'
    obtain ⟨u, v⟩ := w
    simp only [] at hb h'
    obtain ⟨hu, e1, hb⟩ := bind_ok_inv hb
    obtain ⟨_, -, hb⟩ := bind_ok_inv hb
    obtain ⟨_, -, hb⟩ := bind_ok_inv hb
    obtain ⟨_, -, hb⟩ := bind_ok_inv hb
    obtain ⟨_, -, hb⟩ := bind_ok_inv hb
    obtain ⟨z, e2, hb⟩ := bind_ok_inv hb
    cases hb
    exact apart_climb C S hr h0 h' (idx_eq_ok.1 e1) (idx_eq_ok.1 e2)

end

end
end Verif.HLDP
