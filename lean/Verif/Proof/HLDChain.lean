import Verif.Proof.HLDDfs
import Verif.Proof.BinaryLifting
/-! Chains of the heavy-light decomposition: what the finished arrays mean. -/
namespace Verif.HLDP
open Res Model Spec TreeP

variable {g : List (List Nat)} {root : Nat}

/-- The arrays built by `new`; `c` is the forest below the root in the order visited. -/
structure HOk (g : List (List Nat)) (root : Nat) (t : HArr) (c : Forest) : Prop where
  wf : WF g.length t
  parent : ∀ x, x < g.length → t.parent[x]? = some (par g root x)
  dep : ∀ x, x < g.length → t.dep[x]? = some ((rpath g root x).length - 1)
  perm : (root :: c.pre).Perm (List.range g.length)
  paths : PathsOk (rpath g root) root c
  stamped : Stamped t.pos t.posR 0 (.cons root c .nil)
  heads : Heads t.head (some root) (.cons root c .nil)
  lf : LF none c

/-- Each node starts a chain or directly follows its parent in the chain and in position order. -/
theorem chain_aux {R : Nat → List Nat} {t : HArr} {u τ : Nat} {o : Option Nat} {c : Forest}
    (hp : PathsOk R u c) (hs : Stamped t.pos t.posR τ c) (hh : Heads t.head o c)
    (ho : ∀ h, o = some h → t.head[u]? = some h ∧ ∃ k, t.pos[u]? = some k ∧ τ = k + 1) :
    ∀ x ∈ c.pre, t.head[x]? = some x ∨ ∃ q h k, R x = R q ++ [x] ∧ t.head[x]? = some h ∧
      t.head[q]? = some h ∧ t.pos[q]? = some k ∧ t.pos[x]? = some (k + 1) := by
  induction c generalizing u τ o with
  | nil => simp [Forest.pre]
  | cons v c s ih1 ih2 =>
    obtain ⟨p1, p2, p3⟩ := hp
    obtain ⟨s1, s2, s3, s4⟩ := hs
    obtain ⟨h1, h2, h3⟩ := hh
    intro x hx
    simp only [Forest.pre, List.mem_cons, List.mem_append] at hx
    rcases hx with rfl | hx | hx
    · cases o with
      | none => exact .inl h1
      | some h =>
        obtain ⟨k1, k, k2, rfl⟩ := ho h rfl
        exact .inr ⟨u, h, k, p1, h1, k1, k2, s1⟩
    · exact ih1 p2 s3 h2 (by rintro h hh; cases hh; exact ⟨h1, τ, s1, rfl⟩) x hx
    · exact ih2 p3 s4 h3 (by simp) x hx

/-- Number of chain starts on a list of nodes. -/
def tops (t : HArr) (l : List Nat) : Nat := l.countP fun y => decide (t.head[y]? = some y)

theorem log_aux {R : Nat → List Nat} {t : HArr} {u : Nat} {c : Forest} {o b : Option Nat}
    (hp : PathsOk R u c) (hh : Heads t.head o c) (hl : LF b c)
    (hob : (o = none ∧ ∃ B, b = some B) ∨ ((∃ h, o = some h ∧ h ∉ c.pre) ∧ b = none))
    (hn : c.pre.Nodup) :
    ∀ x ∈ c.pre, ∃ k, tops t (R x) = tops t (R u) + k ∧ 2 ^ k ≤ b.getD 1 + c.size := by
  induction c generalizing u o b with
  | nil => simp [Forest.pre]
  | cons v c s ih1 ih2 =>
    obtain ⟨p1, p2, p3⟩ := hp
    obtain ⟨h1, h2, h3⟩ := hh
    obtain ⟨l1, l2, l3⟩ := hl
    simp only [Forest.pre, List.nodup_cons, List.mem_append, not_or, List.nodup_append] at hn
    obtain ⟨⟨hvc, hvs⟩, hnc, hns, hcs⟩ := hn
    simp only [Forest.size]
    have hv : ∃ j, tops t (R v) = tops t (R u) + j ∧ j ≤ 1 ∧ (b = none → j = 0) := by
      rw [p1]
      simp only [tops, List.countP_append, List.countP_singleton]
      rcases hob with ⟨rfl, B, rfl⟩ | ⟨⟨h, rfl, hh⟩, rfl⟩
      · exact ⟨_, rfl, by split <;> omega, by simp⟩
      · refine ⟨0, ?_, by omega, fun _ => rfl⟩
        simp only [Option.getD_some] at h1
        rw [h1]
        simp only [Forest.pre, List.mem_cons, not_or] at hh
        simp [hh.1]
    obtain ⟨j, hj, hj1, hj0⟩ := hv
    have hvv : ∀ k, 2 ^ k ≤ 1 + c.size → 2 ^ (j + k) ≤ b.getD 1 + (1 + c.size + s.size) := by
      intro k hk
      cases b with
      | none => rw [hj0 rfl]; simp only [Option.getD_none, Nat.zero_add]; omega
      | some B =>
        have := l1 B rfl
        have h2 : 2 ^ (j + k) ≤ 2 * 2 ^ k := by
          rw [Nat.add_comm, Nat.pow_add, Nat.mul_comm]
          exact Nat.mul_le_mul_right _ (by rcases (by omega : j = 0 ∨ j = 1) with rfl | rfl <;> decide)
        simp only [Option.getD_some]
        omega
    intro x hx
    simp only [Forest.pre, List.mem_cons, List.mem_append] at hx
    rcases hx with rfl | hx | hx
    · exact ⟨j, hj, hvv 0 (by omega)⟩
    · have hhd : o.getD v ∉ c.pre := by
        rcases hob with ⟨rfl, -⟩ | ⟨⟨h, rfl, hh⟩, -⟩
        · exact hvc
        · simp only [Forest.pre, List.mem_cons, List.mem_append, not_or] at hh
          exact hh.2.1
      obtain ⟨k, k1, k2⟩ := ih1 p2 h2 l2 (.inr ⟨⟨_, rfl, hhd⟩, rfl⟩) hnc x hx
      exact ⟨j + k, by omega, hvv k k2⟩
    · obtain ⟨k, k1, k2⟩ := ih2 p3 h3 l3 (.inl ⟨rfl, _, rfl⟩) hns x hx
      refine ⟨k, k1, k2.trans ?_⟩
      cases b with
      | none => simp only [Option.getD_none, Option.getD_some]; omega
      | some B => simp only [Option.getD_some]; omega

section
variable {t : HArr} {c : Forest} (T : IsTree g) (hr : root < g.length) (H : HOk g root t c)

/-- Position of a node. -/
def P (t : HArr) (x : Nat) : Nat := t.pos.getD x 0
/-- End of the subtree of a node. -/
def PR (t : HArr) (x : Nat) : Nat := t.posR.getD x 0
/-- Top of the chain of a node. -/
def Hd (t : HArr) (x : Nat) : Nat := t.head.getD x 0

theorem getD_of_some {l : List Nat} {i a : Nat} (h : l[i]? = some a) : l.getD i 0 = a := by
  rw [List.getD_eq_getElem?_getD, h]; rfl

theorem some_of_lt {l : List Nat} {i : Nat} (h : i < l.length) : l[i]? = some (l.getD i 0) := by
  rw [List.getD_eq_getElem?_getD]; simp [h]

include H
theorem HOk.mem {x : Nat} : x ∈ root :: c.pre ↔ x < g.length := by
  rw [H.perm.mem_iff]; simp

theorem HOk.nodup : (root :: c.pre).Nodup := H.perm.nodup_iff.2 List.nodup_range

theorem HOk.length : (root :: c.pre).length = g.length := by
  rw [H.perm.length_eq]; simp

theorem HOk.posSome {x : Nat} (hx : x < g.length) : t.pos[x]? = some (P t x) :=
  some_of_lt (by rw [H.wf.pos]; exact hx)
theorem HOk.posRSome {x : Nat} (hx : x < g.length) : t.posR[x]? = some (PR t x) :=
  some_of_lt (by rw [H.wf.posR]; exact hx)
theorem HOk.headSome {x : Nat} (hx : x < g.length) : t.head[x]? = some (Hd t x) :=
  some_of_lt (by rw [H.wf.head]; exact hx)

theorem HOk.ord_get {i x : Nat} (h : (root :: c.pre)[i]? = some x) : P t x = i := by
  have e : (Forest.cons root c .nil).pre = root :: c.pre := by simp [Forest.pre]
  have := H.stamped.pre_get i x (by rw [e]; exact h)
  rw [P, getD_of_some this]; omega

theorem HOk.ord_pos {x : Nat} (hx : x < g.length) : (root :: c.pre)[P t x]? = some x := by
  obtain ⟨i, hi, e⟩ := List.mem_iff_getElem.1 (H.mem.2 hx)
  have h : (root :: c.pre)[i]? = some x := by rw [List.getElem?_eq_getElem hi, e]
  rw [H.ord_get h]; exact h

theorem HOk.pos_lt {x : Nat} (hx : x < g.length) : P t x < g.length := by
  rw [← H.length]
  exact (List.getElem?_eq_some_iff.1 (H.ord_pos hx)).1

theorem HOk.pos_inj {x y : Nat} (hx : x < g.length) (hy : y < g.length) (h : P t x = P t y) :
    x = y := by
  have h1 := H.ord_pos hx
  have h2 := H.ord_pos hy
  rw [h, h2] at h1; cases h1; rfl

include T hr

theorem HOk.subtree {x y : Nat} (hx : x < g.length) (hy : y < g.length) :
    Ancestor g root x y ↔ P t x ≤ P t y ∧ P t y < PR t x := by
  rw [anc_iff T hr hx hy]
  have e : (Forest.cons root c .nil).pre = root :: c.pre := by simp [Forest.pre]
  by_cases hxr : x = root
  · subst hxr
    obtain ⟨s1, s2, -, -⟩ := H.stamped
    have h1 : P t x = 0 := getD_of_some s1
    have h2 : PR t x = 0 + 1 + c.size := getD_of_some s2
    have h3 := H.pos_lt hy
    have h4 := H.length
    simp only [List.length_cons, Forest.pre_length] at h4
    obtain ⟨l, hl⟩ := head_root T hr hy
    rw [rpath_root T hr, hl]
    constructor
    · intro _; omega
    · intro _; exact ⟨l, rfl⟩
  · have hxc : x ∈ c.pre := by
      rcases List.mem_cons.1 (H.mem.2 hx) with h | h
      · exact absurd h hxr
      · exact h
    obtain ⟨s1, s2, s3, -⟩ := H.stamped
    by_cases hyr : y = root
    · subst hyr
      have h1 : P t y = 0 := getD_of_some s1
      obtain ⟨a, b, k1, k2, k3, k4, k5⟩ := s3.bounds x hxc
      have h2 : P t x = a := getD_of_some k1
      constructor
      · intro h
        have := h.length_le
        rw [rpath_root T hr] at this
        have := rpath_pos T hr hx
        exact absurd (eq_root_of_len T hr hx (by simp at *; omega)) hxr
      · intro _; omega
    · have hyc : y ∈ c.pre := by
        rcases List.mem_cons.1 (H.mem.2 hy) with h | h
        · exact absurd h hyr
        · exact h
      exact (s3.anc (List.nodup_cons.1 H.nodup).2 H.paths x hxc y hyc _ _ _ (H.posSome hx)
        (H.posRSome hx) (H.posSome hy)).symm

theorem HOk.posR_le {x : Nat} (hx : x < g.length) : P t x < PR t x ∧ PR t x ≤ g.length := by
  obtain ⟨a, b, k1, k2, k3, k4, k5⟩ := H.stamped.bounds x (by
    have := H.mem.2 hx; simpa [Forest.pre] using this)
  have h1 : P t x = a := getD_of_some k1
  have h2 : PR t x = b := getD_of_some k2
  have h4 := H.length
  simp only [List.length_cons, Forest.pre_length] at h4
  simp only [Forest.size] at k5
  omega

theorem HOk.chain {x : Nat} (hx : x < g.length) : Hd t x = x ∨
    (Hd t x = Hd t (par g root x) ∧ P t x = P t (par g root x) + 1 ∧
      rpath g root x = rpath g root (par g root x) ++ [x]) := by
  obtain ⟨h1, h2, -⟩ := H.heads
  obtain ⟨s1, s2, s3, -⟩ := H.stamped
  rcases List.mem_cons.1 (H.mem.2 hx) with rfl | h
  · exact .inl (getD_of_some h1)
  · rcases chain_aux H.paths s3 h2 (by
      rintro h hh; cases hh; exact ⟨h1, 0, s1, rfl⟩) x h with h | ⟨q, h, k, k1, k2, k3, k4, k5⟩
    · exact .inl (getD_of_some h)
    · right
      have hq : q < g.length := by
        rw [← H.wf.pos]; exact (List.getElem?_eq_some_iff.1 k4).1
      have e : par g root x = q := par_of_snoc T hr hq k1
      rw [e]
      refine ⟨?_, ?_, k1⟩
      · rw [Hd, Hd, getD_of_some k2, getD_of_some k3]
      · rw [P, P, getD_of_some k5, getD_of_some k4]

/-- Everything between the top of a chain and one of its nodes is in the chain, consecutively. -/
theorem HOk.head_spec : ∀ (k x : Nat), x < g.length → (rpath g root x).length = k →
    Hd t x < g.length ∧ Hd t (Hd t x) = Hd t x ∧ rpath g root (Hd t x) <+: rpath g root x ∧
    ∀ y, y < g.length → rpath g root (Hd t x) <+: rpath g root y →
      rpath g root y <+: rpath g root x → Hd t y = Hd t x ∧
      P t y + (rpath g root (Hd t x)).length = P t (Hd t x) + (rpath g root y).length := by
  intro k
  induction k with
  | zero => intro x hx h; have := rpath_pos T hr hx; omega
  | succ k ih =>
    intro x hx hk
    rcases H.chain T hr hx with h | ⟨h1, h2, h3⟩
    · rw [h]
      refine ⟨hx, h, List.prefix_refl _, ?_⟩
      intro y hy a b
      have : y = x := rpath_inj T hr hy hx
        (b.eq_of_length (Nat.le_antisymm b.length_le a.length_le))
      subst this
      exact ⟨h, rfl⟩
    · have hq := (par_spec T hr hx).1
      have hl : (rpath g root (par g root x)).length = k := by
        have := congrArg List.length h3
        simp at this; omega
      obtain ⟨a1, a2, a3, a4⟩ := ih _ hq hl
      rw [h1]
      have hpre : rpath g root (par g root x) <+: rpath g root x := by
        conv => rhs; rw [h3]
        exact List.prefix_append _ _
      refine ⟨a1, a2, a3.trans hpre, ?_⟩
      intro y hy b1 b2
      by_cases hyx : y = x
      · subst hyx
        refine ⟨h1, ?_⟩
        have := (a4 _ hq a3 (List.prefix_refl _)).2
        rw [h2]; omega
      · refine a4 y hy b1 ?_
        have hle : (rpath g root y).length ≤ k := by
          have := b2.length_le
          rcases Nat.lt_or_ge (rpath g root y).length (k + 1) with h | h
          · omega
          · exact absurd (rpath_inj T hr hy hx (b2.eq_of_length (by omega))) hyx
        exact List.prefix_of_prefix_length_le b2 hpre (by omega)

/-- Positions of a vertical stretch of a chain. -/
theorem HOk.seg {x y : Nat} (hx : x < g.length) (hy : y < g.length)
    (hyx : rpath g root y <+: rpath g root x)
    (hhy : rpath g root (Hd t x) <+: rpath g root y) :
    P t y ≤ P t x ∧
    ((root :: c.pre).take (P t x + 1)).drop (P t y) =
      (rpath g root x).drop ((rpath g root y).length - 1) := by
  obtain ⟨a1, a2, a3, a4⟩ := H.head_spec T hr _ x hx rfl
  have ex := (a4 x hx a3 (List.prefix_refl _)).2
  have ey := (a4 y hy hhy hyx).2
  have l1 := hhy.length_le
  have l2 := hyx.length_le
  have l3 := rpath_pos T hr hy
  have l4 := rpath_pos T hr a1
  have l5 := H.pos_lt hx
  refine ⟨by omega, ?_⟩
  apply List.ext_getElem?
  intro i
  rw [List.getElem?_drop, List.getElem?_drop, List.getElem?_take]
  by_cases hi : P t y + i < P t x + 1
  · rw [if_pos hi]
    obtain ⟨w, hw, ew⟩ := rpath_take T hr hx (k := (rpath g root y).length + i) (by omega) (by omega)
    have hwl : (rpath g root w).length = (rpath g root y).length + i := by
      rw [ew, List.length_take]; omega
    have hwx : rpath g root w <+: rpath g root x := by rw [ew]; exact List.take_prefix _ _
    have hyw : rpath g root y <+: rpath g root w :=
      List.prefix_of_prefix_length_le hyx hwx (by omega)
    have hp := (a4 w hw (hhy.trans hyw) hwx).2
    have hpw : P t w = P t y + i := by omega
    rw [← hpw, H.ord_pos hw]
    obtain ⟨A, hA⟩ := rpath_snoc T hr hw
    obtain ⟨B, hB⟩ := hwx
    have hAl : A.length = (rpath g root y).length - 1 + i := by
      rw [hA] at hwl; simp at hwl; omega
    rw [← hB, hA, ← hAl]
    simp
  · rw [if_neg hi, List.getElem?_eq_none (by omega)]

/-- Nodes of one chain are comparable. -/
theorem HOk.same {x y : Nat} (hx : x < g.length) (hy : y < g.length) (h : Hd t x = Hd t y)
    (hp : P t y ≤ P t x) : rpath g root y <+: rpath g root x := by
  obtain ⟨a1, a2, a3, a4⟩ := H.head_spec T hr _ x hx rfl
  obtain ⟨b1, b2, b3, b4⟩ := H.head_spec T hr _ y hy rfl
  have ex := (a4 x hx a3 (List.prefix_refl _)).2
  have ey := (b4 y hy b3 (List.prefix_refl _)).2
  rw [← h] at ey b3
  have l1 := rpath_pos T hr hy
  have l2 := b3.length_le
  obtain ⟨w, hw, ew⟩ := rpath_take T hr hx (k := (rpath g root y).length) (by omega) (by omega)
  have hwx : rpath g root w <+: rpath g root x := by rw [ew]; exact List.take_prefix _ _
  have hwl : (rpath g root w).length = (rpath g root y).length := by
    rw [ew, List.length_take]; omega
  have := (a4 w hw (List.prefix_of_prefix_length_le a3 hwx (by omega)) hwx).2
  have : w = y := H.pos_inj hw hy (by omega)
  rw [← this]; exact hwx

/-- One round of the path loops: the lower chain is a stretch of the path. -/
theorem HOk.climb (hgl : g.length < 2 ^ 64) {u v : Nat} (hu : u < g.length) (hv : v < g.length)
    (hne : Hd t u ≠ Hd t v)
    (hd : (rpath g root (Hd t v)).length ≤ (rpath g root (Hd t u)).length) :
    par g root (Hd t u) < g.length ∧
    (rpath g root (par g root (Hd t u))).length < (rpath g root u).length ∧
    ∀ p, IsPath g (par g root (Hd t u)) v p → IsPath g u v
      (((rpath g root u).drop ((rpath g root (Hd t u)).length - 1)).reverse ++ p) := by
  obtain ⟨a1, a2, a3, a4⟩ := H.head_spec T hr _ u hu rfl
  obtain ⟨b1, b2, b3, b4⟩ := H.head_spec T hr _ v hv rfl
  have hna : ¬ rpath g root (Hd t u) <+: rpath g root v := by
    intro h
    have := (b4 _ a1 (List.prefix_of_prefix_length_le b3 h hd) h).1
    rw [a2] at this
    exact hne this
  have hnr : (rpath g root (Hd t u)).length ≠ 1 := by
    intro h
    apply hna
    rw [eq_root_of_len T hr a1 h, rpath_root T hr]
    obtain ⟨l, hl⟩ := head_root T hr hv
    rw [hl]; exact ⟨l, rfl⟩
  have hpos := rpath_pos T hr a1
  obtain ⟨hq, eq⟩ := par_spec T hr a1
  have ql : (rpath g root (par g root (Hd t u))).length = (rpath g root (Hd t u)).length - 1 := by
    rw [eq, List.length_take]; omega
  have hqh : rpath g root (par g root (Hd t u)) <+: rpath g root (Hd t u) := by
    rw [eq]; exact List.take_prefix _ _
  have hle := a3.length_le
  refine ⟨hq, by omega, ?_⟩
  intro p hp
  obtain ⟨bl, -, hbl⟩ := BLP.from_sat T hr hgl
  obtain ⟨l, -, hl⟩ := BLP.lca_sat T hr hbl hq hv
  have hll := (anc_lt T hr hl.1).1
  have hlq := (anc_iff T hr hll hq).1 hl.1
  have hlv := (anc_iff T hr hll hv).1 hl.2.1
  have hlu : IsLca g root u v l := by
    refine ⟨(anc_iff T hr hll hu).2 (hlq.trans (hqh.trans a3)), hl.2.1, ?_⟩
    intro x hxu hxv
    have hx := (anc_lt T hr hxu).1
    have h1 := (anc_iff T hr hx hu).1 hxu
    have h2 := (anc_iff T hr hx hv).1 hxv
    refine hl.2.2 x ?_ hxv
    rw [anc_iff T hr hx hq]
    refine List.prefix_of_prefix_length_le h1 (hqh.trans a3) ?_
    rcases Nat.lt_or_ge (rpath g root x).length (rpath g root (Hd t u)).length with h | h
    · omega
    · exact absurd ((List.prefix_of_prefix_length_le a3 h1 h).trans h2) hna
  have h1 := path_via T hr hu hv hlu
  have h2 := path_via T hr hq hv hl
  rw [hp.eq T h2 hq]
  have lpos := rpath_pos T hr hll
  have lle := hlq.length_le
  obtain ⟨s, hs⟩ := hqh.trans a3
  have e1 : (rpath g root u).drop ((rpath g root (Hd t u)).length - 1) = s := by
    rw [← hs, ← ql, List.drop_left]
  rw [e1]
  rw [← hs, List.drop_append_of_le_length (by omega), List.reverse_append, List.append_assoc] at h1
  exact h1

/-- The last stretch, inside one chain. -/
theorem HOk.last {u v : Nat} (hu : u < g.length) (hv : v < g.length)
    (huv : rpath g root u <+: rpath g root v) :
    IsPath g u v ((rpath g root v).drop ((rpath g root u).length - 1)) ∧
    IsPath g v u ((rpath g root v).drop ((rpath g root u).length - 1)).reverse := by
  have hau : Ancestor g root u v := (anc_iff T hr hu hv).2 huv
  have huu := anc_refl T hr hu
  have hpos := rpath_pos T hr hu
  constructor
  · have := path_via T hr hu hv (l := u) ⟨huu, hau, fun x hx _ => hx⟩
    obtain ⟨A, hA⟩ := rpath_snoc T hr hu
    obtain ⟨s, hs⟩ := huv
    have hl : (rpath g root u).length - 1 = A.length := by rw [hA]; simp
    have e1 : (rpath g root u).drop ((rpath g root u).length - 1) = [u] := by
      rw [hl, hA, List.drop_left]
    have e2 : (rpath g root v).drop (rpath g root u).length = s := by
      rw [← hs, List.drop_left]
    have e3 : (rpath g root v).drop ((rpath g root u).length - 1) = u :: s := by
      rw [← hs, List.drop_append_of_le_length (by omega), e1]; rfl
    rw [e1, e2] at this
    rw [e3]; exact this
  · have := path_via T hr hv hu (l := u) ⟨hau, huu, fun x _ hx => hx⟩
    rw [List.drop_length, List.append_nil] at this
    exact this

/-- A root path meets at most `log2 n + 1` chains. -/
theorem HOk.log {x : Nat} (hx : x < g.length) : 2 ^ (tops t (rpath g root x) - 1) ≤ g.length := by
  have hh := H.heads
  obtain ⟨h1, h2, -⟩ := H.heads
  have hroot : tops t (rpath g root root) = 1 := by
    rw [rpath_root T hr]; simp only [tops, List.countP_singleton]
    simp only [Option.getD_some] at h1
    simp [h1]
  have hlen := H.length
  simp only [List.length_cons, Forest.pre_length] at hlen
  rcases List.mem_cons.1 (H.mem.2 hx) with rfl | h
  · rw [hroot]; simp; omega
  · obtain ⟨k, k1, k2⟩ := log_aux H.paths h2 H.lf
      (.inr ⟨⟨_, rfl, (List.nodup_cons.1 H.nodup).1⟩, rfl⟩) (List.nodup_cons.1 H.nodup).2 x h
    rw [k1, hroot]
    simp only [Option.getD_none, Nat.add_sub_cancel_left] at *
    omega
end

/-! ### `new` -/

/-- What the two searches leave behind: `f` is the forest of the vertices they reach, `G` a tree in which the
paths from the root to those vertices are the ones the searches take. -/
structure Built (G : List (List Nat)) (root : Nat) (f : Forest) (t : HArr) (c : Forest) : Prop where
  wf : WF G.length t
  parent : ∀ x ∈ root :: f.pre, t.parent[x]? = some (par G root x)
  dep : ∀ x ∈ root :: f.pre, t.dep[x]? = some ((rpath G root x).length - 1)
  perm : c.pre.Perm f.pre
  paths : PathsOk (rpath G root) root c
  stamped : Stamped t.pos t.posR 0 (.cons root c .nil)
  heads : Heads t.head (some root) (.cons root c .nil)
  lf : LF none c
  frame : ∀ x, x < G.length → x ∉ root :: f.pre → t.pos[x]? = some 0 ∧ t.posR[x]? = some 0 ∧
    t.head[x]? = some 0 ∧ t.parent[x]? = some 0 ∧ t.dep[x]? = some 0

theorem built {G : List (List Nat)} (T : IsTree G) (hr : root < G.length) (hG : G.length = g.length)
    (hgl : g.length < 2 ^ 32) {f : Forest} (hf : FRep g root root (g.getD root []) f)
    (hp : PathsOk (rpath G root) root f) (hn : (root :: f.pre).Nodup) (hflt : ∀ x ∈ f.pre, x < g.length)
    {k : Nat} (hh : f.height ≤ k) :
    ∀ parent, parent = (List.replicate g.length 0).set root root →
    Sat (do
      let (t, _) ← HArr.dfs1 (k + 1) g root
        { parent := parent, dep := List.replicate g.length 0
          heavyChild := List.replicate g.length none, head := List.replicate g.length 0
          pos := List.replicate g.length 0, posR := List.replicate g.length 0 }
      HArr.dfs2 (k + 1) g root root t 0) (fun o => ∃ c, Built G root f o.1 c) := by
  rintro _ rfl
  have hr' : root < g.length := hG ▸ hr
  have hlen : 1 + f.size ≤ g.length := by
    have h := List.subperm_of_subset hn (l₂ := List.range g.length) (by
      intro x hx
      rcases List.mem_cons.1 hx with rfl | hx
      · simpa using hr'
      · simpa using hflt x hx)
    have := h.length_le
    simp only [List.length_cons, Forest.pre_length, List.length_range] at this
    omega
  rw [sat_bind]
  refine (dfs1_sat T hr hG hf hr' hflt hp hn (fuel := k)
    hh (by omega) (by omega) (t := _)
    ⟨by simp [hG], by simp [hG], by simp [hG], by simp [hG], by simp [hG], by simp [hG]⟩ (set_self (by simp; exact hr'))
    (by rw [rpath_root T hr]; simp [hr']) (by simp [hr'])
    (fun x hx => by simp [hflt x hx])).mono ?_
  rintro ⟨t, s⟩ ⟨h1, rfl, h2⟩
  simp only at h1 h2 ⊢
  have hrc : root ∉ f.pre := (List.nodup_cons.1 hn).1
  have hpr : t.parent[root]? = some root := by
    rw [(h1.frame root hrc).1]; exact set_self (by simp; exact hr')
  have hall : ∀ x ∈ f.pre, ∃ q, rpath G root x = rpath G root q ++ [x] ∧ t.parent[x]? = some q := by
    intro x hx
    refine ⟨par G root x, ?_, h1.parent x hx⟩
    have hxl : x < G.length := hG ▸ hflt x hx
    obtain ⟨hq, eq⟩ := par_spec T hr hxl
    have hne : (rpath G root x).length ≠ 1 := fun h => hrc (eq_root_of_len T hr hxl h ▸ hx)
    have hpos := rpath_pos T hr hxl
    obtain ⟨A, hA⟩ := rpath_snoc T hr hxl
    rw [hA] at hne hpos eq
    rw [eq, hA]
    simp at hne
    have : A.length ≠ 0 := by simp [hne]
    simp only [List.length_append, List.length_singleton, Nat.add_sub_cancel]
    rw [Nat.max_eq_right (by omega), List.take_left]
  have hRinj : ∀ q v, (∃ x, rpath G root x = rpath G root q ++ [x] ∧
      rpath G root x = rpath G root v ++ [x] ∧ v ∈ root :: f.pre) → q = v := by
    rintro q v ⟨x, k1, k2, k3⟩
    have hv : v < G.length := by
      rcases List.mem_cons.1 k3 with rfl | k3
      · exact hr
      · exact hG ▸ hflt v k3
    rw [k1] at k2
    have e := (List.append_inj_left' k2 rfl)
    by_cases hq : q < G.length
    · exact rpath_inj T hr hq hv e
    · exfalso
      have : rpath G root q = [] ∨ q < G.length := by
        unfold rpath
        by_cases hex : ∃ p, IsPath G root q p
        · right
          obtain ⟨p, hp⟩ := hex
          exact hp.lt T hr q (List.mem_of_getLast? hp.last)
        · left; simp [hex]
      rcases this with h | h
      · rw [h] at e
        have := rpath_pos T hr hv
        rw [← e] at this; simp at this
      · exact hq h
  obtain ⟨k1, k2⟩ := both hf hflt hp hn hRinj
  have := node2 hr' hn hp (by
    rintro q ⟨x, j1, j2⟩; exact hRinj q root ⟨x, j1, j2, by simp⟩) k1 k2
  refine (this (k + 1) root 0 t (by omega) (by omega) (hG ▸ h1.wf) hpr h2
    h1.heavy hall).mono ?_
  rintro ⟨t2, τ⟩ ⟨c, j1, j2, j3, j4, -⟩
  refine ⟨c, hG ▸ j4.wf, ?_, ?_, j1, j2, j4.stamped, j4.heads, j3, ?_⟩
  · intro x hx
    rw [j4.parent]
    rcases List.mem_cons.1 hx with rfl | h
    · rw [hpr, par_root T hr]
    · exact h1.parent x h
  · intro x hx
    rw [j4.dep]
    rcases List.mem_cons.1 hx with rfl | h
    · rw [(h1.frame x hrc).2.1, rpath_root T hr]; simp [hr']
    · exact h1.dep x h
  · intro x hx hxn
    have hxn' : x ∉ (Forest.cons root c .nil).pre := by
      simpa [Forest.pre, j1.mem_iff] using hxn
    obtain ⟨a1, a2, a3⟩ := j4.frame x hxn'
    have hxr : x ≠ root := fun h => hxn (by simp [h])
    obtain ⟨b1, b2, -⟩ := h1.frame x fun h => hxn (List.mem_cons_of_mem _ h)
    obtain ⟨d1, d2, d3⟩ := h1.untouched
    rw [j4.parent, j4.dep, a1, a2, a3, b1, b2, d1, d2, d3]
    rw [hG] at hx
    refine ⟨by simp [hx], by simp [hx], by simp [hx], ?_, by simp [hx]⟩
    rw [set_ne hxr]; simp [hx]

theorem new_arr (T : IsTree g) (hr : root < g.length) (hgl : g.length < 2 ^ 32) :
    ∀ parent, parent = (List.replicate g.length 0).set root root →
    Sat (do
      let (t, _) ← HArr.dfs1 (g.length + 1) g root
        { parent := parent, dep := List.replicate g.length 0
          heavyChild := List.replicate g.length none, head := List.replicate g.length 0
          pos := List.replicate g.length 0, posR := List.replicate g.length 0 }
      HArr.dfs2 (g.length + 1) g root root t 0) (fun o => ∃ c, HOk g root o.1 c) := by
  intro parent hpar
  obtain ⟨f, hf⟩ := rooted_exists T hr
  refine (built T hr rfl hgl hf.rep hf.paths hf.nodup
    (fun x hx => (hf.mem x).1 (List.mem_cons_of_mem _ hx)) (by have := hf.height; omega) parent hpar).mono ?_
  rintro o ⟨c, B⟩
  refine ⟨c, B.wf, fun x hx => B.parent x ((hf.mem x).2 hx), fun x hx => B.dep x ((hf.mem x).2 hx), ?_,
    B.paths, B.stamped, B.heads, B.lf⟩
  rw [List.perm_ext_iff_of_nodup ?_ List.nodup_range]
  · intro x
    have : x ∈ root :: c.pre ↔ x ∈ root :: f.pre := (B.perm.cons root).mem_iff
    rw [this, hf.mem]; simp
  · exact ((B.perm.cons root).nodup_iff).2 hf.nodup

end Verif.HLDP
