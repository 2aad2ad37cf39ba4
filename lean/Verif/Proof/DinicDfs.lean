import Verif.Model.Dinic
import Verif.Proof.Flow
import Mathlib.Logic.Relation
/-! Dinic: the residual graph and the blocking search. -/
namespace Verif.DinicP
open Res Model Spec FlowP Finset Relation

variable {N : List NEdge} {ty : IntTy}

/-- Tail of arc `j`. -/
def tl (N : List NEdge) (j : Nat) : Nat := if j % 2 = 0 then (ed N (j / 2)).u else (ed N (j / 2)).v
/-- Head of arc `j`. -/
def hd (N : List NEdge) (j : Nat) : Nat := if j % 2 = 0 then (ed N (j / 2)).v else (ed N (j / 2)).u
/-- Capacity of arc `j` in the network. -/
def cap0 (N : List NEdge) (j : Nat) : Int := if j % 2 = 0 then (ed N (j / 2)).a else (ed N (j / 2)).b
/-- Residual capacity of arc `j` in the state. -/
def cp (d : Dinic) (j : Nat) : Int := (d.e.getD j ⟨0, 0⟩).cap
/-- Level of a vertex. -/
def lv (d : Dinic) (x : Nat) : Int := d.h.getD x (-1)

theorem xor_one (j : Nat) : j ^^^ 1 = if j % 2 = 0 then j + 1 else j - 1 := by
  apply Nat.eq_of_testBit_eq
  intro i
  rw [Nat.testBit_xor]
  rcases Nat.mod_two_eq_zero_or_one j with h | h
  · rw [if_pos h]
    obtain ⟨q, rfl⟩ : ∃ q, j = 2 * q := ⟨j / 2, by omega⟩
    cases i with
    | zero => simp [Nat.testBit_zero]
    | succ i =>
      rw [Nat.testBit_succ, Nat.testBit_succ, Nat.testBit_succ]
      rw [show (2 * q + 1) / 2 = 2 * q / 2 by omega]; simp
  · rw [if_neg (by omega)]
    obtain ⟨q, rfl⟩ : ∃ q, j = 2 * q + 1 := ⟨j / 2, by omega⟩
    cases i with
    | zero => simp [Nat.testBit_zero]
    | succ i =>
      rw [Nat.testBit_succ, Nat.testBit_succ, Nat.testBit_succ]
      rw [show (2 * q + 1 - 1) / 2 = (2 * q + 1) / 2 by omega]; simp

theorem xor_lt {j m : Nat} (h : j < 2 * m) : j ^^^ 1 < 2 * m := by
  rw [xor_one]; split <;> omega

theorem xor_ne (j : Nat) : j ^^^ 1 ≠ j := by
  rw [xor_one]; split <;> omega

theorem tl_xor (j : Nat) : tl N (j ^^^ 1) = hd N j := by
  unfold tl hd
  rw [xor_one]
  rcases Nat.mod_two_eq_zero_or_one j with h | h
  · rw [if_pos h, if_pos h, if_neg (by omega), show (j + 1) / 2 = j / 2 by omega]
  · have h' : ¬ j % 2 = 0 := by omega
    rw [if_neg h', if_neg h', if_pos (by omega), show (j - 1) / 2 = j / 2 by omega]

theorem hd_xor (j : Nat) : hd N (j ^^^ 1) = tl N j := by
  unfold tl hd
  rw [xor_one]
  rcases Nat.mod_two_eq_zero_or_one j with h | h
  · rw [if_pos h, if_pos h, if_neg (by omega), show (j + 1) / 2 = j / 2 by omega]
  · have h' : ¬ j % 2 = 0 := by omega
    rw [if_neg h', if_neg h', if_pos (by omega), show (j - 1) / 2 = j / 2 by omega]

/-- The state is a residual state of the network `N`. -/
structure St (N : List NEdge) (d : Dinic) : Prop where
  el : d.e.length = 2 * N.length
  gl : d.g.length = d.n
  cl : d.cur.length = d.n
  hl : d.h.length = d.n
  toh : ∀ j, j < 2 * N.length → (d.e.getD j ⟨0, 0⟩).to = hd N j
  tln : ∀ j, j < 2 * N.length → tl N j < d.n
  g : ∀ x j, j ∈ d.g.getD x [] ↔ j < 2 * N.length ∧ tl N j = x
  nn : ∀ j, j < 2 * N.length → 0 ≤ cp d j
  pair : ∀ j, j < 2 * N.length → cp d j + cp d (j ^^^ 1) = cap0 N j + cap0 N (j ^^^ 1)

theorem St.hdn {d : Dinic} (h : St N d) {j : Nat} (hj : j < 2 * N.length) : hd N j < d.n := by
  rw [← tl_xor]; exact h.tln _ (xor_lt hj)

/-- Every edge's two capacities together fit the type. -/
def Fits (ty : IntTy) (N : List NEdge) : Prop :=
  ∀ j, j < 2 * N.length → cap0 N j + cap0 N (j ^^^ 1) ≤ ty.mx

/-- Σ of the capacities on edges at `y`, signed by direction. -/
def pot (N : List NEdge) (d : Dinic) (y : Nat) : Int :=
  ∑ k ∈ range N.length,
    ((if (ed N k).u = y then cp d (2 * k) else 0) - (if (ed N k).v = y then cp d (2 * k) else 0))

/-- One unit vector. -/
def dl (x y : Nat) (a : Int) : Int := if x = y then a else 0

/-! ### Pushing along one arc -/

/-- `e[j].cap -= a; e[j ^ 1].cap += a`. -/
def pushE (e : List FEdge) (j : Nat) (a : Int) : List FEdge :=
  (e.set j { e.getD j ⟨0, 0⟩ with cap := (e.getD j ⟨0, 0⟩).cap - a }).set (j ^^^ 1)
    { e.getD (j ^^^ 1) ⟨0, 0⟩ with cap := (e.getD (j ^^^ 1) ⟨0, 0⟩).cap + a }

section push
variable {d : Dinic} {j : Nat} {a : Int}

theorem pushE_getD (h : St N d) (hj : j < 2 * N.length) (i : Nat) :
    (pushE d.e j a).getD i ⟨0, 0⟩ = if i = j ^^^ 1 then
      { d.e.getD (j ^^^ 1) ⟨0, 0⟩ with cap := (d.e.getD (j ^^^ 1) ⟨0, 0⟩).cap + a } else
      if i = j then { d.e.getD j ⟨0, 0⟩ with cap := (d.e.getD j ⟨0, 0⟩).cap - a } else
      d.e.getD i ⟨0, 0⟩ := by
  unfold pushE
  rw [getD_set (by rw [List.length_set, h.el]; exact xor_lt hj), getD_set (by rw [h.el]; exact hj)]

theorem cp_push (h : St N d) (hj : j < 2 * N.length) (i : Nat) :
    cp { d with e := pushE d.e j a } i = if i = j ^^^ 1 then cp d (j ^^^ 1) + a else
      if i = j then cp d j - a else cp d i := by
  unfold cp
  show ((pushE d.e j a).getD i ⟨0, 0⟩).cap = _
  rw [pushE_getD h hj]
  split
  · rfl
  · split <;> rfl

theorem St.push (h : St N d) (hj : j < 2 * N.length) (ha : 0 ≤ a) (hac : a ≤ cp d j) :
    St N { d with e := pushE d.e j a } := by
  have hx := xor_ne j
  have hxx : (j ^^^ 1) ^^^ 1 = j := by rw [Nat.xor_assoc]; simp
  refine ⟨by simpa [pushE] using h.el, h.gl, h.cl, h.hl, ?_, h.tln, h.g, ?_, ?_⟩
  · intro i hi
    show ((pushE d.e j a).getD i ⟨0, 0⟩).to = _
    rw [pushE_getD h hj]
    split
    · rename_i e; subst e; exact h.toh _ hi
    · split
      · rename_i e; subst e; exact h.toh _ hi
      · exact h.toh i hi
  · intro i hi
    rw [cp_push h hj]
    have := h.nn i hi
    split
    · rename_i e; subst e; omega
    · split
      · omega
      · exact this
  · intro i hi
    rw [cp_push h hj, cp_push h hj]
    have hp := h.pair i hi
    by_cases e1 : i = j
    · subst e1
      rw [if_neg (Ne.symm hx), if_pos rfl, if_pos rfl]; omega
    · by_cases e2 : i = j ^^^ 1
      · subst e2
        rw [hxx] at hp ⊢
        rw [if_pos rfl, if_neg (Ne.symm hx), if_pos rfl]; omega
      · have e3 : i ^^^ 1 ≠ j ^^^ 1 := fun e => e1 (by
          have := congrArg (· ^^^ 1) e
          simpa [Nat.xor_assoc] using this)
        have e4 : i ^^^ 1 ≠ j := fun e => e2 (by
          have := congrArg (· ^^^ 1) e
          simpa [Nat.xor_assoc] using this)
        rw [if_neg e2, if_neg e1, if_neg e3, if_neg e4]; exact hp

theorem pot_push (h : St N d) (hj : j < 2 * N.length) (y : Nat) :
    pot N { d with e := pushE d.e j a } y = pot N d y - (dl (tl N j) y a - dl (hd N j) y a) := by
  have key : ∀ k, k < N.length → cp { d with e := pushE d.e j a } (2 * k) =
      cp d (2 * k) - (if k = j / 2 then (if j % 2 = 0 then a else -a) else 0) := by
    intro k _
    rw [cp_push h hj, xor_one]
    rcases Nat.mod_two_eq_zero_or_one j with h2 | h2
    · rw [if_pos h2, if_neg (by omega)]
      by_cases hk : 2 * k = j
      · have : k = j / 2 := by omega
        rw [if_pos hk, if_pos this, if_pos h2, hk]
      · have : k ≠ j / 2 := by omega
        rw [if_neg hk, if_neg this]; omega
    · have h2' : ¬ j % 2 = 0 := by omega
      rw [if_neg h2']
      by_cases hk : 2 * k = j - 1
      · have : k = j / 2 := by omega
        rw [if_pos hk, if_pos this, if_neg h2', hk]; omega
      · have : k ≠ j / 2 := by omega
        rw [if_neg hk, if_neg (by omega), if_neg this]; omega
  unfold pot
  have hterm : ∀ k ∈ range N.length,
      ((if (ed N k).u = y then cp { d with e := pushE d.e j a } (2 * k) else 0) -
        (if (ed N k).v = y then cp { d with e := pushE d.e j a } (2 * k) else 0)) =
      ((if (ed N k).u = y then cp d (2 * k) else 0) - (if (ed N k).v = y then cp d (2 * k) else 0)) -
      (if k = j / 2 then dl (tl N j) y a - dl (hd N j) y a else 0) := by
    intro k hk
    rw [key k (mem_range.1 hk)]
    by_cases e : k = j / 2
    · subst e
      simp only [if_true, dl, tl, hd]
      rcases Nat.mod_two_eq_zero_or_one j with h2 | h2
      · simp only [h2, if_true]
        split <;> split <;> omega
      · simp only [h2, Nat.one_ne_zero, if_false]
        split <;> split <;> omega
    · simp only [e, if_false, sub_zero]
  rw [Finset.sum_congr rfl hterm, Finset.sum_sub_distrib, Finset.sum_ite_eq']
  rw [if_pos (mem_range.2 (by omega))]

end push

/-! ### The level graph -/

/-- A step along an arc with residual capacity, one level up. -/
def LStep (N : List NEdge) (d : Dinic) (x y : Nat) : Prop :=
  ∃ j, j < 2 * N.length ∧ tl N j = x ∧ hd N j = y ∧ 0 < cp d j ∧ lv d y = lv d x + 1

/-- No way to `t` in the level graph. -/
def Dead (N : List NEdge) (t : Nat) (d : Dinic) (x : Nat) : Prop := ¬ ReflTransGen (LStep N d) x t

/-- Arc `j` cannot be used any more in this phase. -/
def Useless (N : List NEdge) (t : Nat) (d : Dinic) (j : Nat) : Prop :=
  cp d j ≤ 0 ∨ lv d (hd N j) ≠ lv d (tl N j) + 1 ∨ Dead N t d (hd N j)

/-- Arcs before the current-arc pointers are useless. -/
def CurOk (N : List NEdge) (t : Nat) (d : Dinic) : Prop :=
  ∀ x i j, i < d.cur.getD x 0 → (d.g.getD x [])[i]? = some j → Useless N t d j

/-- Capacities of level arcs only shrink from `d` to `d'`. -/
structure Mono (N : List NEdge) (d d' : Dinic) : Prop where
  h : d'.h = d.h
  cp : ∀ j, j < 2 * N.length → lv d (hd N j) = lv d (tl N j) + 1 → DinicP.cp d' j ≤ DinicP.cp d j

theorem Mono.refl (d : Dinic) : Mono N d d := ⟨rfl, fun _ _ _ => le_refl _⟩

theorem Mono.trans {d d' d'' : Dinic} (h : Mono N d d') (h' : Mono N d' d'') : Mono N d d'' := by
  refine ⟨h'.h.trans h.h, fun j hj hl => le_trans (h'.cp j hj ?_) (h.cp j hj hl)⟩
  unfold lv at hl ⊢; rw [h.h]; exact hl

theorem Mono.lv {d d' : Dinic} (h : Mono N d d') : DinicP.lv d' = DinicP.lv d := by
  funext x; unfold DinicP.lv; rw [h.h]

theorem Mono.dead {d d' : Dinic} (h : Mono N d d') {t x : Nat} (hd : Dead N t d x) :
    Dead N t d' x := by
  intro hr
  apply hd
  refine Relation.ReflTransGen.mono (p := LStep N d) ?_ _ _ hr
  rintro x y ⟨j, h1, h2, h3, h4, h5⟩
  rw [h.lv] at h5
  exact ⟨j, h1, h2, h3, lt_of_lt_of_le h4 (h.cp j h1 (by rw [h2, h3]; exact h5)), h5⟩

theorem Mono.useless {d d' : Dinic} (h : Mono N d d') {t j : Nat} (hj : j < 2 * N.length)
    (hu : Useless N t d j) : Useless N t d' j := by
  rcases hu with h1 | h1 | h1
  · by_cases hl : DinicP.lv d (hd N j) = DinicP.lv d (tl N j) + 1
    · exact .inl (le_trans (h.cp j hj hl) h1)
    · right; left; rw [h.lv]; exact hl
  · right; left; rw [h.lv]; exact h1
  · exact .inr (.inr (h.dead h1))

/-- Progress of a search at `u` that has pushed `a` from `d` to `d'`. -/
structure Prog (N : List NEdge) (t u : Nat) (d d' : Dinic) (a : Int) : Prop where
  st : St N d'
  g : d'.g = d.g
  n : d'.n = d.n
  mono : Mono N d d'
  cur : CurOk N t d'
  pot : ∀ y, pot N d' y = pot N d y - (dl u y a - dl t y a)
  frame : ∀ j, j < 2 * N.length → lv d (tl N j) < lv d u → cp d' j = cp d j
  zero : a = 0 → ∀ j, j < 2 * N.length → cp d' j = cp d j
  inc : ∀ j, j < 2 * N.length → cp d j < cp d' j → 0 ≤ lv d (hd N j) ∧ lv d (tl N j) = lv d (hd N j) + 1

theorem dfs_sat {n : Nat} (t : Nat) (hfit : Fits ty N) (hn : n < 2 ^ 31) :
    ∀ (fuel u : Nat) (f : Int) (d : Dinic), St N d → CurOk N t d → d.n = n → u < n →
    (∀ x, lv d x < n) → 0 ≤ lv d u → 0 < f → f ≤ ty.mx → (n : Int) < lv d u + fuel →
    Sat (Dinic.dfs ty fuel d u t f) (fun o => Prog N t u d o.1 o.2 ∧ 0 ≤ o.2 ∧ o.2 ≤ f ∧
      (o.2 < f → Dead N t o.1 u)) := by
  intro fuel
  induction fuel with
  | zero =>
    intro u f d _ _ _ _ hlt _ _ _ hf
    have := hlt u
    omega
  | succ fuel ih =>
    intro u f d h0 hc0 hdn hu hlt hlu hf hfmx hfuel
    unfold Dinic.dfs
    by_cases hut : u = t
    · subst hut
      rw [if_pos rfl, sat_ok]
      exact ⟨⟨h0, rfl, rfl, Mono.refl d, hc0, fun y => by simp, fun _ _ _ => rfl, fun _ _ _ => rfl,
        fun _ _ h => absurd h (lt_irrefl _)⟩,
        le_of_lt hf, le_refl _, fun h => absurd h (lt_irrefl _)⟩
    · rw [if_neg hut, idx_of_some (some_getD 0 (by rw [h0.cl, hdn]; exact hu)), ok_bind,
        idx_of_some (some_getD [] (by rw [h0.gl, hdn]; exact hu)), ok_bind, sat_bind]
      refine (loop_satG (σ := Dinic × Int × Nat) (fun o k => Prog N t u d o.1 (f - o.2.1) ∧
        0 < o.2.1 ∧ o.2.1 ≤ f ∧ k = (d.g.getD u []).length - o.2.2 ∧
        ∀ i j, i < o.2.2 → (d.g.getD u [])[i]? = some j → Useless N t o.1 j)
        (fun (o : Dinic × Int) => Prog N t u d o.1 (f - o.2) ∧ 0 ≤ o.2 ∧ o.2 ≤ f ∧
          (0 < o.2 → Dead N t o.1 u)) ?_ _ _ ((d.g.getD u []).length - d.cur.getD u 0)
          ⟨?_, hf, le_refl _, rfl, ?_⟩ (by omega)).mono ?_
      · rintro ⟨d1, r, i⟩ k ⟨hP, hr, hrf, rfl, hus⟩
        simp only at hP hr hrf hus ⊢
        have hst := hP.st
        have hn1 : d1.n = n := hP.n.trans hdn
        rw [hP.g, idx_of_some (some_getD [] (by rw [h0.gl, hdn]; exact hu)), ok_bind]
        by_cases hi : i < (d.g.getD u []).length
        · rw [if_pos hi]
          obtain ⟨j, hj⟩ : ∃ j, (d.g.getD u [])[i]? = some j := ⟨_, List.getElem?_eq_getElem hi⟩
          have hjm := List.mem_of_getElem? hj
          obtain ⟨hj2, htl⟩ := (h0.g u j).1 hjm
          have hje : j < d1.e.length := by rw [hst.el]; exact hj2
          rw [idx_of_some hj, ok_bind, idx_of_some (some_getD ⟨0, 0⟩ hje), ok_bind]
          have hto := hst.toh j hj2
          have hlv1 := hP.mono.lv
          have hvn : hd N j < n := by rw [← hn1]; exact hst.hdn hj2
          simp only [hto]
          have hgo : (if 0 < (d1.e.getD j ⟨0, 0⟩).cap then do
              let hv ← idx d1.h (hd N j)
              let hu ← idx d1.h u
              let hu1 ← ckI 32 (hu + 1)
              ok (decide (hv = hu1))
            else ok false : Res Bool) =
              ok (decide (0 < cp d1 j ∧ lv d (hd N j) = lv d u + 1)) := by
            by_cases hc : 0 < (d1.e.getD j ⟨0, 0⟩).cap
            · have hc' : 0 < cp d1 j := hc
              rw [if_pos hc, idx_of_some (some_getD (-1) (by rw [hst.hl, hn1]; exact hvn)), ok_bind,
                idx_of_some (some_getD (-1) (by rw [hst.hl, hn1]; exact hu)), ok_bind]
              have e1 : d1.h.getD u (-1) = lv d u := by rw [← hlv1]; rfl
              have e2 : d1.h.getD (hd N j) (-1) = lv d (hd N j) := by rw [← hlv1]; rfl
              have hub := hlt u
              rw [e1, e2, ckI_of (by unfold InI; constructor <;> omega), ok_bind]
              simp [hc']
            · have hc' : ¬ 0 < cp d1 j := hc
              rw [if_neg hc]
              simp [hc']
          rw [hgo, ok_bind, sat_bind]
          -- state after the optional push
          have key : Sat (if decide (0 < cp d1 j ∧ lv d (hd N j) = lv d u + 1) = true then do
              let (d, a) ← Dinic.dfs ty fuel d1 (hd N j) t (min r (d1.e.getD j ⟨0, 0⟩).cap)
              let ej ← idx d.e j
              let c1 ← ty.ck (ej.cap - a)
              let es ← upd d.e j { ej with cap := c1 }
              let ej' ← idx es (j ^^^ 1)
              let c2 ← ty.ck (ej'.cap + a)
              let es ← upd es (j ^^^ 1) { ej' with cap := c2 }
              let r ← ty.ck (r - a)
              ok ({ d with e := es }, r, decide (r = 0))
            else ok (d1, r, false)) (fun (o : Dinic × Int × Bool) => Prog N t u d o.1 (f - o.2.1) ∧
              0 ≤ o.2.1 ∧ o.2.1 ≤ f ∧ (o.2.2 = decide (o.2.1 = 0)) ∧ Mono N d1 o.1 ∧
              (0 < o.2.1 → Useless N t o.1 j)) := by
            by_cases hgo' : 0 < cp d1 j ∧ lv d (hd N j) = lv d u + 1
            · rw [if_pos (by simpa using hgo'), sat_bind]
              obtain ⟨hc, hlvv⟩ := hgo'
              have hlvv1 : lv d1 (hd N j) = lv d1 u + 1 := by rw [hlv1]; exact hlvv
              refine (ih (hd N j) (min r (cp d1 j)) d1 hst hP.cur hn1 hvn (by rw [hlv1]; exact hlt)
                (by rw [hlv1]; omega) (lt_min hr hc) (le_trans (min_le_left _ _) (le_trans hrf hfmx))
                (by rw [hlv1]; push_cast at hfuel; omega)).mono ?_
              rintro ⟨d2, a⟩ ⟨hP2, ha0, ham, hdead⟩
              simp only at hP2 ha0 ham hdead ⊢
              have har : a ≤ r := le_trans ham (min_le_left _ _)
              have hac : a ≤ cp d1 j := le_trans ham (min_le_right _ _)
              have hst2 := hP2.st
              have hj2e : j < d2.e.length := by rw [hst2.el]; exact hj2
              have hje' : j ^^^ 1 < d2.e.length := by rw [hst2.el]; exact xor_lt hj2
              have hcp2 : cp d2 j = cp d1 j := hP2.frame j hj2 (by rw [htl]; omega)
              have hpair := hst2.pair j hj2
              have hfitj := hfit j hj2
              have hnn := hst2.nn j hj2
              have hnn' := hst2.nn (j ^^^ 1) (xor_lt hj2)
              have hmn := ty.mn_nonpos
              rw [idx_of_some (some_getD ⟨0, 0⟩ hj2e), ok_bind]
              change Sat (ty.ck (cp d2 j - a) >>= _) _
              rw [IntTy.ck_of (IntTy.in_of_nonneg (by omega) (by omega)), ok_bind, upd_of_lt hj2e, ok_bind,
                idx_of_some (some_getD ⟨0, 0⟩ (by rw [List.length_set]; exact hje')), ok_bind,
                getD_set hj2e, if_neg (xor_ne j)]
              change Sat (ty.ck (cp d2 (j ^^^ 1) + a) >>= _) _
              rw [IntTy.ck_of (IntTy.in_of_nonneg (by omega) (by omega)), ok_bind,
                upd_of_lt (by rw [List.length_set]; exact hje'), ok_bind,
                IntTy.ck_of (IntTy.in_of_nonneg (by omega) (by omega)), ok_bind, sat_ok]
              show Prog N t u d { d2 with e := pushE d2.e j a } (f - (r - a)) ∧ 0 ≤ r - a ∧ r - a ≤ f ∧
                _ = _ ∧ Mono N d1 { d2 with e := pushE d2.e j a } ∧
                (0 < r - a → Useless N t { d2 with e := pushE d2.e j a } j)
              have hcpp := cp_push (a := a) hst2 hj2
              have hlv2 : lv d2 = lv d1 := hP2.mono.lv
              have hm3 : Mono N d2 { d2 with e := pushE d2.e j a } := by
                refine ⟨rfl, fun i hi hl => ?_⟩
                rw [hcpp]
                split
                · rename_i e; subst e
                  rw [hd_xor, tl_xor, htl, hlv2] at hl
                  omega
                · split
                  · rename_i e; subst e; omega
                  · exact le_refl _
              have hm13 := hP2.mono.trans hm3
              have hst3 := hst2.push hj2 ha0 (by omega : a ≤ cp d2 j)
              refine ⟨⟨hst3, hP2.g.trans hP.g, hP2.n.trans hP.n, hP.mono.trans hm13, ?_, ?_, ?_, ?_, ?_⟩,
                by omega, by omega, rfl, hm13, ?_⟩
              · intro x i j' hi' hj'
                have hjm' : j' ∈ d2.g.getD x [] := List.mem_of_getElem? hj'
                have hb := ((hst2.g x j').1 hjm').1
                exact hm3.useless hb (hP2.cur x i j' hi' hj')
              · intro y
                rw [pot_push hst2 hj2, hP2.pot, hP.pot, htl]
                simp only [dl]
                split <;> split <;> split <;> omega
              · intro i hi hl
                rw [hcpp]
                have hl1 : lv d1 (tl N i) < lv d1 u := by rw [hlv1]; exact hl
                split
                · rename_i e; subst e
                  rw [tl_xor] at hl1; omega
                · split
                  · rename_i e; subst e; rw [htl] at hl1; omega
                  · rw [hP2.frame i hi (by omega), hP.frame i hi hl]
              · intro hz i hi
                have hz1 : f - r = 0 := by omega
                have hz2 : a = 0 := by omega
                rw [hcpp, hz2]
                split
                · rename_i e; subst e
                  rw [hP2.zero hz2 _ hi, hP.zero hz1 _ hi]; omega
                · split
                  · rename_i e; subst e; rw [hP2.zero hz2 _ hi, hP.zero hz1 _ hi]; omega
                  · rw [hP2.zero hz2 _ hi, hP.zero hz1 _ hi]
              · intro i hi hlt2
                rw [hcpp] at hlt2
                by_cases e1 : i = j ^^^ 1
                · subst e1
                  rw [tl_xor, hd_xor, htl]; exact ⟨hlu, hlvv⟩
                · rw [if_neg e1] at hlt2
                  by_cases h1 : cp d i < cp d1 i
                  · exact hP.inc i hi h1
                  · have h2 : cp d1 i < cp d2 i := by
                      by_cases e2 : i = j
                      · rw [if_pos e2] at hlt2; subst e2; omega
                      · rw [if_neg e2] at hlt2; omega
                    have := hP2.inc i hi h2
                    rwa [hlv1] at this
              · intro hr'
                by_cases hca : a = cp d1 j
                · left
                  rw [hcpp, if_neg (Ne.symm (xor_ne j)), if_pos rfl]; omega
                · right; right
                  exact hm3.dead (hdead (by rw [lt_min_iff]; constructor <;> omega))
            · rw [if_neg (by simpa using hgo'), sat_ok]
              refine ⟨hP, le_of_lt hr, hrf, ?_, Mono.refl d1, fun _ => ?_⟩
              · simp only; symm; rw [decide_eq_false_iff_not]; omega
              · by_cases hc : 0 < cp d1 j
                · right; left
                  rw [hlv1, htl]; exact fun h => hgo' ⟨hc, h⟩
                · left; show cp d1 j ≤ 0; omega
          refine key.mono ?_
          rintro ⟨d3, r3, brk⟩ ⟨hP3, hr0, hrf3, hbrk, hm, husj⟩
          simp only at hP3 hr0 hrf3 hbrk hm husj ⊢
          by_cases hz : r3 = 0
          · rw [if_pos (by rw [hbrk]; simpa using hz), sat_ok]
            exact ⟨hP3, hr0, hrf3, fun h => by simp only at h; omega⟩
          · rw [if_neg (by rw [hbrk]; simpa using hz)]
            have hn3 : d3.n = n := hP3.n.trans hdn
            rw [upd_of_lt (by rw [hP3.st.cl, hn3]; exact hu), ok_bind, sat_ok]
            have hall : ∀ i' j', i' < i + 1 → (d.g.getD u [])[i']? = some j' → Useless N t d3 j' := by
              intro i' j' hi' hj'
              rcases Nat.lt_succ_iff_lt_or_eq.1 hi' with hi' | rfl
              · have hb := ((h0.g u j').1 (List.mem_of_getElem? hj')).1
                exact hm.useless hb (hus i' j' hi' hj')
              · rw [hj] at hj'; cases hj'
                exact husj (by omega)
            refine ⟨(d.g.getD u []).length - (i + 1), by omega, ?_, by show 0 < r3; omega, hrf3, rfl, hall⟩
            refine ⟨⟨hP3.st.el, hP3.st.gl, by simpa using hP3.st.cl, hP3.st.hl, hP3.st.toh, hP3.st.tln,
              hP3.st.g, hP3.st.nn, hP3.st.pair⟩, hP3.g, hP3.n, ⟨hP3.mono.h, hP3.mono.cp⟩, ?_, hP3.pot,
              hP3.frame, hP3.zero, hP3.inc⟩
            intro x i' j' hi' hj'
            have hi2 : i' < (d3.cur.set u (i + 1)).getD x 0 := hi'
            rw [getD_set (by rw [hP3.st.cl, hn3]; exact hu)] at hi2
            have hj2' : (d3.g.getD x [])[i']? = some j' := hj'
            show Useless N t d3 j'
            by_cases hxu : x = u
            · subst hxu
              rw [if_pos rfl] at hi2
              rw [hP3.g] at hj2'
              exact hall i' j' hi2 hj2'
            · rw [if_neg hxu] at hi2
              exact hP3.cur x i' j' hi2 hj2'
        · rw [if_neg hi, sat_ok]
          refine ⟨hP, le_of_lt hr, hrf, fun _ hpath => ?_⟩
          rcases ReflTransGen.cases_head hpath with e | ⟨y, ⟨j, h1, h2, h3, h4, h5⟩, hrest⟩
          · exact hut e
          · have hjm : j ∈ d.g.getD u [] := (h0.g u j).2 ⟨h1, h2⟩
            obtain ⟨i', hi', hij⟩ := List.getElem_of_mem hjm
            have := hus i' j (by omega) (by rw [List.getElem?_eq_getElem hi', hij])
            simp only at h4 h5 hrest
            rcases this with h | h | h
            · omega
            · rw [h2, h3] at h; exact h h5
            · rw [h3] at h; exact h hrest
      · refine ⟨h0, rfl, rfl, Mono.refl d, hc0, fun y => ?_, fun _ _ _ => rfl, fun _ _ _ => rfl,
          fun _ _ h => absurd h (lt_irrefl _)⟩
        simp [dl]
      · intro i j hi hj
        exact hc0 u i j hi hj
      · rintro ⟨d', r⟩ ⟨hP, hr0, hrf, hdead⟩
        simp only at hP hr0 hrf hdead ⊢
        rw [IntTy.ck_of (IntTy.in_of_nonneg (by omega) (by omega)), ok_bind, sat_ok]
        exact ⟨hP, by simp only; omega, by simp only; omega, fun h => hdead (by simp only at h; omega)⟩

end Verif.DinicP
