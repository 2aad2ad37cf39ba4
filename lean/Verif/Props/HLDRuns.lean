import Verif.Proof.HLDRuns
import Verif.Proof.TreeCheck
/-! C114: relations between calls of heavy-light decompositions: interchangeable updates, products that fit together, and
decompositions of isomorphic trees. -/
namespace Verif.Props
open Res Model Spec TreeP HLDP

section
variable {S F : Type} [Monoid S] {M : MapOps S F} {g : List (List Nat)} {root : Nat}

/-- C114: two decompositions of the same tree and root that read the same at every node, whatever histories led there, give
the same answers to every later history. -/
theorem C114_reads (hM : LawfulMap M) (T : IsTree g) (hr : root < g.length) (hgl : g.length < 2 ^ 32) (h h' : HLD S F)
    (hh : HReached M g root h) (hh' : HReached M g root h') (a : List S) (ha : Reads M g h a) (ha' : Reads M g h' a)
    (later : List (HldOp S F)) (hl : ∀ op ∈ later, op.Pre g.length) :
    ∃ u u' outs, hRun M h later = ok (u, outs) ∧ hRun M h' later = ok (u', outs) := by
  obtain ⟨hA, c, R, R'⟩ := reached_same hM T hr hgl hh hh' ha ha'
  exact hRun_same hM T hr hgl R R' hA hl

/-- The call maps some nodes by `f`. -/
def HldOp.IsMap (f : F) : HldOp S F → Prop
  | .applyPath _ _ k | .applySubtree _ k => k = f
  | _ => False

/-- Pairs of update sequences that should be interchangeable. -/
inductive HLaw (M : MapOps S F) (g : List (List Nat)) (root : Nat) : List (HldOp S F) → List (HldOp S F) → Prop
  | set_set (u : Nat) (x y : S) (hu : u < g.length) : HLaw M g root [.set u x, .set u y] [.set u y]
  | set_comm (u v : Nat) (x y : S) (hu : u < g.length) (hv : v < g.length) (hne : u ≠ v) :
      HLaw M g root [.set u x, .set v y] [.set v y, .set u x]
  | set_map (u : Nat) (x : S) (f : F) (hu : u < g.length) :
      HLaw M g root [.set u x, .applyPath u u f] [.set u (M.mapping f x)]
  | path_swap (u v : Nat) (f : F) (hu : u < g.length) (hv : v < g.length) :
      HLaw M g root [.applyPath u v f] [.applyPath v u f]
  | path_id (u v : Nat) (hu : u < g.length) (hv : v < g.length) : HLaw M g root [.applyPath u v M.idMap] []
  | path_comp (u v : Nat) (f k : F) (hu : u < g.length) (hv : v < g.length) :
      HLaw M g root [.applyPath u v f, .applyPath u v k] [.applyPath u v (M.comp k f)]
  | path_split (u v w w' : Nat) (p q : List Nat) (f : F) (hu : u < g.length) (h : IsPath g u v (p ++ w :: w' :: q)) :
      HLaw M g root [.applyPath u v f] [.applyPath u w f, .applyPath w' v f]
  | subtree_id (u : Nat) (hu : u < g.length) : HLaw M g root [.applySubtree u M.idMap] []
  | subtree_comp (u : Nat) (f k : F) (hu : u < g.length) :
      HLaw M g root [.applySubtree u f, .applySubtree u k] [.applySubtree u (M.comp k f)]
  | subtree_split (u : Nat) (ch : List Nat) (f : F) (hu : u < g.length) (hc : IsChildren g root u ch) :
      HLaw M g root [.applySubtree u f] (.applyPath u u f :: ch.map fun c => .applySubtree c f)
  | subtree_disjoint (u v : Nat) (f k : F) (hu : u < g.length) (hv : v < g.length) (h1 : ¬ Ancestor g root u v)
      (h2 : ¬ Ancestor g root v u) :
      HLaw M g root [.applySubtree u f, .applySubtree v k] [.applySubtree v k, .applySubtree u f]
  | commute (op op' : HldOp S F) (f k : F) (hf : HldOp.IsMap f op) (hk : HldOp.IsMap k op') (hp : op.Pre g.length)
      (hp' : op'.Pre g.length) (hc : ∀ x, M.mapping f (M.mapping k x) = M.mapping k (M.mapping f x)) :
      HLaw M g root [op, op'] [op', op]

omit [Monoid S] in
theorem HLaw.pre (T : IsTree g) {us vs : List (HldOp S F)} (h : HLaw M g root us vs) :
    (∀ op ∈ us, op.Pre g.length) ∧ (∀ op ∈ vs, op.Pre g.length) := by
  cases h with
  | path_split u v w w' p q f hu h =>
    have hlt := h.lt T hu
    have hv := hlt v (List.mem_of_getLast? h.last)
    have hw := hlt w (by simp)
    have hw' := hlt w' (by simp)
    simp [HldOp.Pre, *]
  | subtree_split u ch f hu hc =>
    refine ⟨by simp [HldOp.Pre, hu], ?_⟩
    intro op ho
    rcases List.mem_cons.1 ho with rfl | ho
    · exact ⟨hu, hu⟩
    · obtain ⟨c, hc1, rfl⟩ := List.mem_map.1 ho
      exact T.inRange _ _ ((hc.2 c).1 hc1).1
  | commute op op' f k hf hk hp hp' hc => simp [hp, hp']
  | _ => simp [HldOp.Pre, *]

theorem onPath_swap (T : IsTree g) {u v x : Nat} : OnPath g u v x ↔ OnPath g v u x :=
  ⟨fun ⟨p, h1, h2⟩ => ⟨_, path_reverse T h1, by simpa using h2⟩,
   fun ⟨p, h1, h2⟩ => ⟨_, path_reverse T h1, by simpa using h2⟩⟩

theorem onPath_iff (T : IsTree g) {u v x : Nat} {p : List Nat} (hu : u < g.length) (hp : IsPath g u v p) :
    OnPath g u v x ↔ x ∈ p :=
  ⟨fun ⟨q, h1, h2⟩ => by rwa [h1.eq T hp hu] at h2, fun h => ⟨p, hp, h⟩⟩

omit [Monoid S] in
theorem foldl_once {ι : Type} (P : ι → Prop) [DecidablePred P] (f : S → S) (l : List ι) (hl : l.Nodup)
    (hu : ∀ c ∈ l, ∀ c' ∈ l, P c → P c' → c = c') (y : S) :
    (l.foldl (fun y c => if P c then f y else y) y = y ∧ ∀ c ∈ l, ¬ P c) ∨
    (l.foldl (fun y c => if P c then f y else y) y = f y ∧ ∃ c ∈ l, P c) := by
  induction l generalizing y with
  | nil => exact .inl ⟨rfl, by simp⟩
  | cons c l ih =>
    rw [List.nodup_cons] at hl
    rw [List.foldl_cons]
    have ih := ih hl.2 (fun c h c' h' => hu c (by simp [h]) c' (by simp [h']))
    by_cases hc : P c
    · rw [if_pos hc]
      rcases ih (f y) with ⟨e, _⟩ | ⟨_, c', h1, h2⟩
      · exact .inr ⟨e, c, by simp, hc⟩
      · exact absurd (hu c (by simp) c' (by simp [h1]) hc h2 ▸ h1) hl.1
    · rw [if_neg hc]
      rcases ih y with ⟨e, h⟩ | ⟨e, c', h1, h2⟩
      · exact .inl ⟨e, by simpa [hc] using h⟩
      · exact .inr ⟨e, c', by simp [h1], h2⟩

theorem HLaw.acts (hM : LawfulMap M) (T : IsTree g) (hr : root < g.length) {us vs : List (HldOp S F)}
    (h : HLaw M g root us vs) (x : Nat) (y : S) : hActs M g root x y us = hActs M g root x y vs := by
  classical
  cases h with
  | set_set u z z' hu => simp only [hActs, List.foldl_cons, List.foldl_nil, hAct]; split_ifs <;> rfl
  | set_comm u v z z' hu hv hne =>
    simp only [hActs, List.foldl_cons, List.foldl_nil, hAct]; split_ifs <;> first | rfl | omega
  | set_map u z f hu =>
    have : OnPath g u u x ↔ u = x := by
      rw [onPath_iff T hu (IsPath.singleton u)]; simp [eq_comm]
    simp only [hActs, List.foldl_cons, List.foldl_nil, hAct, this]
    split_ifs <;> rfl
  | path_swap u v f hu hv =>
    simp only [hActs, List.foldl_cons, List.foldl_nil, hAct]
    by_cases e : OnPath g u v x
    · rw [if_pos e, if_pos ((onPath_swap T).1 e)]
    · rw [if_neg e, if_neg (fun k => e ((onPath_swap T).1 k))]
  | path_id u v hu hv => simp [hActs, hAct, hM.id_map]
  | path_comp u v f k hu hv =>
    simp only [hActs, List.foldl_cons, List.foldl_nil, hAct, hM.comp_map]; split_ifs <;> rfl
  | path_split u v w w' p q f hu h =>
    have h1 : OnPath g u w x ↔ x ∈ p ++ [w] := onPath_iff T hu h.take
    have hw' := h.lt T hu w' (by simp)
    have h2 : OnPath g w' v x ↔ x ∈ w' :: q := by
      refine onPath_iff T hw' ?_
      have := h
      rw [show p ++ w :: w' :: q = (p ++ [w]) ++ w' :: q by simp] at this
      exact this.drop
    have h3 : OnPath g u v x ↔ x ∈ p ++ w :: w' :: q := onPath_iff T hu h
    have hn := h.nodup
    rw [show p ++ w :: w' :: q = (p ++ [w]) ++ w' :: q by simp] at hn h3
    rw [List.nodup_append] at hn
    rw [List.mem_append, ← h1, ← h2] at h3
    have hd : ¬ (OnPath g u w x ∧ OnPath g w' v x) := fun ⟨k1, k2⟩ => hn.2.2 x (h1.1 k1) x (h2.1 k2) rfl
    simp only [hActs, List.foldl_cons, List.foldl_nil, hAct]
    by_cases k1 : OnPath g u w x <;> by_cases k2 : OnPath g w' v x <;> simp_all
  | subtree_id u hu => simp [hActs, hAct, hM.id_map]
  | subtree_comp u f k hu =>
    simp only [hActs, List.foldl_cons, List.foldl_nil, hAct, hM.comp_map]; split_ifs <;> rfl
  | subtree_split u ch f hu hc =>
    have hux : OnPath g u u x ↔ x = u := by rw [onPath_iff T hu (IsPath.singleton u)]; simp
    simp only [hActs, List.foldl_cons, List.foldl_nil, List.foldl_map, hAct]
    by_cases e : x = u
    · rw [if_pos (hux.2 e), if_pos (by rw [e]; exact anc_refl T hr hu)]
      rcases foldl_once (fun c => Ancestor g root c x) (M.mapping f) ch hc.1
          (fun c h c' h' k k' => child_unique T hr hu ((hc.2 c).1 h).1 ((hc.2 c).1 h).2 ((hc.2 c').1 h').1
            ((hc.2 c').1 h').2 k k') (M.mapping f y) with ⟨e1, _⟩ | ⟨_, c, h1, h2⟩
      · exact e1.symm
      · exact absurd e (child_anc T hr hu ((hc.2 c).1 h1).1 ((hc.2 c).1 h1).2 h2).2
    · rw [if_neg (fun k => e (hux.1 k))]
      rcases foldl_once (fun c => Ancestor g root c x) (M.mapping f) ch hc.1
          (fun c h c' h' k k' => child_unique T hr hu ((hc.2 c).1 h).1 ((hc.2 c).1 h).2 ((hc.2 c').1 h').1
            ((hc.2 c').1 h').2 k k') y with ⟨e1, h1⟩ | ⟨e1, c, h1, h2⟩
      · rw [e1, if_neg]
        intro k
        obtain ⟨c, k1, k2, k3⟩ := child_exists T hr k e
        exact h1 c ((hc.2 c).2 ⟨k1, k2⟩) k3
      · rw [e1, if_pos]
        exact (child_anc T hr hu ((hc.2 c).1 h1).1 ((hc.2 c).1 h1).2 h2).1
  | subtree_disjoint u v f k hu hv h1 h2 =>
    simp only [hActs, List.foldl_cons, List.foldl_nil, hAct]
    by_cases k1 : Ancestor g root u x
    · have k2 : ¬ Ancestor g root v x := by
        intro k2
        have hx := (anc_lt T hr k1).2
        rw [anc_iff T hr hu hx] at k1
        rw [anc_iff T hr hv hx] at k2
        rcases Nat.le_total (rpath g root u).length (rpath g root v).length with e | e
        · exact h1 ((anc_iff T hr hu hv).2 (List.prefix_of_prefix_length_le k1 k2 e))
        · exact h2 ((anc_iff T hr hv hu).2 (List.prefix_of_prefix_length_le k2 k1 e))
      simp [k2]
    · simp [k1]
  | commute op op' f k hf hk hp hp' hc =>
    cases op <;> simp only [HldOp.IsMap] at hf <;> subst hf <;> cases op' <;> simp only [HldOp.IsMap] at hk <;>
      subst hk <;> simp only [hActs, List.foldl_cons, List.foldl_nil, hAct] <;> split_ifs <;> simp [hc]

/-- C114: in every reachable state the two sides of a law can replace each other: both return, and every later history
gives the same answers after the one as after the other, for any (also non-commutative) monoid. -/
theorem C114_laws (hM : LawfulMap M) (T : IsTree g) (hr : root < g.length) (hgl : g.length < 2 ^ 32) (h : HLD S F)
    (hh : HReached M g root h) (us vs : List (HldOp S F)) (hlaw : HLaw M g root us vs) (later : List (HldOp S F))
    (hl : ∀ op ∈ later, op.Pre g.length) :
    ∃ hu ou hv ov w w' outs, hRun M h us = ok (hu, ou) ∧ hRun M h vs = ok (hv, ov) ∧
      hRun M hu later = ok (w, outs) ∧ hRun M hv later = ok (w', outs) := by
  obtain ⟨c, a, R⟩ := hh.rep hM T hr hgl
  obtain ⟨⟨hu, ou⟩, e1, a1, b1, r1, k1⟩ := hRun_acts hM T hr hgl R (hlaw.pre T).1
  obtain ⟨⟨hv, ov⟩, e2, a2, b2, r2, k2⟩ := hRun_acts hM T hr hgl R (hlaw.pre T).2
  simp only at a1 a2 r1 r2
  have hb : b1 = b2 := by
    apply List.ext_getElem?
    intro x
    rw [k1, k2]
    congr 1
    funext y
    exact hlaw.acts hM T hr x y
  subst hb
  obtain ⟨w, w', outs, f1, f2⟩ := hRun_same hM T hr hgl r1 r2 (a1.trans a2.symm) hl
  exact ⟨hu, ou, hv, ov, w, w', outs, e1, e2, f1, f2⟩

end

section
variable {S F : Type} [CommMonoid S] {M : MapOps S F} {g : List (List Nat)} {root : Nat}

theorem nodeProd_perm (a : List S) {p q : List Nat} (h : p.Perm q) : nodeProd a p = nodeProd a q :=
  (h.map _).prod_eq

theorem nodeProd_append (a : List S) (p q : List Nat) :
    nodeProd a (p ++ q) = nodeProd a p * nodeProd a q := by simp [nodeProd]

/-- C114, commutative operations, in any reachable state: `X u v` being the answer of `path_prod(u, v)`, it is symmetric,
it is `get(u)` for `u = v`, it splits at every node `w` of the path (counted in both parts), and it is determined by the
products from the root, `l` being the lowest common ancestor. -/
theorem C114_paths (hM : LawfulMap M) (T : IsTree g) (hr : root < g.length) (hgl : g.length < 2 ^ 32) (h : HLD S F)
    (hh : HReached M g root h) :
    ∃ X : Nat → Nat → S, (∀ u v, u < g.length → v < g.length → ∃ h', h.pathProd M u v = ok (h', X u v)) ∧
      (∀ u, u < g.length → ∃ h', h.get M u = ok (h', X u u)) ∧
      (∀ u v, u < g.length → v < g.length → X u v = X v u) ∧
      (∀ u v w p, u < g.length → IsPath g u v p → w ∈ p → X u w * X w v = X u v * X w w) ∧
      (∀ u v l, u < g.length → v < g.length → IsLca g root u v l →
        X root u * X root v * X l l = X u v * (X root l * X root l)) := by
  obtain ⟨c, a, R⟩ := hh.rep hM T hr hgl
  have ha := R.reads hM
  classical
  let X : Nat → Nat → S := fun u v => if h : ∃ p, IsPath g u v p then nodeProd a h.choose else 1
  have hX : ∀ {u v p}, u < g.length → IsPath g u v p → X u v = nodeProd a p := by
    intro u v p hu hp
    have hex : ∃ p, IsPath g u v p := ⟨p, hp⟩
    simp only [X, dif_pos hex]
    rw [hex.choose_spec.eq T hp hu]
  have hone : ∀ {u}, u < g.length → X u u = a.getD u 1 := by
    intro u hu
    rw [hX hu (IsPath.singleton u)]
    simp [nodeProd]
  refine ⟨X, ?_, ?_, ?_, ?_, ?_⟩
  · intro u v hu hv
    obtain ⟨p, hp⟩ := (T.path u v hu hv).exists
    obtain ⟨h', e, _⟩ := C25_path_prod hM T hr hgl h hh a ha u v hu hv p hp
    exact ⟨h', by rw [e, hX hu hp]⟩
  · intro u hu
    obtain ⟨h', y, e, k⟩ := ha.2 u hu
    refine ⟨h', ?_⟩
    rw [e, hone hu, List.getD_eq_getElem?_getD, k]
    rfl
  · intro u v hu hv
    obtain ⟨p, hp⟩ := (T.path u v hu hv).exists
    rw [hX hu hp, hX hv (path_reverse T hp)]
    exact nodeProd_perm a (List.reverse_perm p).symm
  · intro u v w p hu hp hw
    have hwl := hp.lt T hu w hw
    obtain ⟨A, B, rfl⟩ := List.append_of_mem hw
    rw [hX hu hp, hX hu hp.take, hX hwl hp.drop, hone hwl, nodeProd_append, nodeProd_append]
    simp only [nodeProd, List.map_cons, List.map_nil, List.prod_cons, List.prod_nil, mul_one]
    ac_rfl
  · intro u v l hu hv hl
    have hll := (anc_lt T hr hl.1).1
    obtain ⟨A, hA⟩ := (anc_iff T hr hll hu).1 hl.1
    obtain ⟨B, hB⟩ := (anc_iff T hr hll hv).1 hl.2.1
    obtain ⟨L, hL⟩ := rpath_snoc T hr hll
    have hP := path_via T hr hu hv hl
    have e1 : (rpath g root u).drop ((rpath g root l).length - 1) = l :: A := by
      rw [← hA, hL]; simp
    have e2 : (rpath g root v).drop (rpath g root l).length = B := by
      rw [← hB]; simp
    rw [e1, e2] at hP
    rw [hX hr (rpath_path T hr hu), hX hr (rpath_path T hr hv), hone hll, hX hu hP, hX hr (rpath_path T hr hll),
      ← hA, ← hB, hL]
    simp only [nodeProd, List.map_cons, List.map_nil, List.prod_cons, List.prod_nil, mul_one, List.map_append,
      List.prod_append, List.reverse_cons, List.map_reverse, List.prod_reverse]
    ac_rfl

/-- C114, commutative operations, in any reachable state reading `a`: `Y u` being the answer of `subtree_prod(u)`, it is the
product of everything at the root, and `get(u)` times the answers for the children of `u`. -/
theorem C114_subtrees (hM : LawfulMap M) (T : IsTree g) (hr : root < g.length) (hgl : g.length < 2 ^ 32) (h : HLD S F)
    (hh : HReached M g root h) (a : List S) (ha : Reads M g h a) :
    ∃ Y : Nat → S, (∀ u, u < g.length → ∃ h', h.subtreeProd M u = ok (h', Y u)) ∧ Y root = a.prod ∧
      ∀ u ch, u < g.length → IsChildren g root u ch → ∃ x, a[u]? = some x ∧ Y u = x * (ch.map Y).prod := by
  have hq : ∀ u, u < g.length → ∃ h' q, h.subtreeProd M u = ok (h', nodeProd a q) ∧ q.Nodup ∧
      ∀ y, y ∈ q ↔ Ancestor g root u y := by
    intro u hu
    obtain ⟨h', x, q, e, _, k1, k2, k3⟩ := C24_subtree_prod hM T hr hgl h hh a ha u hu
    subst k1
    exact ⟨h', q, e, k3.imp (fun hlt => by rintro rfl; omega), k2⟩
  have : Nonempty (HLD S F) := ⟨h⟩
  choose! H Q hQ using hq
  refine ⟨fun u => nodeProd a (Q u), fun u hu => ⟨H u, (hQ u hu).1⟩, ?_, ?_⟩
  · have hp : (Q root).Perm (List.range g.length) := by
      rw [List.perm_ext_iff_of_nodup (hQ root hr).2.1 List.nodup_range]
      intro y
      rw [(hQ root hr).2.2, List.mem_range]
      refine ⟨fun k => (anc_lt T hr k).2, fun k => ?_⟩
      rw [anc_mem T hr k]
      obtain ⟨l, hl⟩ := head_root T hr k
      rw [hl]; simp
    simp only
    rw [nodeProd_perm a hp]
    unfold nodeProd
    congr 1
    apply List.ext_getElem?
    intro i
    by_cases hi : i < a.length
    · have hi' : i < g.length := by rw [← ha.1]; exact hi
      simp [hi, hi', List.getD_eq_getElem?_getD]
    · have hi' : ¬ i < g.length := by rw [← ha.1]; exact hi
      simp [hi, hi']
  · intro u ch hu hc
    obtain ⟨_, y, _, k⟩ := ha.2 u hu
    refine ⟨y, k, ?_⟩
    have hp : (Q u).Perm (u :: ch.flatMap Q) := by
      rw [List.perm_ext_iff_of_nodup (hQ u hu).2.1]
      · intro x
        rw [(hQ u hu).2.2, List.mem_cons, List.mem_flatMap]
        constructor
        · intro k
          by_cases e : x = u
          · exact .inl e
          · obtain ⟨c, k1, k2, k3⟩ := child_exists T hr k e
            exact .inr ⟨c, (hc.2 c).2 ⟨k1, k2⟩, ((hQ c (T.inRange _ _ k1)).2.2 x).2 k3⟩
        · rintro (rfl | ⟨c, k1, k2⟩)
          · exact anc_refl T hr hu
          · have k3 := (hc.2 c).1 k1
            exact (child_anc T hr hu k3.1 k3.2 (((hQ c (T.inRange _ _ k3.1)).2.2 x).1 k2)).1
      · rw [List.nodup_cons, List.nodup_flatMap]
        refine ⟨?_, ?_, ?_⟩
        · intro k
          obtain ⟨c, k1, k2⟩ := List.mem_flatMap.1 k
          have k3 := (hc.2 c).1 k1
          exact (child_anc T hr hu k3.1 k3.2 (((hQ c (T.inRange _ _ k3.1)).2.2 u).1 k2)).2 rfl
        · intro c k1
          exact (hQ c (T.inRange _ _ ((hc.2 c).1 k1).1)).2.1
        · refine (List.Pairwise.and_mem.1 hc.1).imp ?_
          rintro c c' ⟨k1, k2, k3⟩ x hx hx'
          have j1 := (hc.2 c).1 k1
          have j2 := (hc.2 c').1 k2
          exact k3 (child_unique T hr hu j1.1 j1.2 j2.1 j2.2 (((hQ c (T.inRange _ _ j1.1)).2.2 x).1 hx)
            (((hQ c' (T.inRange _ _ j2.1)).2.2 x).1 hx'))
    simp only
    rw [nodeProd_perm a hp]
    have hflat : ∀ l : List Nat, nodeProd a (l.flatMap Q) = (l.map fun u => nodeProd a (Q u)).prod := by
      intro l
      induction l with
      | nil => rfl
      | cons c l ih => rw [List.flatMap_cons, nodeProd_append, ih]; simp
    rw [← hflat]
    have : nodeProd a (u :: ch.flatMap Q) = nodeProd a [u] * nodeProd a (ch.flatMap Q) := nodeProd_append a [u] _
    rw [this]
    congr 1
    simp [nodeProd, List.getD_eq_getElem?_getD, k]

/-- `σ` renames the nodes of the tree `g` to those of `g'`. -/
structure TreeIso (g g' : List (List Nat)) (σ : Nat → Nat) : Prop where
  len : g'.length = g.length
  lt : ∀ x, x < g.length → σ x < g.length
  inj : ∀ x y, x < g.length → y < g.length → σ x = σ y → x = y
  adj : ∀ x y, y ∈ g.getD x [] → σ y ∈ g'.getD (σ x) []

/-- The call with its nodes renamed. -/
def HldOp.rename {S F : Type} (σ : Nat → Nat) : HldOp S F → HldOp S F
  | .get u => .get (σ u)
  | .set u x => .set (σ u) x
  | .applyPath u v f => .applyPath (σ u) (σ v) f
  | .pathProd u v => .pathProd (σ u) (σ v)
  | .applySubtree u f => .applySubtree (σ u) f
  | .subtreeProd u => .subtreeProd (σ u)

/-- Not a subtree call. -/
def HldOp.NoSubtree {S F : Type} : HldOp S F → Prop
  | .applySubtree _ _ | .subtreeProd _ => False
  | _ => True

variable {g' : List (List Nat)} {σ : Nat → Nat}

theorem TreeIso.path (T : IsTree g) (I : TreeIso g g' σ) {u v : Nat} {p : List Nat} (hu : u < g.length)
    (hp : IsPath g u v p) : IsPath g' (σ u) (σ v) (p.map σ) := by
  refine ⟨by rw [List.head?_map, hp.head]; rfl, by rw [List.getLast?_map, hp.last]; rfl, ?_, ?_⟩
  · rw [List.isChain_map]
    exact hp.chain.imp fun a b h => I.adj _ _ h
  · exact hp.nodup.map_on fun x hx y hy e => I.inj x y (hp.lt T hu x hx) (hp.lt T hu y hy) e

theorem TreeIso.surj (I : TreeIso g g' σ) {y : Nat} (hy : y < g.length) : ∃ x, x < g.length ∧ σ x = y := by
  have h1 : Set.MapsTo σ (Finset.range g.length) (Finset.range g.length) := by
    intro x hx
    simp only [Finset.coe_range, Set.mem_Iio] at *
    exact I.lt x hx
  have h2 : Set.InjOn σ (Finset.range g.length) := by
    intro x hx y hy e
    simp only [Finset.coe_range, Set.mem_Iio] at *
    exact I.inj x y hx hy e
  have := Finset.surjOn_of_injOn_of_card_le σ h1 h2 (Nat.le_refl _)
  obtain ⟨x, hx, e⟩ := this (by simpa using hy)
  exact ⟨x, by simpa using hx, e⟩

theorem TreeIso.mem (T : IsTree g) (T' : IsTree g') (I : TreeIso g g' σ) {u v x : Nat} {p p' : List Nat}
    (hu : u < g.length) (hp : IsPath g u v p) (hp' : IsPath g' (σ u) (σ v) p') (hx : x < g.length) :
    σ x ∈ p' ↔ x ∈ p := by
  have e : p' = p.map σ := hp'.eq T' (I.path T hu hp) (by rw [I.len]; exact I.lt u hu)
  subst e
  rw [List.mem_map]
  exact ⟨fun ⟨y, h1, h2⟩ => I.inj y x (hp.lt T hu y h1) hx h2 ▸ h1, fun h => ⟨x, h, rfl⟩⟩

theorem TreeIso.anc (T : IsTree g) (T' : IsTree g') (I : TreeIso g g' σ) (hr : root < g.length) {u x : Nat}
    (hu : u < g.length) (hx : x < g.length) : Ancestor g' (σ root) (σ u) (σ x) ↔ Ancestor g root u x := by
  obtain ⟨p, hp⟩ := (T.path root x hr hx).exists
  have hp' := I.path T hr hp
  constructor
  · rintro ⟨q, h1, h2⟩
    exact ⟨p, hp, (I.mem T T' hr hp h1 hu).1 h2⟩
  · rintro ⟨q, h1, h2⟩
    exact ⟨_, hp', List.mem_map_of_mem (by rwa [h1.eq T hp hr] at h2)⟩

/-- Node values that correspond. -/
def IsoVals (n : Nat) (σ : Nat → Nat) (a a' : List S) : Prop := ∀ x, x < n → a'[σ x]? = a[x]?

theorem nodeProd_iso {a a' : List S} (h : IsoVals g.length σ a a') {q : List Nat} (hq : ∀ x ∈ q, x < g.length) :
    nodeProd a' (q.map σ) = nodeProd a q := by
  unfold nodeProd
  rw [List.map_map]
  congr 1
  apply List.map_congr_left
  intro x hx
  simp only [Function.comp, List.getD_eq_getElem?_getD, h x (hq x hx)]

theorem iso_step (T : IsTree g) (T' : IsTree g') (I : TreeIso g g' σ) (hr : root < g.length) {root' : Nat}
    {ord ord' : List Nat} (ho : ord.Perm (List.range g.length)) (ho' : ord'.Perm (List.range g.length))
    {a a' : List S} (hv : IsoVals g.length σ a a') {op : HldOp S F} (hp : op.Pre g.length)
    (hs : root' = σ root ∨ HldOp.NoSubtree op) {o o' : HldOut S} (h1 : op.OutOk g root ord a o)
    (h2 : (HldOp.rename σ op).OutOk g' root' ord' a' o') {b b' : List S} (h3 : op.Next M g root a b)
    (h4 : (HldOp.rename σ op).Next M g' root' a' b') : o = o' ∧ IsoVals g.length σ b b' := by
  cases op with
  | get u =>
    obtain ⟨x, e1, rfl⟩ := h1
    obtain ⟨y, e2, rfl⟩ := h2
    rw [hv u hp, e1] at e2
    cases e2
    simp only [HldOp.rename, HldOp.Next] at h3 h4
    subst h3 h4
    exact ⟨rfl, hv⟩
  | set u x =>
    simp only [HldOp.rename, HldOp.OutOk, HldOp.Next] at h1 h2 h3 h4
    subst h1 h2 h3 h4
    refine ⟨rfl, fun y hy => ?_⟩
    have hl : σ u < a'.length ↔ u < a.length := by
      rw [← not_le, ← not_le]
      refine not_congr ?_
      rw [← List.getElem?_eq_none_iff, ← List.getElem?_eq_none_iff, hv u hp]
    rw [List.getElem?_set, List.getElem?_set]
    by_cases e : u = y
    · subst e; simp [hl]
    · rw [if_neg e, if_neg (fun k => e (I.inj u y hp hy k)), hv y hy]
  | applyPath u v f =>
    simp only [HldOp.rename, HldOp.OutOk, HldOp.Next] at h1 h2 h3 h4
    subst h1 h2
    obtain ⟨p, k1, rfl⟩ := h3
    obtain ⟨p', k2, rfl⟩ := h4
    refine ⟨rfl, fun y hy => ?_⟩
    simp only [mapNodes, List.getElem?_mapIdx, hv y hy, I.mem T T' hp.1 k1 k2 hy]
  | pathProd u v =>
    simp only [HldOp.rename, HldOp.Next] at h3 h4
    subst h3 h4
    refine ⟨?_, hv⟩
    obtain ⟨p, q, k1, k2, rfl⟩ := h1
    obtain ⟨p', q', k3, k4, rfl⟩ := h2
    have e : p' = p.map σ := k3.eq T' (I.path T hp.1 k1) (by rw [I.len]; exact I.lt u hp.1)
    rw [nodeProd_perm b k2, nodeProd_perm b' k4, e, nodeProd_iso hv (k1.lt T hp.1)]
  | applySubtree u f =>
    obtain rfl := hs.resolve_right (fun k => k)
    simp only [HldOp.rename, HldOp.OutOk, HldOp.Next] at h1 h2 h3 h4
    subst h1 h2
    obtain ⟨s, k1, rfl⟩ := h3
    obtain ⟨s', k2, rfl⟩ := h4
    refine ⟨rfl, fun y hy => ?_⟩
    have : σ y ∈ s' ↔ y ∈ s := by rw [k1, k2, I.anc T T' hr hp hy]
    simp only [mapNodes, List.getElem?_mapIdx, hv y hy, this]
  | subtreeProd u =>
    obtain rfl := hs.resolve_right (fun k => k)
    simp only [HldOp.rename, HldOp.Next] at h3 h4
    subst h3 h4
    refine ⟨?_, hv⟩
    obtain ⟨q, k1, k2, rfl⟩ := h1
    obtain ⟨q', k3, k4, rfl⟩ := h2
    have hlt : ∀ x ∈ q, x < g.length := fun x hx => (anc_lt T hr ((k2 x).1 hx)).2
    have hqn : q.Nodup := (ho.nodup_iff.2 List.nodup_range).sublist k1.sublist
    have hqn' : q'.Nodup := (ho'.nodup_iff.2 List.nodup_range).sublist k3.sublist
    have hperm : q'.Perm (q.map σ) := by
      rw [List.perm_ext_iff_of_nodup hqn' (hqn.map_on fun x hx y hy e => I.inj x y (hlt x hx) (hlt y hy) e)]
      intro y
      rw [List.mem_map]
      constructor
      · intro hy
        have hy2 := (k4 y).1 hy
        have hyl : y < g.length := by
          have := (anc_lt T' (by rw [I.len]; exact I.lt root hr) hy2).2
          rwa [I.len] at this
        obtain ⟨x, hx, rfl⟩ := I.surj hyl
        exact ⟨x, (k2 x).2 ((I.anc T T' hr hp hx).1 hy2), rfl⟩
      · rintro ⟨x, hx, rfl⟩
        exact (k4 _).2 ((I.anc T T' hr hp (hlt x hx)).2 ((k2 x).1 hx))
    rw [nodeProd_perm b' hperm, nodeProd_iso hv hlt]

theorem iso_run (T : IsTree g) (T' : IsTree g') (I : TreeIso g g' σ) (hr : root < g.length) {root' : Nat}
    {ord ord' : List Nat} (ho : ord.Perm (List.range g.length)) (ho' : ord'.Perm (List.range g.length))
    {ops : List (HldOp S F)} {a a' : List S} (hv : IsoVals g.length σ a a') (hp : ∀ op ∈ ops, op.Pre g.length)
    (hs : root' = σ root ∨ ∀ op ∈ ops, HldOp.NoSubtree op) {os os' : List (HldOut S)}
    (h1 : HldRunOk M g root ord a ops os) (h2 : HldRunOk M g' root' ord' a' (ops.map (HldOp.rename σ)) os') :
    os = os' := by
  induction ops generalizing a a' os os' with
  | nil =>
    cases os with
    | nil =>
      cases os' with
      | nil => rfl
      | cons _ _ => exact h2.elim
    | cons _ _ => exact h1.elim
  | cons op ops ih =>
    cases os with
    | nil => exact h1.elim
    | cons o os =>
      cases os' with
      | nil => exact h2.elim
      | cons o' os' =>
        obtain ⟨j1, b, j2, j3⟩ := h1
        obtain ⟨l1, b', l2, l3⟩ := h2
        obtain ⟨rfl, hb⟩ := iso_step T T' I hr ho ho' hv (hp op (by simp)) (hs.imp id fun k => k op (by simp)) j1 l1 j2 l2
        rw [ih hb (fun op h => hp op (by simp [h])) (hs.imp id fun k op h => k op (by simp [h])) j3 l3]

/-- C114, commutative operations: decompositions of isomorphic trees answer corresponding histories alike. If the roots do not
correspond this holds of histories without subtree calls, so paths do not depend on the root; nor does any answer depend
on the order of the adjacency lists. -/
theorem C114_iso (hM : LawfulMap M) (T : IsTree g) (T' : IsTree g') (I : TreeIso g g' σ) (hr : root < g.length)
    (root' : Nat) (hr' : root' < g.length) (hgl : g.length < 2 ^ 32) (v v' : List S) (hl : v.length = g.length)
    (hl' : v'.length = g.length) (hv : ∀ x, x < g.length → v'[σ x]? = v[x]?) (ops : List (HldOp S F))
    (hops : ∀ op ∈ ops, op.Pre g.length) (hs : root' = σ root ∨ ∀ op ∈ ops, HldOp.NoSubtree op) :
    ∃ h0 h h0' h' outs, HLD.withInitValue M g root v = ok h0 ∧ hRun M h0 ops = ok (h, outs) ∧
      HLD.withInitValue M g' root' v' = ok h0' ∧ hRun M h0' (ops.map (HldOp.rename σ)) = ok (h', outs) := by
  obtain ⟨h0, h, outs, ord, e1, e2, -, e3, -, e4⟩ := C23_history hM T hr hgl v hl ops hops
  obtain ⟨h0', h', outs', ord', f1, f2, -, f3, -, f4⟩ := C23_history (M := M) hM T' (root := root')
    (by rw [I.len]; exact hr') (by rw [I.len]; exact hgl) v' (by rw [I.len]; exact hl') (ops.map (HldOp.rename σ)) (by
      intro op' ho'
      obtain ⟨op, ho, rfl⟩ := List.mem_map.1 ho'
      have := hops op ho
      rw [I.len]
      cases op <;> simp only [HldOp.rename, HldOp.Pre] at * <;> first | exact I.lt _ this | exact ⟨I.lt _ this.1, I.lt _ this.2⟩)
  rw [I.len] at f3
  obtain rfl := iso_run T T' I hr e3 f3 hv hops hs e4 f4
  exact ⟨h0, h, h0', h', outs, e1, e2, f1, f2⟩

end

/-! Concrete cases: the tree with edges `0-1, 0-2, 2-3`. -/

/-- Edges `0-1, 0-2, 2-3`. -/
def forkTree : List (List Nat) := [[1, 2], [0], [0, 3], [2]]

/-- The same tree with the nodes in reverse order. -/
def forkTree' : List (List Nat) := [[1], [3, 0], [3], [2, 1]]

theorem forkTree_tree : IsTree forkTree := isTree_of_check (by decide)
theorem forkTree'_tree : IsTree forkTree' := isTree_of_check (by decide)

example : TreeIso forkTree forkTree' (fun x => 3 - x) := by
  refine ⟨rfl, ?_, ?_, ?_⟩
  · intro x hx; have : forkTree.length = 4 := rfl; omega
  · intro x y hx hy e; have : forkTree.length = 4 := rfl; omega
  · intro x y h
    have hx : x < 4 := by
      by_contra hc
      rw [List.getD_eq_getElem?_getD, List.getElem?_eq_none (by show 4 ≤ x; omega)] at h
      simp at h
    have hx4 : x = 0 ∨ x = 1 ∨ x = 2 ∨ x = 3 := by omega
    rcases hx4 with rfl | rfl | rfl | rfl <;> simp [forkTree] at h <;>
      rcases h with rfl | rfl <;> decide

theorem forkTree_children : IsChildren forkTree 0 2 [3] := by
  refine ⟨by simp, fun c => ?_⟩
  constructor
  · intro h
    obtain rfl : c = 3 := by simpa using h
    exact ⟨by decide, [0, 2, 3], ⟨rfl, rfl, by simp [forkTree], by decide⟩, by decide⟩
  · rintro ⟨h1, p, h2, h3⟩
    have : c = 0 ∨ c = 3 := by simpa [forkTree] using h1
    rcases this with rfl | rfl
    · have := h2.eq forkTree_tree (IsPath.singleton 0) (by decide)
      subst this
      simp at h3
    · simp

example : HLaw shiftOps forkTree 0 [.applySubtree 2 5] [.applyPath 2 2 5, .applySubtree 3 5] :=
  .subtree_split 2 [3] 5 (by decide) forkTree_children

example : HLaw shiftOps forkTree 0 [.applyPath 1 3 5] [.applyPath 1 0 5, .applyPath 2 3 5] :=
  .path_split 1 3 0 2 [1] [3] 5 (by decide) ⟨rfl, rfl, by simp [forkTree], by decide⟩

example : ∃ h, HReached shiftOps forkTree 0 h := by
  obtain ⟨h0, h, outs, _, e1, e2, _⟩ := C23_history shiftOps_lawful forkTree_tree (root := 0) (by decide) (by decide)
    ([1, 2, 3, 4].map FreeMonoid.of) rfl [.applySubtree 2 5, .applyPath 1 3 2] (by simp [HldOp.Pre, forkTree])
  exact ⟨h, [1, 2, 3, 4].map FreeMonoid.of, h0, [.applySubtree 2 5, .applyPath 1 3 2], outs, rfl, by simp [HldOp.Pre, forkTree], e1, e2⟩

/-- Sums with no maps but the identity. -/
def sumOnly : MapOps (Multiplicative Nat) Unit := ⟨1, fun a b => a * b, (), fun _ x => x, fun _ _ => ()⟩

example : LawfulMap sumOnly ∧ ∃ h, HReached sumOnly forkTree 0 h := by
  have hM : LawfulMap sumOnly := ⟨rfl, fun _ _ => rfl, fun _ => rfl, fun _ _ _ => rfl, fun _ _ _ => rfl⟩
  obtain ⟨h0, h, outs, _, e1, e2, _⟩ := C23_history hM forkTree_tree (root := 0) (by decide) (by decide)
    ([1, 2, 3, 4].map Multiplicative.ofAdd) rfl [.set 2 (Multiplicative.ofAdd 7)] (by simp [HldOp.Pre, forkTree])
  exact ⟨hM, h, [1, 2, 3, 4].map Multiplicative.ofAdd, h0, [.set 2 (Multiplicative.ofAdd 7)], outs, rfl,
    by simp [HldOp.Pre, forkTree], e1, e2⟩

example : IsLca forkTree 0 1 3 0 := by
  refine ⟨⟨[0, 1], ⟨rfl, rfl, by simp [forkTree], by decide⟩, by decide⟩,
    ⟨[0, 2, 3], ⟨rfl, rfl, by simp [forkTree], by decide⟩, by decide⟩, ?_⟩
  rintro x ⟨p, h1, h2⟩ ⟨q, h3, h4⟩
  obtain rfl := h1.eq forkTree_tree (q := [0, 1]) ⟨rfl, rfl, by simp [forkTree], by decide⟩ (by decide)
  obtain rfl := h3.eq forkTree_tree (q := [0, 2, 3]) ⟨rfl, rfl, by simp [forkTree], by decide⟩ (by decide)
  obtain rfl : x = 0 := by simp at h2 h4; omega
  exact ⟨[0], IsPath.singleton 0, by simp⟩

end Verif.Props
