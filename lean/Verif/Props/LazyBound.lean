import Verif.Spec.LazyBound
import Verif.Proof.LazyBoundOps
import Verif.Props.LazyRefine
/-! C65: a lazy segment tree with checked arithmetic does not panic while the elements stay within bounds. -/
namespace Verif.Props
open Res Model Spec LazySim LazyB

variable {S F A G : Type} {RS : S → A → Prop} {RF : F → G → Prop} {R : MapMonoidOps S F} {M : MapOps A G}
  {norm : S → Nat} {fnorm : F → Nat} {N Z B : Nat}

theorem mapRange_getElem? {α : Type} (f : α → α) (a : List α) (l r i : Nat) :
    (mapRange f a l r)[i]? = a[i]?.map fun x => if l ≤ i ∧ i < r then f x else x := by
  unfold mapRange
  rw [List.getElem?_mapIdx]

theorem leafB_set {b : List Nat} {p x i : Nat} (hp : p < b.length) (hi : Z ≤ i) :
    leafB Z (b.set p x) i = if i = p + Z then x else leafB Z b i := by
  unfold leafB
  rw [List.getD_eq_getElem?_getD, List.getElem?_set, List.getD_eq_getElem?_getD]
  by_cases e : i = p + Z
  · rw [if_pos e, if_pos (by omega), if_pos hp]; rfl
  · rw [if_neg e, if_neg (by omega)]

theorem leafB_mapRange {b : List Nat} {l r f i : Nat} (hr : r ≤ b.length) (hi : Z ≤ i) :
    leafB Z (mapRange (· + f) b l r) i = if l + Z ≤ i ∧ i < r + Z then leafB Z b i + f else leafB Z b i := by
  unfold leafB
  rw [List.getD_eq_getElem?_getD, mapRange_getElem?, List.getD_eq_getElem?_getD]
  by_cases e : l + Z ≤ i ∧ i < r + Z
  · rw [if_pos e, List.getElem?_eq_getElem (show i - Z < b.length by omega)]
    simp only [Option.map_some, Option.getD_some]
    rw [if_pos (by omega)]
  · rw [if_neg e]
    simp only [show ¬ (l ≤ i - Z ∧ i - Z < r) by omega, if_false, Option.map_id']

theorem leafB_le {b : List Nat} (h : ∀ x ∈ b, x ≤ B) (i : Nat) : leafB Z b i ≤ B := by
  unfold leafB
  rw [List.getD_eq_getElem?_getD]
  cases e : b[i - Z]? with
  | none => simp
  | some x => simpa using h x (List.mem_of_getElem? e)

theorem load_length (op : LOp S F) (b : List Nat) : (op.load norm fnorm b).length = b.length := by
  cases op <;> simp [LOp.load, mapRange]

theorem lStep_b [Monoid A] (hR : Represents RS RF R M) (hB : Bounded norm fnorm B R) {b : List Nat} {t : LazySegtree S F}
    {t' : LazySegtree A G} (ht : TP norm fnorm RS RF b.length Z B (leafB Z b) none1 t t') (hN : b.length ≤ Z)
    {op : LOp S F} {op' : LOp A G} (ho : op.Like RS RF op') (hp : op'.Pre b.length) (hb : ∀ x ∈ b, x ≤ B)
    (hb2 : ∀ x ∈ op.load norm fnorm b, x ≤ B) :
    Sim False False (fun o o' => TP norm fnorm RS RF b.length Z B (leafB Z (op.load norm fnorm b)) none1 o.1 o'.1 ∧
      LOut.Like RS o.2 o'.2) (lStep R t op) (lStep M.ops t' op') := by
  have hn := ht.2.dims.n
  have hz := ht.2.dims.sz
  cases op <;> cases op' <;> try exact ho.elim
  · obtain ⟨rfl, hx⟩ := ho
    rename_i p x a
    simp only [LOp.Pre] at hp
    refine sim_bind (set_b hR hB ht (by omega) (by omega) hx
      (hb2 _ (List.mem_of_getElem? (i := p) (by simp [LOp.load, hp])))) fun u u' k => sim_ok ⟨⟨k.1, ?_⟩, trivial⟩
    refine k.2.mono (fun i hi _ => ?_) fun _ h => h
    simp only [LOp.load]
    rw [leafB_set hp (by rw [← k.2.dims.sz]; exact hi), hz]
  · cases ho
    exact sim_bind (get_b hR hB ht) fun _ _ k => sim_ok k
  · obtain ⟨rfl, rfl⟩ := ho
    exact sim_bind (prod_b hR hB ht _ _) fun _ _ k => sim_ok k
  · exact sim_bind (allProd_sim ht.1) fun _ _ k => sim_ok ⟨ht, k⟩
  · obtain ⟨rfl, hf⟩ := ho
    rename_i p f φ
    simp only [LOp.Pre] at hp
    simp only [LOp.load] at hb2 ⊢
    have hle := leafB_le (Z := Z) hb2 (p + Z)
    rw [leafB_mapRange (by omega) (by omega), if_pos (by omega)] at hle
    refine sim_bind (apply_b hR hB ht (p := p) (by omega) (by omega) hf (by rw [hz]; exact hle)) fun u u' k =>
      sim_ok ⟨⟨k.1, ?_⟩, trivial⟩
    refine k.2.mono (fun i hi _ => ?_) fun _ h => h
    rw [leafB_mapRange (by omega) (by rw [← k.2.dims.sz]; exact hi), hz]
    split
    · rw [if_pos (by omega)]
    · rw [if_neg (by omega)]
  · obtain ⟨rfl, rfl, hf⟩ := ho
    rename_i l r f φ
    simp only [LOp.Pre] at hp
    simp only [LOp.load] at hb2 ⊢
    refine sim_bind (applyRange_b hR hB ht hp.1 (by omega) (by omega) hf ?_ (fun i _ _ => leafB_le hb i)) fun u u' k =>
      sim_ok ⟨⟨k.1, ?_⟩, trivial⟩
    · intro i h1 h2
      have hle := leafB_le (Z := Z) hb2 i
      rw [leafB_mapRange (by omega) (by omega), if_pos (by omega)] at hle
      exact hle
    · refine k.2.mono (fun i hi _ => ?_) fun _ h => h
      rw [leafB_mapRange (by omega) (by rw [← k.2.dims.sz]; exact hi), hz]
  · obtain ⟨rfl, hg⟩ := ho
    exact sim_bind (maxRight_b hR hB ht _ hg) fun _ _ k => sim_ok k
  · obtain ⟨rfl, hg⟩ := ho
    exact sim_bind (minLeft_b hR hB ht _ hg) fun _ _ k => sim_ok k

theorem within_here {b : List Nat} {ops : List (LOp S F)} (h : Within norm fnorm B b ops) : ∀ x ∈ b, x ≤ B := by
  cases ops with
  | nil => exact h
  | cons op ops => exact h.1

theorem lRun_b [Monoid A] (hR : Represents RS RF R M) (hB : Bounded norm fnorm B R) {ops : List (LOp S F)}
    {ops' : List (LOp A G)} (ho : List.Forall₂ (LOp.Like RS RF) ops ops') {b : List Nat} {t : LazySegtree S F}
    {t' : LazySegtree A G} (ht : TP norm fnorm RS RF b.length Z B (leafB Z b) none1 t t') (hN : b.length ≤ Z)
    (hp : ∀ op ∈ ops', op.Pre b.length) (hw : Within norm fnorm B b ops) :
    Sim False False (fun o o' => List.Forall₂ (LOut.Like RS) o.2 o'.2) (lRun R t ops) (lRun M.ops t' ops') := by
  induction ho generalizing t t' b with
  | nil => exact sim_ok .nil
  | cons hop _ ih =>
    refine sim_bind (lStep_b hR hB ht hN hop (hp _ (by simp)) hw.1 (within_here hw.2)) ?_
    rintro ⟨t1, o⟩ ⟨t1', o'⟩ ⟨h1, h2⟩
    refine sim_bind (ih (b := LOp.load norm fnorm b _) (by rw [load_length]; exact h1) (by rw [load_length]; exact hN)
      (fun op' h' => by rw [load_length]; exact hp op' (List.mem_cons_of_mem _ h')) hw.2) ?_
    rintro ⟨t2, os⟩ ⟨t2', os'⟩ h4
    exact sim_ok (.cons h2 h4)

/-- C65: while the bounds of the elements, the measure of the last value written plus the measures of
the maps applied since, stay within `B`, no call panics, and the results are right. The internal
nodes and the pending maps need no hypothesis of their own. -/
theorem C65_history [Monoid A] (hM : LawfulMap M) (hR : Represents RS RF R M) (hB : Bounded norm fnorm B R)
    (v : List S) (a : List A) (hv : List.Forall₂ RS v a) (ha : a.length < 2 ^ 32) (ops : List (LOp S F))
    (ops' : List (LOp A G)) (ho : List.Forall₂ (LOp.Like RS RF) ops ops') (hops : ∀ op ∈ ops', op.Pre a.length)
    (hw : Within norm fnorm B (v.map norm) ops) :
    ∃ outs outs', (do let t ← LazySegtree.from R v; Prod.snd <$> lRun R t ops : Res _) = ok outs ∧
      List.Forall₂ (LOut.Like RS) outs outs' ∧ LRunOk M a ops' outs' := by
  obtain ⟨t0, t, outs, e0, e1, h⟩ := C07_history hM a ha ops' hops
  have hl := listRel_of hv
  rcases from_b hR hB hl (fun x hx => within_here hw _ (List.mem_map_of_mem hx)) with
    ⟨h, -⟩ | ⟨h, -⟩ | ⟨-, e⟩ | ⟨-, e⟩ | ⟨t1, t1', e2, e3, Z, hZ, k⟩
  · exact h.elim
  · exact h.elim
  · rw [e0] at e; cases e
  · rw [e0] at e; cases e
  rw [e0] at e3; cases e3
  have hlen : (v.map norm).length = v.length := by simp
  rcases lRun_b hR hB ho (b := v.map norm) (by rw [hlen]; exact k) (by rw [hlen]; exact hZ)
    (fun op h => by rw [hlen, hl.1]; exact hops op h) hw with ⟨h, -⟩ | ⟨h, -⟩ | ⟨-, e⟩ | ⟨-, e⟩ | ⟨o, o', e4, e5, k2⟩
  · exact h.elim
  · exact h.elim
  · rw [e1] at e; cases e
  · rw [e1] at e; cases e
  rw [e1] at e5; cases e5
  exact ⟨o.2, outs, by rw [e2, ok_bind, e4]; rfl, k2, h⟩

/-- Numbers under `max`. -/
structure MaxN where
  n : Nat
  deriving DecidableEq

@[ext] theorem MaxN.ext {x y : MaxN} (h : x.n = y.n) : x = y := by cases x; cases y; cases h; rfl

instance : Monoid MaxN where
  mul x y := ⟨max x.n y.n⟩
  one := ⟨0⟩
  mul_assoc x y z := MaxN.ext (Nat.max_assoc _ _ _)
  one_mul x := MaxN.ext (Nat.zero_max _)
  mul_one x := MaxN.ext (Nat.max_zero _)

/-- Maximum of `u32` values; a map adds a number to every value. The additions are checked. -/
def maxU32 : MapMonoidOps Nat Nat where
  e := 0
  op x y := ok (max x y)
  idMap := 0
  mapping f x := addU 32 f x
  comp f g := addU 32 f g

/-- The same without bounds. -/
def maxZ : MapOps MaxN Nat where
  e := 1
  op x y := x * y
  idMap := 0
  mapping f x := ⟨f + x.n⟩
  comp f g := f + g

theorem maxZ_lawful : LawfulMap maxZ where
  e_eq := rfl
  op_eq _ _ := rfl
  id_map x := MaxN.ext (Nat.zero_add _)
  comp_map f g x := MaxN.ext (Nat.add_assoc _ _ _)
  map_op f x y := MaxN.ext (Nat.add_max_add_left f x.n y.n).symm

theorem addU_cases (w x y : Nat) : addU w x y = .panic ∨ addU w x y = ok (x + y) := by
  unfold addU; split <;> simp

theorem maxU32_represents : Represents (fun x a => a = ⟨x⟩) (fun f φ => φ = f) maxU32 maxZ := by
  refine ⟨rfl, rfl, ?_, ?_, ?_⟩
  · intro x y a b h1 h2
    rw [show a = _ from h1, show b = _ from h2]
    exact .inr ⟨_, rfl, rfl⟩
  · intro f x φ a h1 h2
    rw [show φ = f from h1, show a = _ from h2]
    rcases addU_cases 32 f x with e | e
    · exact .inl e
    · exact .inr ⟨_, e, rfl⟩
  · intro f g φ γ h1 h2
    rw [show φ = f from h1, show γ = g from h2]
    rcases addU_cases 32 f g with e | e
    · exact .inl e
    · exact .inr ⟨_, e, rfl⟩

theorem addU_ok {w x y : Nat} (h : x + y < 2 ^ w) : addU w x y = ok (x + y) := by
  unfold addU; rw [if_pos h]

/-- A concrete instance for C65: the hypotheses hold of `u32` with checked addition and maximum. -/
theorem maxU32_bounded : Bounded id id (2 ^ 32 - 1) maxU32 := by
  refine ⟨rfl, rfl, fun x y _ _ => ⟨_, rfl, Nat.le_refl _⟩, ?_, ?_⟩
  · intro f x h
    exact ⟨_, addU_ok (by simp only [id] at h; omega), Nat.le_refl _⟩
  · intro f x h
    exact ⟨_, addU_ok (by simp only [id] at h; omega), Nat.le_refl _⟩

/-- A history that just fits, checked against the theorem's hypothesis, and one that does not. -/
example : Within id id (2 ^ 32 - 1) ([5, 2000000000, 7].map id)
    [.applyRange 0 3 2000000000, .set 1 1, .applyRange 1 3 2294967288, .prod 0 3] := by
  simp [Within, LOp.load, mapRange]

example : (do
    let t ← LazySegtree.from maxU32 [5, 2000000000, 7]
    Prod.snd <$> lRun maxU32 t [.applyRange 0 3 2000000000, .set 1 1, .applyRange 1 3 2294967288, .prod 0 3] : Res _) =
      ok [.unit, .unit, .unit, .val 4294967295] ∧
  (do
    let t ← LazySegtree.from maxU32 [5, 2000000000, 7]
    Prod.snd <$> lRun maxU32 t [.applyRange 0 3 2000000000, .set 1 1, .applyRange 1 3 2294967289, .prod 0 3] : Res _) =
      Res.panic := by constructor <;> rfl

end Verif.Props
