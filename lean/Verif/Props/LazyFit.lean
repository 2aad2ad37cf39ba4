import Verif.Proof.LazyFitSearch
import Verif.Props.LazyRefine
/-! C69: a lazy segment tree with checked arithmetic does not panic while the products of ranges of the plain
list and the compositions of the maps applied to one position fit. -/
namespace Verif.Props
open Res Model Spec LazySim LazyF

variable {S F A G : Type} {RS : S → A → Prop} {RF : F → G → Prop} {R : MapMonoidOps S F} {M : MapOps A G}
  {Fits : A → Prop} {FitsF : G → Prop}

open Classical in
/-- The operations of `M`, panicking where the result does not fit. -/
noncomputable def fitOps (M : MapOps A G) (Fits : A → Prop) (FitsF : G → Prop) : MapMonoidOps A G where
  e := M.e
  op a b := if Fits (M.op a b) then ok (M.op a b) else Res.panic
  idMap := M.idMap
  mapping f x := if Fits (M.mapping f x) then ok (M.mapping f x) else Res.panic
  comp f g := if FitsF (M.comp f g) then ok (M.comp f g) else Res.panic

theorem fitOps_chk [Monoid A] : Chk M Fits FitsF (fitOps M Fits FitsF) :=
  ⟨rfl, rfl, fun _ _ h => if_pos h, fun _ _ h => if_pos h, fun _ _ h => if_pos h⟩

/-- Represents and fits. -/
def AndFits (R : S → A → Prop) (Fits : A → Prop) (x : S) (a : A) : Prop := R x a ∧ Fits a

theorem fitOps_sim (hR : Represents RS RF R M) (hF : ReturnsIf RS RF R M Fits FitsF) (he : Fits M.e)
    (hi : FitsF M.idMap) :
    OpsSim False True (AndFits RS Fits) (AndFits RF FitsF) R (fitOps M Fits FitsF) := by
  refine ⟨⟨hR.e, he⟩, ⟨hR.idMap, hi⟩, ?_, ?_, ?_⟩
  · rintro x y a b ⟨h1, f1⟩ ⟨h2, f2⟩
    by_cases h : Fits (M.op a b)
    · obtain ⟨z, hz⟩ := hF.op x y a b h1 h2 f1 f2 h
      have hg := hR.op x y a b h1 h2
      rw [show (fitOps M Fits FitsF).op a b = ok (M.op a b) from if_pos h, hz]
      rcases hg with e | ⟨s, e, hs⟩
      · rw [hz] at e; cases e
      · rw [hz] at e; cases e; exact sim_ok ⟨hs, h⟩
    · exact .inr (.inl ⟨trivial, if_neg h⟩)
  · rintro f x φ a ⟨h1, f1⟩ ⟨h2, f2⟩
    by_cases h : Fits (M.mapping φ a)
    · obtain ⟨z, hz⟩ := hF.mapping f x φ a h1 h2 f1 f2 h
      have hg := hR.mapping f x φ a h1 h2
      rw [show (fitOps M Fits FitsF).mapping φ a = ok (M.mapping φ a) from if_pos h, hz]
      rcases hg with e | ⟨s, e, hs⟩
      · rw [hz] at e; cases e
      · rw [hz] at e; cases e; exact sim_ok ⟨hs, h⟩
    · exact .inr (.inl ⟨trivial, if_neg h⟩)
  · rintro f g φ γ ⟨h1, f1⟩ ⟨h2, f2⟩
    by_cases h : FitsF (M.comp φ γ)
    · obtain ⟨z, hz⟩ := hF.comp f g φ γ h1 h2 f1 f2 h
      have hg := hR.comp f g φ γ h1 h2
      rw [show (fitOps M Fits FitsF).comp φ γ = ok (M.comp φ γ) from if_pos h, hz]
      rcases hg with e | ⟨s, e, hs⟩
      · rw [hz] at e; cases e
      · rw [hz] at e; cases e; exact sim_ok ⟨hs, h⟩
    · exact .inr (.inl ⟨trivial, if_neg h⟩)

theorem log_length (op : LOp A G) (h : List (List G)) : (op.log h).length = h.length := by
  cases op <;> simp [LOp.log, mapRange]

theorem mapRange_one {α : Type} {f : α → α} {a : List α} {p : Nat} (hp : p < a.length) :
    mapRange f a p (p + 1) = a.set p (f a[p]) := by
  unfold mapRange
  apply List.ext_getElem?
  intro i
  rw [List.getElem?_mapIdx, List.getElem?_set]
  by_cases e : p = i
  · subst e; simp [hp]
  · simp only [e, if_false]
    cases a[i]? with
    | none => rfl
    | some x => simp only [Option.map_some]; rw [if_neg (by omega)]

theorem lStep_f [Monoid A] {C : MapMonoidOps A G} (hC : Chk M Fits FitsF C) (hM : LawfulMap M) (hG : LawfulComp M)
    {t : LazySegtree A G} {a : List A} {h : List (List G)} (hr : LazyF.Rep M t a h) (hf : Fine M Fits FitsF a h)
    {op : LOp A G} (hp : op.Pre a.length) (hf' : Fine M Fits FitsF (op.next M a) (op.log h)) :
    Sat (lStep C t op) (fun o => LazyF.Rep M o.1 (op.next M a) (op.log h) ∧ op.OutOk a o.2) := by
  have hlen : h.length = a.length := by obtain ⟨L, _, _, e, _⟩ := hr; exact e
  cases op with
  | set p x =>
    simp only [lStep, sat_bind, sat_ok]
    exact (LazyF.set_sat hC hM hG hf hr hp hf').mono fun _ h => ⟨h, rfl⟩
  | get p =>
    simp only [lStep, sat_bind, sat_ok]
    exact (LazyF.get_sat hC hM hG hf hr hp).mono fun _ h => ⟨h.1, _, List.getElem?_eq_getElem hp, by rw [h.2]⟩
  | prod l r =>
    simp only [lStep, sat_bind, sat_ok]
    exact (LazyF.prod_sat hC hM hG hf hr hp.1 hp.2).mono fun _ h => ⟨h.1, by simp only [LOp.OutOk]; rw [h.2]⟩
  | allProd =>
    simp only [lStep, LazyF.allProd_sat hM hr, ok_bind, sat_ok]
    exact ⟨hr, rfl⟩
  | apply p f =>
    simp only [lStep, sat_bind, sat_ok]
    simp only [LOp.Pre] at hp
    simp only [LOp.next, LOp.log, mapRange_one hp, mapRange_one (hlen ▸ hp)] at hf' ⊢
    exact (LazyF.apply_sat hC hM hG hf hr hp hf').mono fun _ h => ⟨h, rfl⟩
  | applyRange l r f =>
    simp only [lStep, sat_bind, sat_ok]
    exact (LazyF.applyRange_sat hC hM hG hf hr hp.1 hp.2 hf').mono fun _ h => ⟨h, rfl⟩
  | maxRight l g =>
    simp only [lStep, sat_bind, sat_ok]
    exact (LazyF.maxRight_sat hC hM hG hf hr hp.1 hp.2).mono fun _ h => ⟨h.1, _, rfl, h.2⟩
  | minLeft r g =>
    simp only [lStep, sat_bind, sat_ok]
    exact (LazyF.minLeft_sat hC hM hG hf hr hp.1 hp.2).mono fun _ h => ⟨h.1, _, rfl, h.2⟩

theorem fine_elem [Monoid A] {a : List A} {h : List (List G)} (hf : Fine M Fits FitsF a h) {p : Nat}
    (hp : p < a.length) : Fits a[p] := by
  have := hf.prods p (p + 1) (by omega) hp
  unfold rangeProd at this
  rw [List.take_succ_eq_append_getElem hp, List.drop_append_of_le_length (by simp; omega),
    List.drop_of_length_le (by simp)] at this
  simpa using this

theorem fine_map [Monoid A] (hG : LawfulComp M) {a : List A} {h : List (List G)} (hf : Fine M Fits FitsF a h)
    {f : G} {fs : List G} (hm : f :: fs ∈ h) : FitsF f := by
  have := hf.maps _ hm 1
  simpa [compAll, hG.id_right] using this

theorem getElem_mapRange {α : Type} {f : α → α} {a : List α} {l r p : Nat} (hp : p < a.length) (h1 : l ≤ p) (h2 : p < r) :
    f a[p] ∈ mapRange f a l r := by
  apply List.mem_of_getElem? (i := p)
  unfold mapRange
  rw [List.getElem?_mapIdx, List.getElem?_eq_getElem hp]
  simp [h1, h2]

/-- The arguments of a call within its preconditions fit, except for a map applied to no position. -/
theorem like_fits [Monoid A] (hG : LawfulComp M) {a : List A} {h : List (List G)} (hlen : h.length = a.length)
    {op : LOp S F} {op' : LOp A G} (ho : op.Like RS RF op') (hp : op'.Pre a.length)
    (hf' : Fine M Fits FitsF (op'.next M a) (op'.log h)) (hne : ∀ l f, op' ≠ .applyRange l l f) :
    op.Like (AndFits RS Fits) (AndFits RF FitsF) op' := by
  cases op <;> cases op' <;> try exact ho.elim
  · obtain ⟨rfl, hx⟩ := ho
    refine ⟨rfl, hx, ?_⟩
    simp only [LOp.Pre] at hp
    have := fine_elem hf' (p := _) (by simpa [LOp.next] using hp)
    simpa [LOp.next] using this
  · exact ho
  · exact ho
  · trivial
  · obtain ⟨rfl, hx⟩ := ho
    refine ⟨rfl, hx, ?_⟩
    simp only [LOp.Pre] at hp
    exact fine_map hG hf' (getElem_mapRange (f := (_ :: ·)) (hlen ▸ hp) (Nat.le_refl _) (Nat.lt_succ_self _))
  · obtain ⟨rfl, rfl, hx⟩ := ho
    rename_i l r f φ
    refine ⟨rfl, rfl, hx, ?_⟩
    simp only [LOp.Pre] at hp
    have hlr : l < r := by
      rcases Nat.lt_or_ge l r with h | h
      · exact h
      · have : l = r := by omega
        subst this; exact (hne _ _ rfl).elim
    exact fine_map hG hf' (getElem_mapRange (f := (_ :: ·)) (by omega) (Nat.le_refl l) hlr)
  · exact ⟨ho.1, fun x a h => ho.2 x a h.1⟩
  · exact ⟨ho.1, fun x a h => ho.2 x a h.1⟩

theorem applyRange_self {C : MapMonoidOps A G} {t : LazySegtree A G} {l : Nat} {f : G} (h : l ≤ t.n) :
    t.applyRange C l l f = ok t := by
  unfold LazySegtree.applyRange
  rw [assert_true ⟨Nat.le_refl _, h⟩, ok_bind, if_pos rfl]

theorem fineRun_here [Monoid A] {a : List A} {h : List (List G)} {ops : List (LOp A G)}
    (hw : FineRun M Fits FitsF a h ops) : Fine M Fits FitsF a h := by
  cases ops with
  | nil => exact hw
  | cons op ops => exact hw.1

theorem outLike_weaken {o : LOut S} {o' : LOut A} (h : LOut.Like (AndFits RS Fits) o o') : LOut.Like RS o o' := by
  cases o <;> cases o' <;> first | exact h.elim | exact trivial | exact h.1 | exact h

theorem lRun_f [Monoid A] (hM : LawfulMap M) (hG : LawfulComp M) (hR : Represents RS RF R M)
    (hF : ReturnsIf RS RF R M Fits FitsF) {ops : List (LOp S F)} {ops' : List (LOp A G)}
    (ho : List.Forall₂ (LOp.Like RS RF) ops ops') {a : List A} {h : List (List G)} {t : LazySegtree S F}
    {t' : LazySegtree A G} (ht : TR (AndFits RS Fits) (AndFits RF FitsF) t t') (hr : LazyF.Rep M t' a h)
    (hp : ∀ op ∈ ops', op.Pre a.length) (hw : FineRun M Fits FitsF a h ops') :
    ∃ u outs outs', lRun R t ops = ok (u, outs) ∧ List.Forall₂ (LOut.Like RS) outs outs' ∧ LRunOk M a ops' outs' := by
  induction ho generalizing t t' a h with
  | nil => exact ⟨t, [], [], rfl, .nil, trivial⟩
  | @cons op op' ops ops' hop hrest ih =>
    have hf := hw.1
    have hf' := fineRun_here hw.2
    have hs := fitOps_sim hR hF (by have := hf.prods 0 0 (Nat.le_refl _) (Nat.zero_le _)
                                    simpa [rangeProd, hM.e_eq] using this) hf.ident
    have hlen : h.length = a.length := by obtain ⟨L, _, _, e, _⟩ := hr; exact e
    obtain ⟨⟨t1', o'⟩, e', hr', ho'⟩ := lStep_f (fitOps_chk (M := M)) hM hG hr hf (hp op' (by simp)) hf'
    have hstep : ∃ t1 o, lStep R t op = ok (t1, o) ∧ TR (AndFits RS Fits) (AndFits RF FitsF) t1 t1' ∧ LOut.Like RS o o' := by
      by_cases hne : ∀ l f, op' ≠ .applyRange l l f
      · rcases lStep_sim hs ht (like_fits hG hlen hop (hp op' (by simp)) hf' hne) with
          ⟨h, -⟩ | ⟨-, e⟩ | ⟨-, e⟩ | ⟨-, e⟩ | ⟨⟨t1, o⟩, ⟨u1, v1⟩, e1, e2, k1, k2⟩
        · exact h.elim
        · rw [e'] at e; cases e
        · rw [e'] at e; cases e
        · rw [e'] at e; cases e
        · rw [e'] at e2; cases e2
          exact ⟨t1, o, e1, k1, outLike_weaken k2⟩
      · simp only [ne_eq, Classical.not_forall, Classical.not_not] at hne
        obtain ⟨l, f, rfl⟩ := hne
        have hpre := hp _ (List.mem_cons_self ..)
        simp only [LOp.Pre] at hpre
        have htn : t'.n = a.length := by obtain ⟨L, _, _, _, w⟩ := hr; exact w.dims.1
        cases op <;> try exact hop.elim
        obtain ⟨rfl, rfl, hx⟩ := hop
        simp only [lStep] at e' ⊢
        rw [applyRange_self (by omega), ok_bind] at e'
        cases e'
        rw [applyRange_self (by rw [ht.n]; omega), ok_bind]
        exact ⟨_, _, rfl, ht, trivial⟩
    obtain ⟨t1, o, e1, k1, k2⟩ := hstep
    obtain ⟨u, outs, outs', e2, k3, k4⟩ := ih k1 hr'
      (fun op'' h' => by rw [next_length]; exact hp op'' (List.mem_cons_of_mem _ h')) hw.2
    refine ⟨u, o :: outs, o' :: outs', ?_, .cons k2 k3, ho', k4⟩
    simp only [lRun, e1, ok_bind, e2]

/-- C69: while the products of ranges of the plain list fit, and for each position the compositions of the
latest maps applied to it since it was last written, no call panics and the results are right. The
hypothesis speaks only of the plain list and of the calls, not of the tree. -/
theorem C69_history [Monoid A] (hM : LawfulMap M) (hG : LawfulComp M) (hR : Represents RS RF R M)
    (hF : ReturnsIf RS RF R M Fits FitsF) (v : List S) (a : List A) (hv : List.Forall₂ RS v a)
    (ha : a.length < 2 ^ 32) (ops : List (LOp S F)) (ops' : List (LOp A G))
    (ho : List.Forall₂ (LOp.Like RS RF) ops ops') (hops : ∀ op ∈ ops', op.Pre a.length)
    (hw : FineRun M Fits FitsF a (List.replicate a.length []) ops') :
    ∃ outs outs', (do let t ← LazySegtree.from R v; Prod.snd <$> lRun R t ops : Res _) = ok outs ∧
      List.Forall₂ (LOut.Like RS) outs outs' ∧ LRunOk M a ops' outs' := by
  have hf := fineRun_here hw
  have hs := fitOps_sim hR hF (by have := hf.prods 0 0 (Nat.le_refl _) (Nat.zero_le _)
                                  simpa [rangeProd, hM.e_eq] using this) hf.ident
  obtain ⟨t0, e0, hr⟩ := LazyF.from_sat (fitOps_chk (M := M)) hM hG ha hf
  have hl : ListRel (AndFits RS Fits) v a := by
    refine ⟨(listRel_of hv).1, fun i x y h1 h2 => ⟨(listRel_of hv).2 i x y h1 h2, ?_⟩⟩
    obtain ⟨hi, rfl⟩ := List.getElem?_eq_some_iff.1 h2
    exact fine_elem hf hi
  rcases from_sim hs hl with ⟨h, -⟩ | ⟨-, e⟩ | ⟨-, e⟩ | ⟨-, e⟩ | ⟨t1, t1', e2, e3, k⟩
  · exact h.elim
  · rw [e0] at e; cases e
  · rw [e0] at e; cases e
  · rw [e0] at e; cases e
  rw [e0] at e3; cases e3
  obtain ⟨u, outs, outs', e4, k1, k2⟩ := lRun_f hM hG hR hF ho k hr hops hw
  exact ⟨outs, outs', by rw [e2, ok_bind, e4]; rfl, k1, k2⟩

end Verif.Props
