import Verif.Model.SearchPred
import Verif.Proof.StringsBy
/-! A closure whose answers do not depend on its state: the searches of `Model/Segtree.lean`,
`Model/LazySegtree.lean` and `Model/Fenwick.lean`. -/
namespace Verif.SearchP
open Res Model

variable {S F σ T : Type}

theorem sim_fst_eq {α : Type} {x : Res α} {y : Res (α × σ)} (h : Sim False False (fun a b => a = b.1) x y) :
    x = Prod.fst <$> y := by
  rcases h with ⟨h, -⟩ | ⟨h, -⟩ | ⟨h1, h2⟩ | ⟨h1, h2⟩ | ⟨a, b, h1, h2, rfl⟩
  · exact h.elim
  · exact h.elim
  all_goals rw [h1, h2]; rfl

theorem maxRight_pure (M : MonoidOps S) (t : Segtree S) (l : Nat) {f : σ → S → Res (Bool × σ)} {g : S → Bool}
    {nx : σ → S → σ} (hf : ∀ s x, f s x = ok (g x, nx s x)) (s : σ) :
    t.maxRight M l g = Prod.fst <$> t.maxRightS M l f s := by
  apply sim_fst_eq
  unfold Segtree.maxRight Segtree.maxRightS
  simp only [hf, ok_bind]
  refine sim_assert fun _ => sim_assert fun _ => sim_ite (sim_ok rfl) ?_
  refine sim_loop (Q := fun (a : Nat × S) (b : Nat × S × σ) => a.1 = b.1 ∧ a.2 = b.2.1) ⟨rfl, rfl⟩ ?_
  rintro ⟨l, sm⟩ ⟨_, _, s⟩ ⟨rfl, rfl⟩
  refine sim_bind sim_refl ?_
  rintro l _ rfl
  refine sim_bind sim_refl ?_
  rintro x _ rfl
  refine sim_bind sim_refl ?_
  rintro y _ rfl
  refine sim_ite ?_ ?_
  · refine sim_bind (Q := fun (a : Nat × S) (b : Nat × S × σ) => a.1 = b.1 ∧ a.2 = b.2.1)
      (sim_while ⟨rfl, rfl⟩ ?_ ?_) ?_
    · rintro ⟨l, sm⟩ ⟨_, _, s⟩ ⟨rfl, rfl⟩
      exact sim_refl
    · rintro ⟨l, sm⟩ ⟨_, _, s⟩ ⟨rfl, rfl⟩
      refine sim_bind sim_refl ?_
      rintro x _ rfl
      refine sim_bind sim_refl ?_
      rintro y _ rfl
      exact sim_ite (sim_ok ⟨rfl, rfl⟩) (sim_ok ⟨rfl, rfl⟩)
    · rintro ⟨l, sm⟩ ⟨_, _, s⟩ ⟨rfl, rfl⟩
      refine sim_bind sim_refl ?_
      rintro x _ rfl
      exact sim_ok rfl
  · refine sim_bind sim_refl ?_
    rintro x _ rfl
    refine sim_bind sim_refl ?_
    rintro y _ rfl
    exact sim_ite (sim_ok ⟨rfl, rfl⟩) (sim_ok rfl)

theorem minLeft_pure (M : MonoidOps S) (t : Segtree S) (r : Nat) {f : σ → S → Res (Bool × σ)} {g : S → Bool}
    {nx : σ → S → σ} (hf : ∀ s x, f s x = ok (g x, nx s x)) (s : σ) :
    t.minLeft M r g = Prod.fst <$> t.minLeftS M r f s := by
  apply sim_fst_eq
  unfold Segtree.minLeft Segtree.minLeftS
  simp only [hf, ok_bind]
  refine sim_assert fun _ => sim_assert fun _ => sim_ite (sim_ok rfl) ?_
  refine sim_loop (Q := fun (a : Nat × S) (b : Nat × S × σ) => a.1 = b.1 ∧ a.2 = b.2.1) ⟨rfl, rfl⟩ ?_
  rintro ⟨l, sm⟩ ⟨_, _, s⟩ ⟨rfl, rfl⟩
  refine sim_bind sim_refl ?_
  rintro l _ rfl
  refine sim_bind sim_refl ?_
  rintro l _ rfl
  refine sim_bind sim_refl ?_
  rintro x _ rfl
  refine sim_bind sim_refl ?_
  rintro y _ rfl
  refine sim_ite ?_ ?_
  · refine sim_bind (Q := fun (a : Nat × S) (b : Nat × S × σ) => a.1 = b.1 ∧ a.2 = b.2.1)
      (sim_while ⟨rfl, rfl⟩ ?_ ?_) ?_
    · rintro ⟨l, sm⟩ ⟨_, _, s⟩ ⟨rfl, rfl⟩
      exact sim_refl
    · rintro ⟨l, sm⟩ ⟨_, _, s⟩ ⟨rfl, rfl⟩
      refine sim_bind sim_refl ?_
      rintro x _ rfl
      refine sim_bind sim_refl ?_
      rintro y _ rfl
      refine sim_ite (sim_bind sim_refl ?_) (sim_ok ⟨rfl, rfl⟩)
      rintro x _ rfl
      exact sim_ok ⟨rfl, rfl⟩
    · rintro ⟨l, sm⟩ ⟨_, _, s⟩ ⟨rfl, rfl⟩
      refine sim_bind sim_refl ?_
      rintro x _ rfl
      exact sim_ok rfl
  · refine sim_bind sim_refl ?_
    rintro x _ rfl
    refine sim_bind sim_refl ?_
    rintro y _ rfl
    exact sim_ite (sim_ok ⟨rfl, rfl⟩) (sim_ok rfl)

theorem lazy_maxRight_pure (M : MapMonoidOps S F) (t : LazySegtree S F) (l : Nat) {f : σ → S → Res (Bool × σ)}
    {g : S → Bool} {nx : σ → S → σ} (hf : ∀ s x, f s x = ok (g x, nx s x)) (s : σ) :
    t.maxRight M l g = Prod.fst <$> t.maxRightS M l f s := by
  apply sim_fst_eq
  unfold LazySegtree.maxRight LazySegtree.maxRightS
  simp only [hf, ok_bind]
  refine sim_assert fun _ => sim_assert fun _ => sim_ite (sim_ok rfl) ?_
  refine sim_bind sim_refl ?_
  rintro t _ rfl
  refine sim_loop (Q := fun (a : Nat × S) (b : Nat × S × σ) => a.1 = b.1 ∧ a.2 = b.2.1) ⟨rfl, rfl⟩ ?_
  rintro ⟨l, sm⟩ ⟨_, _, s⟩ ⟨rfl, rfl⟩
  refine sim_bind sim_refl ?_
  rintro l _ rfl
  refine sim_bind sim_refl ?_
  rintro x _ rfl
  refine sim_bind sim_refl ?_
  rintro y _ rfl
  refine sim_ite ?_ ?_
  · refine sim_bind (Q := fun (a : Nat × S × LazySegtree S F) (b : Nat × S × LazySegtree S F × σ) =>
      a.1 = b.1 ∧ a.2.1 = b.2.1 ∧ a.2.2 = b.2.2.1) (sim_while ⟨rfl, rfl, rfl⟩ ?_ ?_) ?_
    · rintro ⟨l, sm, t⟩ ⟨_, _, _, s⟩ ⟨rfl, rfl, rfl⟩
      exact sim_refl
    · rintro ⟨l, sm, t⟩ ⟨_, _, _, s⟩ ⟨rfl, rfl, rfl⟩
      refine sim_bind sim_refl ?_
      rintro t _ rfl
      refine sim_bind sim_refl ?_
      rintro x _ rfl
      refine sim_bind sim_refl ?_
      rintro y _ rfl
      exact sim_ite (sim_ok ⟨rfl, rfl, rfl⟩) (sim_ok ⟨rfl, rfl, rfl⟩)
    · rintro ⟨l, sm, t⟩ ⟨_, _, _, s⟩ ⟨rfl, rfl, rfl⟩
      refine sim_bind sim_refl ?_
      rintro x _ rfl
      exact sim_ok rfl
  · refine sim_bind sim_refl ?_
    rintro x _ rfl
    refine sim_bind sim_refl ?_
    rintro y _ rfl
    exact sim_ite (sim_ok rfl) (sim_ok ⟨rfl, rfl⟩)

theorem lazy_minLeft_pure (M : MapMonoidOps S F) (t : LazySegtree S F) (r : Nat) {f : σ → S → Res (Bool × σ)}
    {g : S → Bool} {nx : σ → S → σ} (hf : ∀ s x, f s x = ok (g x, nx s x)) (s : σ) :
    t.minLeft M r g = Prod.fst <$> t.minLeftS M r f s := by
  apply sim_fst_eq
  unfold LazySegtree.minLeft LazySegtree.minLeftS
  simp only [hf, ok_bind]
  refine sim_assert fun _ => sim_assert fun _ => sim_ite (sim_ok rfl) ?_
  refine sim_bind sim_refl ?_
  rintro t _ rfl
  refine sim_loop (Q := fun (a : Nat × S) (b : Nat × S × σ) => a.1 = b.1 ∧ a.2 = b.2.1) ⟨rfl, rfl⟩ ?_
  rintro ⟨l, sm⟩ ⟨_, _, s⟩ ⟨rfl, rfl⟩
  refine sim_bind sim_refl ?_
  rintro l _ rfl
  refine sim_bind sim_refl ?_
  rintro l _ rfl
  refine sim_bind sim_refl ?_
  rintro x _ rfl
  refine sim_bind sim_refl ?_
  rintro y _ rfl
  refine sim_ite ?_ ?_
  · refine sim_bind (Q := fun (a : Nat × S × LazySegtree S F) (b : Nat × S × LazySegtree S F × σ) =>
      a.1 = b.1 ∧ a.2.1 = b.2.1 ∧ a.2.2 = b.2.2.1) (sim_while ⟨rfl, rfl, rfl⟩ ?_ ?_) ?_
    · rintro ⟨l, sm, t⟩ ⟨_, _, _, s⟩ ⟨rfl, rfl, rfl⟩
      exact sim_refl
    · rintro ⟨l, sm, t⟩ ⟨_, _, _, s⟩ ⟨rfl, rfl, rfl⟩
      refine sim_bind sim_refl ?_
      rintro t _ rfl
      refine sim_bind sim_refl ?_
      rintro x _ rfl
      refine sim_bind sim_refl ?_
      rintro y _ rfl
      refine sim_ite (sim_bind sim_refl ?_) (sim_ok ⟨rfl, rfl, rfl⟩)
      rintro x _ rfl
      exact sim_ok ⟨rfl, rfl, rfl⟩
    · rintro ⟨l, sm, t⟩ ⟨_, _, _, s⟩ ⟨rfl, rfl, rfl⟩
      refine sim_bind sim_refl ?_
      rintro x _ rfl
      exact sim_ok rfl
  · refine sim_bind sim_refl ?_
    rintro x _ rfl
    refine sim_bind sim_refl ?_
    rintro y _ rfl
    exact sim_ite (sim_ok rfl) (sim_ok ⟨rfl, rfl⟩)

theorem partitionPoint_pure (add : T → T → Res T) (zero : T) (t : Fenwick T) {f : σ → T → Res (Bool × σ)}
    {g : T → Bool} {nx : σ → T → σ} (hf : ∀ s x, f s x = ok (g x, nx s x)) (s : σ) :
    t.partitionPoint add zero g = Prod.fst <$> t.partitionPointS add zero f s := by
  apply sim_fst_eq
  unfold Fenwick.partitionPoint Fenwick.partitionPointS
  simp only [hf]
  refine sim_bind sim_refl ?_
  rintro hi _ rfl
  refine sim_bind (Q := fun (a : Nat × T) (b : Nat × T × σ) => a.1 = b.1 ∧ a.2 = b.2.1)
    (sim_forRangeRev ⟨rfl, rfl⟩ ?_) ?_
  · rintro i ⟨pos, sum⟩ ⟨_, _, s⟩ ⟨rfl, rfl⟩
    refine sim_bind sim_refl ?_
    rintro next _ rfl
    refine sim_bind (Q := fun (a : Bool) (b : Bool × σ) => a = b.1) ?_ ?_
    · refine sim_ite ?_ (sim_ok rfl)
      refine sim_bind sim_refl ?_
      rintro x _ rfl
      refine sim_bind sim_refl ?_
      rintro y _ rfl
      exact sim_ok rfl
    · rintro b ⟨_, s⟩ rfl
      refine sim_ite ?_ (sim_ok ⟨rfl, rfl⟩)
      refine sim_bind sim_refl ?_
      rintro x _ rfl
      refine sim_bind sim_refl ?_
      rintro y _ rfl
      exact sim_ok ⟨rfl, rfl⟩
  · rintro ⟨pos, sum⟩ ⟨_, _, s⟩ ⟨rfl, rfl⟩
    exact sim_ok rfl

end Verif.SearchP
