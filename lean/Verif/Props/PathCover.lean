import Verif.Props.MatchDuality
import Mathlib.Data.List.Chain
import Mathlib.Logic.Relation
import Mathlib.Data.Finset.Card
import Mathlib.Data.List.Pairwise
import Mathlib.Algebra.BigOperators.Group.Multiset.Basic
/-! C118: the answer of `AugmentedPath::solve` as path covers of acyclic graphs and as antichains. -/
namespace Verif.Props
open Model Spec Res BipP

/-- A list of vertices along edges. -/
def IsPathOf (E : List (Nat × Nat)) (p : List Nat) : Prop := p ≠ [] ∧ p.IsChain fun a b => (a, b) ∈ E

/-- Paths that contain every vertex below `n` exactly once. -/
def IsPathCover (n : Nat) (E : List (Nat × Nat)) (P : List (List Nat)) : Prop :=
  (∀ p ∈ P, IsPathOf E p) ∧ P.flatten.Perm (List.range n)

/-- No walk returns to its start. -/
def NoCircle (E : List (Nat × Nat)) : Prop := ∀ x, ¬ Relation.TransGen (fun a b => (a, b) ∈ E) x x

/-- The steps of a path. -/
def steps : List Nat → List (Nat × Nat)
  | a :: b :: l => (a, b) :: steps (b :: l)
  | _ => []

theorem steps_fst : ∀ p : List Nat, (steps p).map Prod.fst = p.dropLast
  | [] => rfl
  | [_] => rfl
  | a :: b :: l => by simp [steps, steps_fst (b :: l)]

theorem steps_snd : ∀ p : List Nat, (steps p).map Prod.snd = p.tail
  | [] => rfl
  | [_] => rfl
  | a :: b :: l => by have := steps_snd (b :: l); simp at this; simp [steps, this]

theorem steps_mem {E : List (Nat × Nat)} : ∀ {p : List Nat}, (p.IsChain fun a b => (a, b) ∈ E) → ∀ e ∈ steps p, e ∈ E
  | [], _, _, h => by cases h
  | [_], _, _, h => by cases h
  | a :: b :: l, hp, e, h => by
    rw [List.isChain_cons_cons] at hp
    rcases List.mem_cons.1 h with rfl | h
    · exact hp.1
    · exact steps_mem hp.2 e h

theorem steps_length : ∀ p : List Nat, p ≠ [] → (steps p).length + 1 = p.length
  | [], h => absurd rfl h
  | [_], _ => rfl
  | a :: b :: l, _ => by have := steps_length (b :: l) (by simp); simp [steps] at this ⊢; omega

theorem cover_matching {n : Nat} {E : List (Nat × Nat)} {P : List (List Nat)} (h : IsPathCover n E P) :
    IsMatching E (P.flatMap steps) ∧ (P.flatMap steps).length + P.length = n := by
  obtain ⟨h1, h2⟩ := h
  have hnd : P.flatten.Nodup := h2.nodup_iff.2 List.nodup_range
  refine ⟨⟨fun e he => ?_, ?_, ?_⟩, ?_⟩
  · obtain ⟨p, hp, he⟩ := List.mem_flatMap.1 he
    exact steps_mem (h1 p hp).2 e he
  · refine hnd.sublist ?_
    clear h1 h2 hnd
    induction P with
    | nil => simp
    | cons p P ih =>
      rw [List.flatMap_cons, List.map_append, List.flatten_cons, steps_fst]
      exact (List.dropLast_sublist p).append ih
  · refine hnd.sublist ?_
    clear h1 h2 hnd
    induction P with
    | nil => simp
    | cons p P ih =>
      rw [List.flatMap_cons, List.map_append, List.flatten_cons, steps_snd]
      exact (List.tail_sublist p).append ih
  · have e := h2.length_eq
    rw [List.length_range] at e
    rw [← e]
    clear h2 hnd e
    induction P with
    | nil => rfl
    | cons p P ih =>
      have := ih fun p hp => h1 p (by simp [hp])
      have := steps_length p (h1 p (by simp)).1
      simp only [List.flatMap_cons, List.length_append, List.flatten_cons, List.length_cons] at *
      omega

theorem chain_reach {E : List (Nat × Nat)} : ∀ {p : List Nat} {a b : Nat}, (p.IsChain fun a b => (a, b) ∈ E) →
    p.head? = some a → p.getLast? = some b → Relation.ReflTransGen (fun a b => (a, b) ∈ E) a b
  | [], _, _, _, h, _ => by cases h
  | [x], a, b, _, h1, h2 => by
    simp at h1 h2; subst h1; subst h2; exact .refl
  | x :: y :: l, a, b, hp, h1, h2 => by
    rw [List.isChain_cons_cons] at hp
    simp at h1; subst h1
    refine .head hp.1 (chain_reach hp.2 rfl ?_)
    simpa using h2

/-- What is built from a matching. -/
structure Built (E : List (Nat × Nat)) (n : Nat) (M : List (Nat × Nat)) (P : Multiset (List Nat)) : Prop where
  path : ∀ p ∈ P, IsPathOf E p
  all : (P.map fun p : List Nat => (p : Multiset Nat)).sum = Multiset.range n
  card : Multiset.card P + M.length = n
  head : ∀ v, v < n → v ∉ M.map Prod.snd → ∃ p ∈ P, p.head? = some v
  last : ∀ v, v < n → v ∉ M.map Prod.fst → ∃ p ∈ P, p.getLast? = some v

theorem exists_built {E : List (Nat × Nat)} {n : Nat} (hE : ∀ e ∈ E, e.1 < n ∧ e.2 < n) (hc : NoCircle E) :
    ∀ M : List (Nat × Nat), IsMatching E M → ∃ P, Built E n M P := by
  intro M
  induction M with
  | nil =>
    intro _
    refine ⟨(Multiset.range n).map fun v => [v], ⟨?_, ?_, by simp, ?_, ?_⟩⟩
    · intro p hp
      obtain ⟨v, _, rfl⟩ := Multiset.mem_map.1 hp
      exact ⟨by simp, by simp⟩
    · rw [Multiset.map_map]
      exact Multiset.sum_map_singleton _
    · intro v hv _
      exact ⟨[v], Multiset.mem_map.2 ⟨v, by simpa using hv, rfl⟩, rfl⟩
    · intro v hv _
      exact ⟨[v], Multiset.mem_map.2 ⟨v, by simpa using hv, rfl⟩, rfl⟩
  | cons e M ih =>
    intro hM
    obtain ⟨u, v⟩ := e
    have hl := hM.left
    have hr := hM.right
    rw [List.map_cons, List.nodup_cons] at hl hr
    have heE := hM.sub (u, v) (by simp)
    obtain ⟨P, hP⟩ := ih ⟨fun e he => hM.sub e (by simp [he]), hl.2, hr.2⟩
    obtain ⟨p, hp, hpu⟩ := hP.last u (hE _ heE).1 hl.1
    obtain ⟨q, hq, hqv⟩ := hP.head v (hE _ heE).2 hr.1
    have hpq : p ≠ q := by
      rintro rfl
      exact hc u (.head' heE (chain_reach (hP.path p hp).2 hqv hpu))
    obtain ⟨P1, rfl⟩ := Multiset.exists_cons_of_mem hp
    have hq' : q ∈ P1 := by
      rcases Multiset.mem_cons.1 hq with h | h
      · exact absurd h.symm hpq
      · exact h
    obtain ⟨P2, rfl⟩ := Multiset.exists_cons_of_mem hq'
    refine ⟨(p ++ q) ::ₘ P2, ⟨?_, ?_, ?_, ?_, ?_⟩⟩
    · intro w hw
      rcases Multiset.mem_cons.1 hw with rfl | hw
      · refine ⟨by simp [(hP.path p hp).1], ?_⟩
        rw [List.isChain_append]
        refine ⟨(hP.path p hp).2, (hP.path q hq).2, ?_⟩
        intro x hx y hy
        rw [hpu] at hx; rw [hqv] at hy
        cases hx; cases hy
        exact heE
      · exact hP.path w (by simp [hw])
    · have := hP.all
      simp only [Multiset.map_cons, Multiset.sum_cons] at this ⊢
      rw [← this, ← Multiset.coe_add, add_assoc]
    · have := hP.card
      simp only [Multiset.card_cons, List.length_cons] at this ⊢
      omega
    · intro w hw hnw
      rw [List.map_cons, List.mem_cons, not_or] at hnw
      obtain ⟨p', hp', hh⟩ := hP.head w hw hnw.2
      rcases Multiset.mem_cons.1 hp' with rfl | hp'
      · exact ⟨p' ++ q, by simp, by rw [List.head?_append, hh]; rfl⟩
      · rcases Multiset.mem_cons.1 hp' with rfl | hp'
        · rw [hqv] at hh; cases hh; exact absurd rfl hnw.1
        · exact ⟨p', by simp [hp'], hh⟩
    · intro w hw hnw
      rw [List.map_cons, List.mem_cons, not_or] at hnw
      obtain ⟨p', hp', hh⟩ := hP.last w hw hnw.2
      rcases Multiset.mem_cons.1 hp' with rfl | hp'
      · rw [hpu] at hh; cases hh; exact absurd rfl hnw.1
      · rcases Multiset.mem_cons.1 hp' with rfl | hp'
        · exact ⟨p ++ p', by simp, by rw [List.getLast?_append, hh]; rfl⟩
        · exact ⟨p', by simp [hp'], hh⟩

theorem built_cover {E : List (Nat × Nat)} {n : Nat} {M : List (Nat × Nat)} {P : Multiset (List Nat)}
    (h : Built E n M P) : IsPathCover n E P.toList ∧ P.toList.length + M.length = n := by
  refine ⟨⟨fun p hp => h.path p (Multiset.mem_toList.1 hp), ?_⟩, by rw [Multiset.length_toList]; exact h.card⟩
  have h1 := h.all
  rw [← Multiset.coe_eq_coe]
  rw [← Multiset.coe_toList P] at h1
  generalize P.toList = L at h1
  have : ∀ L : List (List Nat), (L.flatten : Multiset Nat) = ((L : Multiset (List Nat)).map fun p : List Nat => (p : Multiset Nat)).sum := by
    intro L
    induction L with
    | nil => rfl
    | cons p L ih =>
      rw [List.flatten_cons, ← Multiset.coe_add, ih, ← Multiset.cons_coe, Multiset.map_cons, Multiset.sum_cons]
  rw [this, h1]
  rfl

/-- **C118, path covers.** For an acyclic graph on `n` vertices, entered with each vertex once on the left and once on the
right, `n` less the answer of `solve` is the least number of disjoint paths that contain all vertices. -/
theorem C118_path_cover (n : Nat) (E : List (Nat × Nat)) (hE : ∀ e ∈ E, e.1 < n ∧ e.2 < n) (hc : NoCircle E) :
    ∃ k, matchRun (AugmentedPath.new n n) (matchCalls E) = ok [k] ∧ k ≤ n ∧
      (∃ P, IsPathCover n E P ∧ P.length = n - k) ∧ ∀ P, IsPathCover n E P → n - k ≤ P.length := by
  obtain ⟨k, e, ⟨⟨M, hM, rfl⟩, hmax⟩, _⟩ := C60_konig n n E hE
  obtain ⟨P, hP⟩ := exists_built hE hc M hM
  obtain ⟨h1, h2⟩ := built_cover hP
  refine ⟨_, e, by omega, ⟨_, h1, by omega⟩, fun Q hQ => ?_⟩
  obtain ⟨h3, h4⟩ := cover_matching hQ
  have := hmax _ h3
  omega

/-- Vertices below `n` no two of which are joined by an edge. -/
def IsAntichainOf (n : Nat) (E : List (Nat × Nat)) (A : Finset Nat) : Prop :=
  (∀ a ∈ A, a < n) ∧ ∀ a ∈ A, ∀ b ∈ A, (a, b) ∉ E

/-- The edges are the pairs of a strict order. -/
structure IsOrder (E : List (Nat × Nat)) : Prop where
  irrefl : ∀ a, (a, a) ∉ E
  trans : ∀ a b c, (a, b) ∈ E → (b, c) ∈ E → (a, c) ∈ E

theorem IsOrder.edge {E : List (Nat × Nat)} (h : IsOrder E) {a b : Nat}
    (hab : Relation.TransGen (fun a b => (a, b) ∈ E) a b) : (a, b) ∈ E := by
  induction hab with
  | single h' => exact h'
  | tail _ h' ih => exact h.trans _ _ _ ih h'

theorem IsOrder.noCircle {E : List (Nat × Nat)} (h : IsOrder E) : NoCircle E :=
  fun x hx => h.irrefl x (h.edge hx)

theorem chain_comparable {E : List (Nat × Nat)} (h : IsOrder E) {p : List Nat}
    (hp : p.IsChain fun a b => (a, b) ∈ E) {a b : Nat} (ha : a ∈ p) (hb : b ∈ p) (hab : a ≠ b) :
    (a, b) ∈ E ∨ (b, a) ∈ E := by
  have : IsTrans Nat fun a b => (a, b) ∈ E := ⟨h.trans⟩
  have h1 : p.Pairwise fun a b => (a, b) ∈ E ∨ (b, a) ∈ E :=
    (List.isChain_iff_pairwise.1 hp).imp fun h => Or.inl h
  induction p with
  | nil => cases ha
  | cons x p ih =>
    rw [List.pairwise_cons] at h1
    rcases List.mem_cons.1 ha with ea | ha'
    · rcases List.mem_cons.1 hb with eb | hb'
      · exact absurd (ea.trans eb.symm) hab
      · exact ea ▸ h1.1 b hb'
    · rcases List.mem_cons.1 hb with eb | hb'
      · exact eb ▸ (h1.1 a ha').symm
      · exact ih hp.tail ha' hb' h1.2

theorem antichain_le_cover {n : Nat} {E : List (Nat × Nat)} (h : IsOrder E) {P : List (List Nat)}
    (hP : IsPathCover n E P) {A : Finset Nat} (hA : IsAntichainOf n E A) : A.card ≤ P.length := by
  have hf : ∀ a, ∃ p, a ∈ A → p ∈ P ∧ a ∈ p := by
    intro a
    by_cases ha : a ∈ A
    · have : a ∈ P.flatten := hP.2.mem_iff.2 (List.mem_range.2 (hA.1 a ha))
      obtain ⟨p, hp, hap⟩ := List.mem_flatten.1 this
      exact ⟨p, fun _ => ⟨hp, hap⟩⟩
    · exact ⟨[], fun h => absurd h ha⟩
  choose f hf using hf
  refine le_trans (Finset.card_le_card_of_injOn (t := P.toFinset) f ?_ ?_) P.toFinset_card_le
  · intro a ha
    exact List.mem_toFinset.2 (hf a ha).1
  · intro a ha b hb e
    by_contra hab
    have h1 := hf a ha
    have h2 := hf b hb
    rw [← show f a = f b from e] at h2
    rcases chain_comparable h (hP.1 _ h1.1).2 h1.2 h2.2 hab with h' | h'
    · exact hA.2 a ha b hb h'
    · exact hA.2 b hb a ha h'

/-- **C118, Dilworth.** When the edges are the pairs of a strict order, `n` less the answer of `solve` is both the least number of
chains that contain all vertices and the greatest number of vertices no two of which are comparable. -/
theorem C118_dilworth (n : Nat) (E : List (Nat × Nat)) (hE : ∀ e ∈ E, e.1 < n ∧ e.2 < n) (ho : IsOrder E) :
    ∃ k, matchRun (AugmentedPath.new n n) (matchCalls E) = ok [k] ∧
      ((∃ P, IsPathCover n E P ∧ P.length = n - k) ∧ ∀ P, IsPathCover n E P → n - k ≤ P.length) ∧
      (∃ A, IsAntichainOf n E A ∧ A.card = n - k) ∧ ∀ A, IsAntichainOf n E A → A.card ≤ n - k := by
  obtain ⟨k, e, _, ⟨⟨C, D, hcov, hcard⟩, _⟩⟩ := C60_konig n n E hE
  obtain ⟨k', e', hk, ⟨P, hP, hPl⟩, hmin⟩ := C118_path_cover n E hE ho.noCircle
  rw [e] at e'
  injection e' with e'
  injection e' with e' _
  subst e'
  have hup : ∀ A, IsAntichainOf n E A → A.card ≤ n - k := fun A hA => hPl ▸ antichain_le_cover ho hP hA
  have hA : IsAntichainOf n E (Finset.range n \ (C ∪ D)) := by
    refine ⟨fun a ha => Finset.mem_range.1 (Finset.mem_sdiff.1 ha).1, fun a ha b hb hab => ?_⟩
    have h1 := (Finset.mem_sdiff.1 ha).2
    have h2 := (Finset.mem_sdiff.1 hb).2
    rw [Finset.mem_union, not_or] at h1 h2
    rcases hcov _ hab with h' | h'
    · exact h1.1 h'
    · exact h2.2 h'
  refine ⟨k, e, ⟨⟨P, hP, hPl⟩, hmin⟩, ⟨_, hA, ?_⟩, hup⟩
  have h1 := hup _ hA
  have h2 := Finset.le_card_sdiff (C ∪ D) (Finset.range n)
  have h3 := Finset.card_union_le C D
  rw [Finset.card_range] at h2
  omega

/-- Divisibility on 1, 2, 3, 4, 6 (as vertices 0 to 4): three of the five are matched, so two chains suffice and
two numbers (4 and 6) are incomparable. -/
def divE : List (Nat × Nat) := [(0, 1), (0, 2), (0, 3), (0, 4), (1, 3), (1, 4), (2, 4)]

example : (∀ e ∈ divE, e.1 < 5 ∧ e.2 < 5) ∧ IsOrder divE := by
  refine ⟨by decide, ⟨fun a h => ?_, fun a b c h1 h2 => ?_⟩⟩
  · have : ∀ e ∈ divE, e.1 ≠ e.2 := by decide
    exact this _ h rfl
  · have : ∀ e ∈ divE, ∀ e' ∈ divE, e.2 = e'.1 → (e.1, e'.2) ∈ divE := by decide
    exact this _ h1 _ h2 rfl

example : IsPathCover 5 divE [[0, 1, 3], [2, 4]] ∧ IsAntichainOf 5 divE {3, 4} := by
  refine ⟨⟨?_, by decide⟩, by decide, by decide⟩
  intro p hp
  simp only [List.mem_cons, List.not_mem_nil, or_false] at hp
  rcases hp with rfl | rfl
  · exact ⟨by decide, by simp [divE]⟩
  · exact ⟨by decide, by simp [divE]⟩

/-- A graph that is no order: 0 → 1 → 2, 3 → 1, without circle. -/
example : (∀ e ∈ [(0, 1), (1, 2), (3, 1)], e.1 < 4 ∧ e.2 < 4) ∧ NoCircle [(0, 1), (1, 2), (3, 1)] := by
  refine ⟨by decide, fun x hx => ?_⟩
  have h' : ∀ b, Relation.TransGen (fun a b => (a, b) ∈ [(0, 1), (1, 2), (3, 1)]) x b → (x = 0 ∨ x = 1 ∨ x = 3) ∧
      ((x = 1 → b = 2) ∧ (b = 1 ∨ b = 2)) := by
    intro b hb
    induction hb with
    | single h =>
      simp only [List.mem_cons, Prod.mk.injEq, List.not_mem_nil, or_false] at h
      omega
    | tail _ h ih =>
      simp only [List.mem_cons, Prod.mk.injEq, List.not_mem_nil, or_false] at h
      omega
  have := h' x hx
  omega

/-- A circle needs the hypothesis: on 0 → 1 → 0 both vertices are matched, but no cover has no paths. -/
theorem C118_circle_false : ¬ ∃ k, matchRun (AugmentedPath.new 2 2) (matchCalls [(0, 1), (1, 0)]) = ok [k] ∧
    ∃ P, IsPathCover 2 [(0, 1), (1, 0)] P ∧ P.length = 2 - k := by
  rintro ⟨k, e, P, hP, hl⟩
  obtain ⟨k', e', ⟨_, hmax⟩, _⟩ := C60_konig 2 2 [(0, 1), (1, 0)] (by decide)
  rw [e] at e'
  injection e' with e'
  injection e' with e' _
  subst e'
  have := hmax [(0, 1), (1, 0)] ⟨by simp, by decide, by decide⟩
  have h0 : P = [] := List.length_eq_zero_iff.1 (by simp at this; omega)
  subst h0
  exact absurd hP.2.length_eq (by decide)

end Verif.Props
