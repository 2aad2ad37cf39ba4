import Verif.Spec.ModintConc
import Verif.Proof.Modint
/-! Proofs about `DynamicModInt` under threads. -/
namespace Verif.MCP
open Model Res Spec IMP MIP

def recip (m : Nat) : Nat := waddU 64 ((2 ^ 64 - 1) / m) 1

/-- The invariant of runs in which sets are kept apart. -/
structure Inv (m₀ : Nat) (s : MSys) : Prop where
  quiet : NoSetRunning s → s.mem = ⟨modulusInForce m₀ s.log, recip (modulusInForce m₀ s.log)⟩ ∧
    ∀ t ∈ s.threads, ∀ a b m, t.pc = .loaded a b m → m = modulusInForce m₀ s.log
  busy : ∀ (i : Nat) t m, s.threads[i]? = some t → t.pc = .stored m → s.mem.m = m ∧
    ∀ (j : Nat) u, s.threads[j]? = some u → j ≠ i → u.pc = .idle
  exact : ProductsExact m₀ s.log

theorem exact_cons_set {m₀ m : Nat} {log : List MEvent} (h : ProductsExact m₀ log) : ProductsExact m₀ (.set m :: log) := by
  intro l₁ a b out l₂ e
  rcases l₁ with _ | ⟨x, l₁⟩
  · simp at e
  · injection e with _ e
    exact h l₁ a b out l₂ e

theorem exact_cons_mul {m₀ a b : Nat} {out : Res Nat} {log : List MEvent} (h : ProductsExact m₀ log)
    (h2 : modulusInForce m₀ log ≤ 2 ^ 31 → a < modulusInForce m₀ log → b < modulusInForce m₀ log →
      out = .ok (a * b % modulusInForce m₀ log)) : ProductsExact m₀ (.mul a b out :: log) := by
  intro l₁ a' b' out' l₂ e
  rcases l₁ with _ | ⟨x, l₁⟩
  · injection e with e1 e2
    injection e1 with e3 e4 e5
    subst e2 e3 e4 e5
    exact h2
  · injection e with _ e
    exact h l₁ a' b' out' l₂ e

theorem set_get {l : List MThread} {i j : Nat} {x u : MThread} (h : (l.set i x)[j]? = some u) :
    (j = i ∧ u = x) ∨ (j ≠ i ∧ l[j]? = some u) := by
  rw [List.getElem?_set] at h
  by_cases hij : i = j
  · rw [if_pos hij] at h
    by_cases hl : i < l.length
    · rw [if_pos hl] at h
      injection h with h
      exact .inl ⟨hij.symm, h.symm⟩
    · rw [if_neg hl] at h; cases h
  · rw [if_neg hij] at h
    exact .inr ⟨fun e => hij e.symm, h⟩

theorem step_inv {m₀ : Nat} {s : MSys} {i : Nat} (h : Inv m₀ s)
    (ha : ∀ t, s.threads[i]? = some t → t.pc = .idle →
      (∀ m ops, t.todo = .set m :: ops → AllIdle s) ∧ (∀ a b ops, t.todo = .mul a b :: ops → NoSetRunning s)) :
    Inv m₀ (s.step i) := by
  unfold MSys.step
  cases ht : s.threads[i]? with
  | none => exact h
  | some t =>
    have hmem : t ∈ s.threads := List.mem_of_getElem? ht
    simp only []
    cases hpc : t.pc with
    | stored m =>
      simp only []
      obtain ⟨h1, h2⟩ := h.busy i t m ht hpc
      refine ⟨fun _ => ⟨?_, ?_⟩, ?_, exact_cons_set h.exact⟩
      · simp only [modulusInForce, h1]; rfl
      · intro u hu a b m' hum
        obtain ⟨j, hj⟩ := List.mem_iff_getElem?.1 hu
        rcases set_get hj with ⟨_, rfl⟩ | ⟨hne, hj⟩
        · cases hum
        · rw [h2 j u hj hne] at hum; cases hum
      · intro j u m' hj hum
        rcases set_get hj with ⟨_, rfl⟩ | ⟨hne, hj⟩
        · cases hum
        · rw [h2 j u hj hne] at hum; cases hum
    | loaded a b m =>
      simp only []
      have hq : NoSetRunning s := by
        intro u hu m' hum
        obtain ⟨j, hj⟩ := List.mem_iff_getElem?.1 hu
        have hji : i ≠ j := by
          rintro rfl
          rw [ht] at hj; injection hj with hj; subst hj; rw [hpc] at hum; cases hum
        have := (h.busy j u m' hj hum).2 i t ht hji
        rw [hpc] at this; cases this
      obtain ⟨h1, h2⟩ := h.quiet hq
      have hm := h2 t hmem a b m hpc
      refine ⟨fun _ => ⟨h1, ?_⟩, ?_, exact_cons_mul h.exact ?_⟩
      · intro u hu a b m' hum
        obtain ⟨j, hj⟩ := List.mem_iff_getElem?.1 hu
        rcases set_get hj with ⟨_, rfl⟩ | ⟨hne, hj⟩
        · cases hum
        · exact h2 u (List.mem_of_getElem? hj) a b m' hum
      · intro j u m' hj hum
        rcases set_get hj with ⟨_, rfl⟩ | ⟨hne, hj⟩
        · cases hum
        · exact absurd hum (hq u (List.mem_of_getElem? hj) m')
      · intro hl ha hb
        rw [hm, h1]
        exact barrett_mul hl ha hb rfl
    | idle =>
      simp only []
      obtain ⟨hset, hmul⟩ := ha t ht hpc
      cases htodo : t.todo with
      | nil => exact h
      | cons op ops =>
        cases op with
        | set m =>
          simp only []
          have hid := hset m ops htodo
          have hq : NoSetRunning s := by
            intro u hu m' hum
            rw [hid u hu] at hum; cases hum
          split
          · obtain ⟨h1, h2⟩ := h.quiet hq
            refine ⟨fun _ => ⟨h1, ?_⟩, ?_, h.exact⟩
            · intro u hu a b m' hum
              obtain ⟨j, hj⟩ := List.mem_iff_getElem?.1 hu
              rcases set_get hj with ⟨_, rfl⟩ | ⟨hne, hj⟩
              · cases hum
              · exact h2 u (List.mem_of_getElem? hj) a b m' hum
            · intro j u m' hj hum
              rcases set_get hj with ⟨_, rfl⟩ | ⟨hne, hj⟩
              · cases hum
              · exact absurd hum (hq u (List.mem_of_getElem? hj) m')
          · refine ⟨fun hn => ?_, ?_, h.exact⟩
            · exfalso
              have hi : i < s.threads.length := (List.getElem?_eq_some_iff.1 ht).1
              exact hn ⟨.stored m, ops⟩ (List.mem_of_getElem? (i := i) (by
                simp [List.getElem?_set, hi])) m rfl
            · intro j u m' hj hum
              rcases set_get hj with ⟨rfl, rfl⟩ | ⟨hne, hj⟩
              · injection hum with hum
                refine ⟨hum, fun k w hk hne => ?_⟩
                rcases set_get hk with ⟨rfl, rfl⟩ | ⟨_, hk⟩
                · exact absurd rfl hne
                · exact hid w (List.mem_of_getElem? hk)
              · exact absurd hum (hq u (List.mem_of_getElem? hj) m')
        | mul a b =>
          simp only []
          have hq := hmul a b ops htodo
          obtain ⟨h1, h2⟩ := h.quiet hq
          refine ⟨fun _ => ⟨h1, ?_⟩, ?_, h.exact⟩
          · intro u hu a' b' m' hum
            obtain ⟨j, hj⟩ := List.mem_iff_getElem?.1 hu
            rcases set_get hj with ⟨_, rfl⟩ | ⟨hne, hj⟩
            · injection hum with _ _ e
              rw [← e, h1]
            · exact h2 u (List.mem_of_getElem? hj) a' b' m' hum
          · intro j u m' hj hum
            rcases set_get hj with ⟨_, rfl⟩ | ⟨hne, hj⟩
            · cases hum
            · exact absurd hum (hq u (List.mem_of_getElem? hj) m')

theorem run_inv {m₀ : Nat} (sched : List Nat) : ∀ s : MSys, Inv m₀ s → SetsApart s sched → Inv m₀ (s.run sched) := by
  induction sched with
  | nil => intro s h _; exact h
  | cons i sched ih =>
    intro s h hs
    exact ih _ (step_inv h hs.1) hs.2

theorem start_idle {mem : Barrett} {progs : List (List MOp)} : AllIdle (MSys.start mem progs) := by
  intro t ht
  simp only [MSys.start, List.mem_map] at ht
  obtain ⟨p, _, rfl⟩ := ht
  rfl

theorem start_inv {m₀ : Nat} {progs : List (List MOp)} : Inv m₀ (MSys.start ⟨m₀, recip m₀⟩ progs) := by
  have hid := start_idle (mem := ⟨m₀, recip m₀⟩) (progs := progs)
  refine ⟨fun _ => ⟨rfl, ?_⟩, ?_, ?_⟩
  · intro t ht a b m h
    rw [hid t ht] at h; cases h
  · intro i t m ht h
    rw [hid t (List.mem_of_getElem? ht)] at h; cases h
  · intro l₁ a b out l₂ e
    simp [MSys.start] at e

/-- No thread is inside `set_modulus` or has one to do. -/
def NoSets (s : MSys) : Prop := ∀ t ∈ s.threads, (∀ m, t.pc ≠ .stored m) ∧ ∀ m, MOp.set m ∉ t.todo

theorem noSets_step {s : MSys} (i : Nat) (h : NoSets s) : NoSets (s.step i) := by
  unfold MSys.step
  cases ht : s.threads[i]? with
  | none => exact h
  | some t =>
    have hm := h t (List.mem_of_getElem? ht)
    have key : ∀ (t' : MThread) , (∀ m, t'.pc ≠ .stored m) → (∀ m, MOp.set m ∉ t'.todo) →
        ∀ u ∈ s.threads.set i t', (∀ m, u.pc ≠ .stored m) ∧ ∀ m, MOp.set m ∉ u.todo := by
      intro t' h1 h2 u hu
      rcases List.mem_or_eq_of_mem_set hu with hu | rfl
      · exact h u hu
      · exact ⟨h1, h2⟩
    simp only []
    cases hpc : t.pc with
    | stored m => exact absurd hpc (hm.1 m)
    | loaded a b m => exact key _ (by simp) hm.2
    | idle =>
      simp only []
      cases htodo : t.todo with
      | nil => exact h
      | cons op ops =>
        cases op with
        | set m => exact absurd (by rw [htodo]; simp) (hm.2 m)
        | mul a b => exact key _ (by simp) (fun m hm' => hm.2 m (by rw [htodo]; simp [hm']))

theorem noSets_apart (sched : List Nat) : ∀ s : MSys, NoSets s → SetsApart s sched := by
  induction sched with
  | nil => intro s _; trivial
  | cons i sched ih =>
    intro s h
    refine ⟨fun t ht hpc => ⟨fun m ops e => ?_, fun a b ops e => fun u hu m => (h u hu).1 m⟩, ih _ (noSets_step i h)⟩
    exact absurd (by rw [e]; simp) ((h t (List.mem_of_getElem? ht)).2 m)

/-- A thread that runs alone keeps sets apart. -/
theorem alone_apart (i : Nat) (n : Nat) : ∀ s : MSys, (∀ (j : Nat) t, s.threads[j]? = some t → j ≠ i → t.pc = .idle) →
    SetsApart s (List.replicate n i) := by
  induction n with
  | zero => intro s _; trivial
  | succ n ih =>
    intro s h
    rw [List.replicate_succ]
    refine ⟨fun t ht hpc => ?_, ih _ ?_⟩
    · have hid : AllIdle s := by
        intro u hu
        obtain ⟨j, hj⟩ := List.mem_iff_getElem?.1 hu
        by_cases hji : j = i
        · subst hji; rw [ht] at hj; injection hj with hj; rw [← hj]; exact hpc
        · exact h j u hj hji
      exact ⟨fun _ _ _ => hid, fun _ _ _ _ u hu m e => by rw [hid u hu] at e; cases e⟩
    · intro j u hj hne
      unfold MSys.step at hj
      cases ht : s.threads[i]? with
      | none => rw [ht] at hj; exact h j u hj hne
      | some t =>
        rw [ht] at hj
        have key : ∀ t', (s.threads.set i t')[j]? = some u → u.pc = .idle := by
          intro t' h'
          rcases set_get h' with ⟨e, _⟩ | ⟨_, h'⟩
          · exact absurd e hne
          · exact h j u h' hne
        simp only [] at hj
        cases hpc : t.pc with
        | stored m => rw [hpc] at hj; exact key _ hj
        | loaded a b m => rw [hpc] at hj; exact key _ hj
        | idle =>
          rw [hpc] at hj
          simp only [] at hj
          cases htodo : t.todo with
          | nil => rw [htodo] at hj; exact h j u hj hne
          | cons op ops =>
            rw [htodo] at hj
            cases op with
            | set m =>
              simp only [] at hj
              split at hj
              · exact key _ hj
              · exact key _ hj
            | mul a b => exact key _ hj

end Verif.MCP
