import Verif.Props.InputRuns
import Verif.Props.Fenwick
import Verif.Props.FlowMatching
import Verif.Props.FlowRuns
import Verif.Props.Dijkstra
import Verif.Props.Tarjan
/-! C120: whole programs, from the text of the input to the answers. -/
namespace Verif.Props
open Model Spec Res INP

/-- The numbers still to be read are written in decimal, with any white space between them. -/
def Nums (i : In) (ns : List Int) : Prop := Left i (ns.map showInt)

theorem usize_in {n : Nat} (h : n < 2 ^ 64) : (⟨false, 64⟩ : IntTy).In (n : Int) := by
  constructor
  · simp [IntTy.mn]
  · simp [IntTy.mx]; omega

theorem nums_usize {i : In} {n : Nat} {ns : List Int} (hn : n < 2 ^ 64) (h : Nums i ((n : Int) :: ns)) :
    ∃ i', i.usize = ok ((n : Int), i') ∧ Nums i' ns :=
  (read_int h ⟨false, 64⟩).1 _ _ _ rfl (showInt_text (usize_in hn) (by rintro _ ⟨k, hk⟩; cases hk))

theorem nums_i64 {i : In} {v : Int} {ns : List Int} (hv : InI 64 v) (h : Nums i (v :: ns)) :
    ∃ i', i.i64 = ok (v, i') ∧ Nums i' ns := by
  refine (read_int h Model.i64).1 _ _ _ rfl (showInt_text ?_ (by intro h; cases h))
  have := hv
  simp only [InI] at this
  constructor
  · simp [IntTy.mn, Model.i64]; omega
  · simp [IntTy.mx, Model.i64]; omega

theorem nums_vec {i : In} {a ns : List Int} (ha : ∀ v ∈ a, InI 64 v) (h : Nums i (a ++ ns)) :
    ∃ i', i.vec (parseInt Model.i64) a.length = ok (a, i') ∧ Nums i' ns := by
  have key : ∀ (a : List Int) (lo : Nat) (acc : List Int) (i : In), (∀ v ∈ a, InI 64 v) → Nums i (a ++ ns) →
      ∃ i', forCount a.length lo ((acc, i) : List Int × In) (fun _ s => do
        let (v, i) ← s.2.read (parseInt Model.i64)
        ok (s.1 ++ [v], i)) = ok (acc ++ a, i') ∧ Nums i' ns := by
    intro a
    induction a with
    | nil => intro lo acc i _ h; exact ⟨i, by simp [forCount], h⟩
    | cons v a ih =>
      intro lo acc i ha h
      obtain ⟨i1, e1, h1⟩ := nums_i64 (ha v (by simp)) h
      obtain ⟨i2, e2, h2⟩ := ih (lo + 1) (acc ++ [v]) i1 (fun v hv => ha v (by simp [hv])) h1
      refine ⟨i2, ?_, h2⟩
      rw [List.length_cons, forCount]
      simp only [show i.read (parseInt Model.i64) = ok (v, i1) from e1, ok_bind]
      rw [e2]; simp
  obtain ⟨i', e, h'⟩ := key a 0 [] i ha h
  exact ⟨i', e, h'⟩

/-- A loop that reads one item per round and does one step with it. -/
theorem loop_reads {β σ : Type} {enc : β → List Int} {f : Nat → σ × In → Res (σ × In)} {step : σ → β → Res σ} {Ok : β → Prop}
    (hf : ∀ b ns lo s i s', Ok b → Nums i (enc b ++ ns) → step s b = ok s' → ∃ i', f lo (s, i) = ok (s', i') ∧ Nums i' ns) :
    ∀ (l : List β) (lo : Nat) (s : σ) (i : In) (ns : List Int) (s' : σ), (∀ b ∈ l, Ok b) → Nums i (l.flatMap enc ++ ns) →
      l.foldlM step s = ok s' → ∃ i', forCount l.length lo (s, i) f = ok (s', i') ∧ Nums i' ns := by
  intro l
  induction l with
  | nil => intro lo s i ns s' _ h e; cases e; exact ⟨i, rfl, h⟩
  | cons b l ih =>
    intro lo s i ns s' hO h e
    rw [List.foldlM_cons] at e
    obtain ⟨s1, e1, e2⟩ := bind_ok_inv e
    rw [List.flatMap_cons, List.append_assoc] at h
    obtain ⟨i1, e3, h1⟩ := hf b _ lo s i s1 (hO b (by simp)) h e1
    obtain ⟨i2, e4, h2⟩ := ih (lo + 1) s1 i1 ns s' (fun b hb => hO b (by simp [hb])) h1 e2
    exact ⟨i2, by rw [List.length_cons, forCount, e3, ok_bind, e4], h2⟩

/-! ### Point additions and range sums -/

/-- A query of the input. -/
inductive SumQuery where
  | add (p : Nat) (x : Int)
  | sum (l r : Nat)

/-- How it is written: `0 p x` or `1 l r`. -/
def SumQuery.enc : SumQuery → List Int
  | .add p x => [0, p, x]
  | .sum l r => [1, l, r]

/-- The answers on a plain list. -/
def querySums (a : List Int) : List SumQuery → List Int
  | [] => []
  | .add p x :: qs => querySums (addTo a p x) qs
  | .sum l r :: qs => segSum a l r :: querySums a qs

/-- Positions are within a list of length `n`, ranges in order. -/
def SumQuery.Ok (n : Nat) : SumQuery → Prop
  | .add p _ => p < n
  | .sum l r => l ≤ r ∧ r ≤ n

/-- The size of the number added. -/
def SumQuery.size : SumQuery → Nat
  | .add _ x => x.natAbs
  | .sum _ _ => 0

/-- The program: reads `n q`, `n` numbers and `q` queries, and answers the sums by a `FenwickTree<i64>`. -/
def sumsProgram (s : List Char) : Res (List Int) := do
  let i := In.new s
  let (n, i) ← i.usize
  let (q, i) ← i.usize
  let (a, i) ← i.vec (parseInt Model.i64) n.toNat
  let t ← Fenwick.from (fun a b => ckI 64 (a + b)) 0 a
  let ((_, out), _) ← forRange 0 q.toNat (((t, []), i) : (Fenwick Int × List Int) × In) fun _ ((t, out), i) => do
    let (k, i) ← i.usize
    if k = 0 then do
      let (p, i) ← i.usize
      let (x, i) ← i.i64
      let t ← t.addAt (fun a b => ckI 64 (a + b)) p.toNat x
      ok ((t, out), i)
    else do
      let (l, i) ← i.usize
      let (r, i) ← i.usize
      let v ← t.sum (fun a b => ckI 64 (a + b)) (fun a b => ckI 64 (a - b)) 0 l.toNat r.toNat
      ok ((t, out ++ [v]), i)
  ok out

/-- One query, without the reading. -/
def sumStep (s : Fenwick Int × List Int) : SumQuery → Res (Fenwick Int × List Int)
  | .add p x => do
    let t ← s.1.addAt (fun a b => ckI 64 (a + b)) p x
    ok (t, s.2)
  | .sum l r => do
    let v ← s.1.sum (fun a b => ckI 64 (a + b)) (fun a b => ckI 64 (a - b)) 0 l r
    ok (s.1, s.2 ++ [v])

/-- The sum of the sizes. -/
def absSum (a : List Int) : Nat := (a.map Int.natAbs).sum

theorem natAbs_sum_le (a : List Int) : a.sum.natAbs ≤ absSum a := by
  induction a with
  | nil => simp [absSum]
  | cons x a ih => simp only [absSum, List.sum_cons, List.map_cons] at ih ⊢; omega

theorem absSum_sublist {a b : List Int} (h : a.Sublist b) : absSum a ≤ absSum b := by
  induction h with
  | slnil => exact le_refl _
  | cons x _ ih => simp only [absSum, List.map_cons, List.sum_cons] at ih ⊢; omega
  | cons_cons x _ ih => simp only [absSum, List.map_cons, List.sum_cons] at ih ⊢; omega

theorem absSum_addTo (a : List Int) (p : Nat) (x : Int) : absSum (addTo a p x) ≤ absSum a + x.natAbs := by
  induction a generalizing p with
  | nil => simp [addTo, absSum]
  | cons y a ih =>
    cases p with
    | zero => simp only [addTo, List.modify_zero_cons, absSum, List.map_cons, List.sum_cons]; omega
    | succ p =>
      have := ih p
      simp only [addTo, List.modify_succ_cons, absSum, List.map_cons, List.sum_cons] at this ⊢; omega

theorem ranges_fit {a : List Int} (h : absSum a < 2 ^ 63) : RangesFit (InI 64) a := by
  intro l r
  have h1 := natAbs_sum_le ((a.take r).drop l)
  have h2 := absSum_sublist ((List.drop_sublist l (a.take r)).trans (List.take_sublist r a))
  simp only [InI]
  omega

theorem sumStep_all : ∀ (qs : List SumQuery) (a : List Int) (t : Fenwick Int) (out : List Int), FenwickP.Rep t a →
    a.length < 2 ^ 63 → absSum a + (qs.map SumQuery.size).sum < 2 ^ 63 → (∀ q ∈ qs, q.Ok a.length) →
    ∃ t', qs.foldlM sumStep (t, out) = ok (t', out ++ querySums a qs) := by
  intro qs
  induction qs with
  | nil => intro a t out _ _ _ _; exact ⟨t, by simp [querySums]⟩
  | cons q qs ih =>
    intro a t out hr hl hs hq
    have hq0 := hq q (by simp)
    have hq' : ∀ q ∈ qs, q.Ok a.length := fun q h => hq q (by simp [h])
    rw [List.map_cons, List.sum_cons] at hs
    rw [List.foldlM_cons]
    cases q with
    | add p x =>
      simp only [SumQuery.size] at hs
      have hab := absSum_addTo a p x
      obtain ⟨t1, e1, h1⟩ := FenwickP.add_sat (checkedAdd_int 64) hr (p := p) (v := x) (ranges_fit (by omega)) hl
        (by have : p < a.length := hq0; omega)
      obtain ⟨t', e'⟩ := ih (addTo a p x) t1 out h1 (by rw [FenwickP.addTo_length]; exact hl) (by omega)
        (by rw [FenwickP.addTo_length]; exact hq')
      refine ⟨t', ?_⟩
      simp only [sumStep, e1, ok_bind]
      exact e'
    | sum l r =>
      simp only [SumQuery.size] at hs
      obtain ⟨v, e1, hv⟩ := FenwickP.sum_sat (checkedAdd_int 64) hr (ranges_fit (by omega)) hq0.1 hq0.2
      obtain ⟨t', e'⟩ := ih a t (out ++ [v]) hr hl (by omega) hq'
      refine ⟨t', ?_⟩
      simp only [sumStep, e1, ok_bind]
      rw [e', querySums, hv]
      unfold FenwickP.fn
      rw [rsum_list]
      simp [segSum]

theorem small_fit {a : List Int} (h : absSum a < 2 ^ 63) : ∀ v ∈ a, InI 64 v := by
  intro v hv
  have := absSum_sublist (List.singleton_sublist.2 hv)
  simp only [absSum, List.map_cons, List.map_nil, List.sum_cons, List.sum_nil] at this h
  simp only [InI]
  omega

/-- **C120, sums.** For every list and every list of queries whose numbers are together below 2^63, and every text that
contains `n q`, the list and the queries in decimal with any white space between them, the program returns the answers of
the plain list. -/
theorem C120_sums (a : List Int) (qs : List SumQuery) (hl : a.length < 2 ^ 63) (hql : qs.length < 2 ^ 64)
    (hs : absSum a + (qs.map SumQuery.size).sum < 2 ^ 63) (hq : ∀ q ∈ qs, q.Ok a.length) (s : List Char)
    (ht : Tokens s (((a.length : Int) :: (qs.length : Int) :: (a ++ qs.flatMap SumQuery.enc)).map showInt)) :
    sumsProgram s = ok (querySums a qs) := by
  have h0 : Nums (In.new s) ((a.length : Int) :: (qs.length : Int) :: (a ++ qs.flatMap SumQuery.enc)) :=
    .inr ⟨s, rfl, ht⟩
  obtain ⟨i1, e1, h1⟩ := nums_usize (by omega) h0
  obtain ⟨i2, e2, h2⟩ := nums_usize hql h1
  obtain ⟨i3, e3, h3⟩ := nums_vec (small_fit (by omega)) h2
  obtain ⟨t, e4, h4⟩ := FenwickP.from_sat (checkedAdd_int 64) (ranges_fit (a := a) (by omega)) hl
  obtain ⟨t', e5⟩ := sumStep_all qs a t [] h4 hl hs hq
  have hsz : ∀ q ∈ qs, q.size < 2 ^ 63 := by
    intro q hq
    have := List.single_le_sum (fun _ _ => Nat.zero_le _) _ (List.mem_map.2 ⟨q, hq, rfl⟩ : q.size ∈ qs.map SumQuery.size)
    omega
  obtain ⟨i4, e6, _⟩ := loop_reads (enc := SumQuery.enc) (step := sumStep) (Ok := fun q => q.Ok a.length ∧ q.size < 2 ^ 63)
    (f := fun _ (x : (Fenwick Int × List Int) × In) => do
      let (k, i) ← x.2.usize
      if k = 0 then do
        let (p, i) ← i.usize
        let (y, i) ← i.i64
        let t ← x.1.1.addAt (fun a b => ckI 64 (a + b)) p.toNat y
        ok ((t, x.1.2), i)
      else do
        let (l, i) ← i.usize
        let (r, i) ← i.usize
        let v ← x.1.1.sum (fun a b => ckI 64 (a + b)) (fun a b => ckI 64 (a - b)) 0 l.toNat r.toNat
        ok ((x.1.1, x.1.2 ++ [v]), i))
    (by
      rintro (⟨p, y⟩ | ⟨l, r⟩) ns lo ⟨t, out⟩ i s' ⟨hO, hz⟩ hi e
      · obtain ⟨j1, f1, g1⟩ := nums_usize (n := 0) (by omega) hi
        have hp : p < a.length := hO
        obtain ⟨j2, f2, g2⟩ := nums_usize (by omega) g1
        obtain ⟨j3, f3, g3⟩ := nums_i64 (by simp only [SumQuery.size] at hz; simp only [InI]; omega) g2
        obtain ⟨t1, k1, k2⟩ := bind_ok_inv e
        cases k2
        refine ⟨j3, ?_, g3⟩
        simp only [f1, ok_bind, Int.natCast_zero, if_true, f2, f3, Int.toNat_natCast, k1]
      · obtain ⟨j1, f1, g1⟩ := nums_usize (n := 1) (by omega) hi
        have hp : l ≤ r ∧ r ≤ a.length := hO
        obtain ⟨j2, f2, g2⟩ := nums_usize (by omega) g1
        obtain ⟨j3, f3, g3⟩ := nums_usize (by omega) g2
        obtain ⟨v, k1, k2⟩ := bind_ok_inv e
        cases k2
        refine ⟨j3, ?_, g3⟩
        simp only [f1, ok_bind, f2, f3, Int.toNat_natCast, k1]
        rfl)
    qs 0 (t, []) i3 [] (t', querySums a qs) (fun q h => ⟨hq q h, hsz q h⟩) (by simpa using h3) e5
  simp only [sumsProgram, e1, ok_bind, e2, Int.toNat_natCast, e3, e4, forRange, Nat.sub_zero]
  erw [e6]
  rfl

/-! ### Edges -/

/-- The program: reads `n m k` and `k` pairs, and returns the size of a maximum matching. -/
def matchingProgram (s : List Char) : Res Nat := do
  let i := In.new s
  let (n, i) ← i.usize
  let (m, i) ← i.usize
  let (k, i) ← i.usize
  let (t, _) ← forRange 0 k.toNat ((AugmentedPath.new n.toNat m.toNat, i) : AugmentedPath × In) fun _ (t, i) => do
    let (u, i) ← i.usize
    let (v, i) ← i.usize
    let t ← t.addEdge u.toNat v.toNat
    ok (t, i)
  let (_, r) ← t.solve
  ok r

/-- A pair as numbers. -/
def pairNums (e : Nat × Nat) : List Int := [(e.1 : Int), (e.2 : Int)]

theorem matchRun_fold (E : List (Nat × Nat)) (ops : List MatchOp) : ∀ t : AugmentedPath,
    matchRun t (E.map (fun e => .addEdge e.1 e.2) ++ ops) =
      (E.foldlM (fun (t : AugmentedPath) e => t.addEdge e.1 e.2) t >>= fun t => matchRun t ops) := by
  induction E with
  | nil => intro t; rfl
  | cons e E ih =>
    intro t
    rw [List.map_cons, List.cons_append, matchRun, List.foldlM_cons, Res.bind_assoc]
    congr 1
    funext t
    exact ih t

/-- **C120, matching.** For every bipartite graph and every text that contains it, the program returns the size of a maximum
matching. -/
theorem C120_matching (n m : Nat) (E : List (Nat × Nat)) (hn : n < 2 ^ 64) (hm : m < 2 ^ 64) (hk : E.length < 2 ^ 64)
    (hE : ∀ e ∈ E, e.1 < n ∧ e.2 < m) (s : List Char)
    (ht : Tokens s (((n : Int) :: (m : Int) :: (E.length : Int) :: E.flatMap pairNums).map showInt)) :
    ∃ k, matchingProgram s = ok k ∧ IsMaxMatching E k := by
  obtain ⟨k, e, hmax⟩ := matchCalls_ok hE
  refine ⟨k, ?_, hmax⟩
  rw [matchCalls, matchRun_fold] at e
  obtain ⟨t, e1, e2⟩ := bind_ok_inv e
  rw [matchRun] at e2
  obtain ⟨⟨t', k'⟩, e3, e4⟩ := bind_ok_inv e2
  cases e4
  have h0 : Nums (In.new s) ((n : Int) :: (m : Int) :: (E.length : Int) :: E.flatMap pairNums) := .inr ⟨s, rfl, ht⟩
  obtain ⟨i1, f1, h1⟩ := nums_usize hn h0
  obtain ⟨i2, f2, h2⟩ := nums_usize hm h1
  obtain ⟨i3, f3, h3⟩ := nums_usize hk h2
  obtain ⟨i4, f4, _⟩ := loop_reads (enc := pairNums) (step := fun (t : AugmentedPath) e => t.addEdge e.1 e.2)
    (Ok := fun e => e.1 < n ∧ e.2 < m)
    (f := fun _ (x : AugmentedPath × In) => do
      let (u, i) ← x.2.usize
      let (v, i) ← i.usize
      let t ← x.1.addEdge u.toNat v.toNat
      ok (t, i))
    (by
      rintro ⟨u, v⟩ ns lo t i s' hO hi e
      obtain ⟨j1, k1, g1⟩ := nums_usize (by simp only [] at hO; omega) hi
      obtain ⟨j2, k2, g2⟩ := nums_usize (by simp only [] at hO; omega) g1
      refine ⟨j2, ?_, g2⟩
      simp only [] at e
      simp only [k1, k2, ok_bind, Int.toNat_natCast, e])
    E 0 _ i3 [] t hE (by simpa using h3) e1
  simp only [matchingProgram, f1, ok_bind, f2, f3, Int.toNat_natCast, forRange, Nat.sub_zero]
  erw [f4]
  simp only [ok_bind, e3]

/-- The program: reads `n m s t` and `m` triples, and returns the maximum flow from `s` to `t`. -/
def flowProgram (s : List Char) : Res Int := do
  let i := In.new s
  let (n, i) ← i.usize
  let (m, i) ← i.usize
  let (a, i) ← i.usize
  let (b, i) ← i.usize
  let (d, _) ← forRange 0 m.toNat ((Dinic.new n.toNat, i) : Dinic × In) fun _ (d, i) => do
    let (u, i) ← i.usize
    let (v, i) ← i.usize
    let (c, i) ← i.i64
    let d ← d.addEdge u.toNat v.toNat c
    ok (d, i)
  let (_, r) ← d.getMaxFlow Model.i64 a.toNat b.toNat
  ok r

/-- A triple as numbers. -/
def tripleNums (e : Nat × Nat × Int) : List Int := [(e.1 : Int), (e.2.1 : Int), e.2.2]

theorem flowRun_fold (ty : IntTy) (E : List (Nat × Nat × Int)) (ops : List FlowOp) : ∀ d : Dinic,
    flowRun ty d (E.map (fun e => .addEdge e.1 e.2.1 e.2.2) ++ ops) =
      (E.foldlM (fun (d : Dinic) e => d.addEdge e.1 e.2.1 e.2.2) d >>= fun d => flowRun ty d ops) := by
  induction E with
  | nil => intro d; rfl
  | cons e E ih =>
    intro d
    rw [List.map_cons, List.cons_append, flowRun, List.foldlM_cons, Res.bind_assoc]
    congr 1
    funext d
    exact ih d

/-- **C120, flow.** For every network whose capacities together are below 2^63, and every text that contains it, the program
returns the value of a maximum flow and of a least cut. -/
theorem C120_flow (n : Nat) (E : List (Nat × Nat × Int)) {a b : Nat} (hE : NetOk Model.i64 n E) (hk : E.length < 2 ^ 64)
    (ha : a < n) (hb : b < n) (hne : a ≠ b) (s : List Char)
    (ht : Tokens s (((n : Int) :: (E.length : Int) :: (a : Int) :: (b : Int) :: E.flatMap tripleNums).map showInt)) :
    ∃ v, flowProgram s = ok v ∧ IsMaxFlow (E.map fun e => ⟨e.1, e.2.1, e.2.2, 0⟩) a b v ∧ CutAns E a b v := by
  obtain ⟨v, ⟨d, e⟩, hc⟩ := C103_answers hE ha hb hne
  have hn : n < 2 ^ 64 := by have := hE.size; omega
  have hfl : IsMaxFlow (E.map fun e => ⟨e.1, e.2.1, e.2.2, 0⟩) a b v := by
    obtain ⟨outs, d', e', h⟩ := C19_incremental Model.i64 hE.mx n hE.size (E.map fun e => .addEdge e.1 e.2.1 e.2.2) ha hb
      (by
        intro o ho
        obtain ⟨e, he, rfl⟩ := List.mem_map.1 ho
        exact hE.edge e he)
      (by
        intro s' t' h
        obtain ⟨e, _, he⟩ := List.mem_map.1 h
        cases he)
      (by rw [List.map_map]; exact hE.sum)
    rw [e] at e'
    cases e'
    rw [edgesOf_adds] at h
    simpa using h
  refine ⟨v, ?_, hfl, hc⟩
  rw [flowRun_fold] at e
  obtain ⟨d1, e1, e2⟩ := bind_ok_inv e
  rw [flowRun] at e2
  obtain ⟨⟨d2, v'⟩, e3, e4⟩ := bind_ok_inv e2
  cases e4
  have h0 : Nums (In.new s) ((n : Int) :: (E.length : Int) :: (a : Int) :: (b : Int) :: E.flatMap tripleNums) :=
    .inr ⟨s, rfl, ht⟩
  obtain ⟨i1, f1, h1⟩ := nums_usize hn h0
  obtain ⟨i2, f2, h2⟩ := nums_usize hk h1
  obtain ⟨i3, f3, h3⟩ := nums_usize (by omega) h2
  obtain ⟨i4, f4, h4⟩ := nums_usize (by omega) h3
  have hcap : ∀ e ∈ E, e.1 < n ∧ e.2.1 < n ∧ InI 64 e.2.2 := by
    intro e he
    obtain ⟨p1, p2, p3⟩ := hE.edge e he
    refine ⟨p1, p2, ?_⟩
    have h5 : e.2.2 ≤ (E.map fun e => e.2.2).sum := List.single_le_sum (by
      intro x hx
      obtain ⟨e, he, rfl⟩ := List.mem_map.1 hx
      exact (hE.edge e he).2.2) _ (List.mem_map.2 ⟨e, he, rfl⟩)
    have h6 := hE.sum
    have h7 : Model.i64.mx = 2 ^ 63 - 1 := rfl
    simp only [InI]
    omega
  obtain ⟨i5, f5, _⟩ := loop_reads (enc := tripleNums) (step := fun (d : Dinic) e => d.addEdge e.1 e.2.1 e.2.2)
    (Ok := fun e => e.1 < n ∧ e.2.1 < n ∧ InI 64 e.2.2)
    (f := fun _ (x : Dinic × In) => do
      let (u, i) ← x.2.usize
      let (v, i) ← i.usize
      let (c, i) ← i.i64
      let d ← x.1.addEdge u.toNat v.toNat c
      ok (d, i))
    (by
      rintro ⟨u, v, c⟩ ns lo d i s' hO hi e
      obtain ⟨j1, k1, g1⟩ := nums_usize (by simp only [] at hO; omega) hi
      obtain ⟨j2, k2, g2⟩ := nums_usize (by simp only [] at hO ⊢; omega) g1
      obtain ⟨j3, k3, g3⟩ := nums_i64 hO.2.2 g2
      refine ⟨j3, ?_, g3⟩
      simp only [] at e
      simp only [k1, k2, k3, ok_bind, Int.toNat_natCast, e])
    E 0 _ i4 [] d1 hcap (by simpa using h4) e1
  simp only [flowProgram, f1, ok_bind, f2, f3, f4, Int.toNat_natCast, forRange, Nat.sub_zero]
  erw [f5]
  simp only [ok_bind, e3]

/-! ### Adjacency lists -/

/-- `g[u].push(b)`. -/
def pushAdj {β : Type} (g : List (List β)) (e : Nat × β) : Res (List (List β)) := do
  let gu ← idx g e.1
  upd g e.1 (gu ++ [e.2])

theorem pushAdj_all {β : Type} : ∀ (l : List (Nat × β)) (g : List (List β)), (∀ e ∈ l, e.1 < g.length) →
    ∃ g', l.foldlM pushAdj g = ok g' ∧ g'.length = g.length ∧
      ∀ u b, b ∈ g'.getD u [] ↔ b ∈ g.getD u [] ∨ (u, b) ∈ l := by
  intro l
  induction l with
  | nil => intro g _; exact ⟨g, rfl, rfl, by simp⟩
  | cons e l ih =>
    intro g hl
    have he := hl e (by simp)
    obtain ⟨g', e', h1, h2⟩ := ih (g.set e.1 (g[e.1] ++ [e.2])) (by
      intro e h; rw [List.length_set]; exact hl e (by simp [h]))
    refine ⟨g', ?_, by rw [h1, List.length_set], fun u b => ?_⟩
    · rw [List.foldlM_cons]
      simp only [pushAdj, idx_of_lt he, ok_bind, upd_of_lt he]
      exact e'
    · rw [h2, List.mem_cons]
      obtain ⟨x, y⟩ := e
      simp only [] at he ⊢
      by_cases hu : u = x
      · subst hu
        simp [List.getD_eq_getElem?_getD, he, or_assoc]
      · simp [List.getD_eq_getElem?_getD, Ne.symm hu, hu]

/-- The program: reads `n m s` and `m` triples, and returns the distances from `s`. -/
def distProgram (B : BinaryHeap (Nat ×ₗ Nat)ᵒᵈ) (s : List Char) : Res (List (Option Nat)) := do
  let i := In.new s
  let (n, i) ← i.usize
  let (m, i) ← i.usize
  let (a, i) ← i.usize
  let (g, _) ← forRange 0 m.toNat ((List.replicate n.toNat [], i) : List (List (Nat × Nat)) × In) fun _ (g, i) => do
    let (u, i) ← i.usize
    let (v, i) ← i.usize
    let (c, i) ← i.usize
    let g ← pushAdj g (u.toNat, (v.toNat, c.toNat))
    ok (g, i)
  dijkstra B g a.toNat

/-- A walk from `s` along listed edges (from, to, weight). -/
inductive ListWalk (E : List (Nat × Nat × Nat)) (s : Nat) : Nat → Nat → Prop where
  | nil : ListWalk E s s 0
  | snoc {u v w c : Nat} : ListWalk E s u w → (u, v, c) ∈ E → ListWalk E s v (w + c)

/-- Three numbers. -/
def weightNums (e : Nat × Nat × Nat) : List Int := [(e.1 : Int), (e.2.1 : Int), (e.2.2 : Int)]

theorem listWalk_iff {E : List (Nat × Nat × Nat)} {g : List (List (Nat × Nat))}
    (hg : ∀ u b, b ∈ g.getD u [] ↔ (u, b) ∈ E) (s v w : Nat) : Walk g s v w ↔ ListWalk E s v w := by
  constructor
  · intro h
    induction h with
    | nil => exact .nil
    | snoc _ h ih => exact .snoc ih ((hg _ _).1 h)
  · intro h
    induction h with
    | nil => exact .nil
    | snoc _ h ih => exact .snoc ih ((hg _ _).2 h)

/-- **C120, distances.** For every weighted digraph on which no sum of a distance and an edge exceeds 64 bits, and every
text that contains it, the program returns for each vertex the least weight of a walk from `s`, or `None` if there is
none. -/
theorem C120_distances (B : BinaryHeap (Nat ×ₗ Nat)ᵒᵈ) (n : Nat) (E : List (Nat × Nat × Nat)) {a : Nat} (hn : n < 2 ^ 64)
    (hk : E.length < 2 ^ 64) (ha : a < n) (hE : ∀ e ∈ E, e.1 < n ∧ e.2.1 < n ∧ e.2.2 < 2 ^ 64)
    (ho : ∀ u d v c, ListWalk E a u d → (∀ w, ListWalk E a u w → d ≤ w) → (u, v, c) ∈ E → d + c < 2 ^ 64) (s : List Char)
    (ht : Tokens s (((n : Int) :: (E.length : Int) :: (a : Int) :: E.flatMap weightNums).map showInt)) :
    ∃ D, distProgram B s = ok D ∧ D.length = n ∧ ∀ v < n, (D[v]? = some none ↔ ¬ ∃ w, ListWalk E a v w) ∧
      ∀ d, D[v]? = some (some d) ↔ ListWalk E a v d ∧ ∀ w, ListWalk E a v w → d ≤ w := by
  obtain ⟨g, e1, hgl, hg⟩ := pushAdj_all E (List.replicate n []) (by
    intro e he; rw [List.length_replicate]; exact (hE e he).1)
  rw [List.length_replicate] at hgl
  have hg' : ∀ u b, b ∈ g.getD u [] ↔ (u, b) ∈ E := by
    intro u b
    rw [hg]
    have : (List.replicate n ([] : List (Nat × Nat))).getD u [] = [] := by
      simp only [List.getD_eq_getElem?_getD, List.getElem?_replicate]
      split <;> rfl
    rw [this]; simp
  have hw := listWalk_iff hg' a
  obtain ⟨D, e2, hD, hd⟩ := C15_shortest_paths (B := B) (g := g) (s := a) (by omega)
    (by
      rintro ⟨u, d, v, c, _, h1, h2⟩
      have := (hE _ ((hg' _ _).1 h1)).2.1
      simp only [] at this
      omega)
    (by
      rintro ⟨u, d, v, c, ⟨h1, h1'⟩, h2, h3⟩
      have := ho u d v c ((hw _ _).1 h1) (fun w h => h1' w ((hw _ _).2 h)) ((hg' _ _).1 h2)
      omega)
  have h0 : Nums (In.new s) ((n : Int) :: (E.length : Int) :: (a : Int) :: E.flatMap weightNums) := .inr ⟨s, rfl, ht⟩
  obtain ⟨i1, f1, h1⟩ := nums_usize hn h0
  obtain ⟨i2, f2, h2⟩ := nums_usize hk h1
  obtain ⟨i3, f3, h3⟩ := nums_usize (by omega) h2
  obtain ⟨i5, f5, _⟩ := loop_reads (enc := weightNums) (step := pushAdj)
    (Ok := fun e => e.1 < n ∧ e.2.1 < n ∧ e.2.2 < 2 ^ 64)
    (f := fun _ (x : List (List (Nat × Nat)) × In) => do
      let (u, i) ← x.2.usize
      let (v, i) ← i.usize
      let (c, i) ← i.usize
      let g ← pushAdj x.1 (u.toNat, (v.toNat, c.toNat))
      ok (g, i))
    (by
      rintro ⟨u, v, c⟩ ns lo d i s' hO hi e
      obtain ⟨j1, k1, g1⟩ := nums_usize (by simp only [] at hO; omega) hi
      obtain ⟨j2, k2, g2⟩ := nums_usize (by simp only [] at hO ⊢; omega) g1
      obtain ⟨j3, k3, g3⟩ := nums_usize hO.2.2 g2
      refine ⟨j3, ?_, g3⟩
      simp only [k1, k2, k3, ok_bind, Int.toNat_natCast, e])
    E 0 _ i3 [] g hE (by simpa using h3) e1
  refine ⟨D, ?_, by omega, fun v hv => ?_⟩
  · simp only [distProgram, f1, ok_bind, f2, f3, Int.toNat_natCast, forRange, Nat.sub_zero]
    erw [f5]
    simp only [ok_bind, e2]
  · obtain ⟨p1, p2⟩ := hd v (by omega)
    rw [p1]
    refine ⟨by simp only [hw], fun d => ?_⟩
    rw [p2, IsDist]
    simp only [hw]

/-- The program: reads `n m` and `m` pairs, and returns the number of strongly connected components and the colours. -/
def sccProgram (s : List Char) : Res (Nat × List Nat) := do
  let i := In.new s
  let (n, i) ← i.usize
  let (m, i) ← i.usize
  let (g, _) ← forRange 0 m.toNat ((List.replicate n.toNat [], i) : List (List Nat) × In) fun _ (g, i) => do
    let (u, i) ← i.usize
    let (v, i) ← i.usize
    let g ← pushAdj g (u.toNat, v.toNat)
    ok (g, i)
  scc g

/-- **C120, components.** For every digraph and every text that contains it, the program gives two vertices the same colour
exactly if each can be reached from the other along listed edges. -/
theorem C120_components (n : Nat) (E : List (Nat × Nat)) (hn : n < 2 ^ 31) (hk : E.length < 2 ^ 64)
    (hE : ∀ e ∈ E, e.1 < n ∧ e.2 < n) (s : List Char)
    (ht : Tokens s (((n : Int) :: (E.length : Int) :: E.flatMap pairNums).map showInt)) :
    ∃ cnt color, sccProgram s = ok (cnt, color) ∧ color.length = n ∧
      (∀ (x y : Nat) (hx : x < color.length) (hy : y < color.length), color[x] = color[y] ↔
        Relation.ReflTransGen (fun a b => (a, b) ∈ E) x y ∧ Relation.ReflTransGen (fun a b => (a, b) ∈ E) y x) ∧
      ∀ c, c < cnt ↔ c ∈ color := by
  obtain ⟨g, e1, hgl, hg⟩ := pushAdj_all E (List.replicate n []) (by
    intro e he; rw [List.length_replicate]; exact (hE e he).1)
  rw [List.length_replicate] at hgl
  have hg' : ∀ u b, DEdge g u b ↔ (u, b) ∈ E := by
    intro u b
    have h1 : (List.replicate n ([] : List Nat)).getD u [] = [] := by
      simp only [List.getD_eq_getElem?_getD, List.getElem?_replicate]
      split <;> rfl
    have h2 := hg u b
    rw [h1] at h2
    simp only [List.not_mem_nil, false_or] at h2
    rw [← h2, DEdge, List.getD_eq_getElem?_getD]
    cases g[u]? with
    | none => simp
    | some x => simp
  have hr : DReach g = Relation.ReflTransGen (fun a b => (a, b) ∈ E) := by
    unfold DReach
    congr 1
    funext a b
    exact propext (hg' a b)
  obtain ⟨cnt, color, e2, hc, hsame, hcnt⟩ := C21_scc g (by
    intro x y h
    have := (hE _ ((hg' _ _).1 h)).2
    simp only [] at this
    omega) (by omega)
  rw [hr] at hsame
  refine ⟨cnt, color, ?_, by omega, hsame, hcnt⟩
  have h0 : Nums (In.new s) ((n : Int) :: (E.length : Int) :: E.flatMap pairNums) := .inr ⟨s, rfl, ht⟩
  obtain ⟨i1, f1, h1⟩ := nums_usize (by omega) h0
  obtain ⟨i2, f2, h2⟩ := nums_usize hk h1
  obtain ⟨i5, f5, _⟩ := loop_reads (enc := pairNums) (step := pushAdj) (Ok := fun e => e.1 < n ∧ e.2 < n)
    (f := fun _ (x : List (List Nat) × In) => do
      let (u, i) ← x.2.usize
      let (v, i) ← i.usize
      let g ← pushAdj x.1 (u.toNat, v.toNat)
      ok (g, i))
    (by
      rintro ⟨u, v⟩ ns lo d i s' hO hi e
      obtain ⟨j1, k1, g1⟩ := nums_usize (by simp only [] at hO; omega) hi
      obtain ⟨j2, k2, g2⟩ := nums_usize (by simp only [] at hO; omega) g1
      refine ⟨j2, ?_, g2⟩
      simp only [k1, k2, ok_bind, Int.toNat_natCast, e])
    E 0 _ i2 [] g hE (by simpa using h2) e1
  simp only [sccProgram, f1, ok_bind, f2, Int.toNat_natCast, forRange, Nat.sub_zero]
  erw [f5]
  simp only [ok_bind, e2]

/-- Every list of numbers is the content of a text. -/
theorem C120_texts (rows : List (List Int)) : Tokens (rows.flatMap showRow) (rows.flatten.map showInt) := by
  induction rows with
  | nil => exact .done (by simp)
  | cons row rows ih =>
    rw [List.flatMap_cons, List.flatten_cons, List.map_append]
    exact tokens_row ih row

/-- Four numbers, three queries. -/
example : sumsProgram "4 3\n1 -2 3 4\n1 0 3\n0 1  10\n1 1 4\n".toList = ok [2, 15] ∧
    querySums [1, -2, 3, 4] [.sum 0 3, .add 1 10, .sum 1 4] = [2, 15] ∧
    absSum [1, -2, 3, 4] + ([.sum 0 3, .add 1 10, .sum 1 4].map SumQuery.size).sum < 2 ^ 63 := by
  refine ⟨by decide +kernel, by decide, by decide⟩

example : (∀ q ∈ [.sum 0 3, .add 1 10, .sum 1 4], SumQuery.Ok 4 q) := by
  simp [SumQuery.Ok]

example : matchingProgram "2 2\n3  0 0\n1 0\n0 1".toList = ok 2 ∧
    flowProgram "3 3 0 2\n0 1 5\n1 2 3\n0 2 1\n".toList = ok 4 ∧
    sccProgram "3 3\n0 1\n1 0\n1 2\n".toList = ok (2, [1, 1, 0]) := by
  refine ⟨by decide +kernel, by decide +kernel, by decide +kernel⟩

/-- A graph in which vertex 3 cannot be reached and the way over 2 is shorter than the edge. -/
example : (∀ e ∈ [(0, 1, 7), (0, 2, 2), (2, 1, 3)], e.1 < 4 ∧ e.2.1 < 4 ∧ e.2.2 < 2 ^ 64) ∧
    (∀ u d v c, ListWalk [(0, 1, 7), (0, 2, 2), (2, 1, 3)] 0 u d →
      (∀ w, ListWalk [(0, 1, 7), (0, 2, 2), (2, 1, 3)] 0 u w → d ≤ w) → (u, v, c) ∈ [(0, 1, 7), (0, 2, 2), (2, 1, 3)] →
        d + c < 2 ^ 64) ∧
    Tokens ([[4, 3, 0], [0, 1, 7], [0, 2, 2], [2, 1, 3]].flatMap showRow)
      (((4 : Int) :: 3 :: 0 :: [(0, 1, 7), (0, 2, 2), (2, 1, 3)].flatMap weightNums).map showInt) := by
  refine ⟨by decide, fun u d v c h hm he => ?_, C120_texts _⟩
  have key : (u = 0 ∧ d = 0) ∨ (u = 1 ∧ d ≤ 7) ∨ (u = 2 ∧ d = 2) := by
    clear he hm
    induction h with
    | nil => simp
    | snoc _ h ih =>
      simp only [List.mem_cons, Prod.mk.injEq, List.not_mem_nil, or_false] at h
      omega
  simp only [List.mem_cons, Prod.mk.injEq, List.not_mem_nil, or_false] at he
  omega

end Verif.Props
