import Verif.Model.Release
import Verif.Prelude.Rls
import Verif.Prelude.Count
import Verif.Props.InternalMath
import Mathlib.Tactic.Common
/-! Every function of `Model/Release.lean` does what its debug version does, unless that one panics. -/
namespace Verif.ReleaseP
open Model Res

/-! ### Arithmetic -/

theorem wrap_of_in {ty : IntTy} {x : Int} (h : ty.In x) : Release.wrap ty x = x := by
  unfold IntTy.In IntTy.mn IntTy.mx at h
  unfold Release.wrap
  split
  · rename_i hs
    rw [if_pos hs, if_pos hs] at h
    rw [Int.emod_eq_of_lt (by omega) (by omega)]; omega
  · rename_i hs
    rw [if_neg hs, if_neg hs] at h
    rw [Int.emod_eq_of_lt (by omega) (by omega)]

theorem rls_ck {ty : IntTy} {x : Int} : Rls (ty.ck x) (Release.ck ty x) := by
  by_cases h : ty.In x
  · rw [IntTy.ck_of h]; unfold Release.ck; rw [wrap_of_in h]; exact rls_refl
  · rw [IntTy.ck_panic h]; exact rls_panic

theorem rls_ckI {w : Nat} {x : Int} : Rls (ckI w x) (Release.ckI w x) := by
  by_cases h : InI w x
  · rw [ckI_of h]; unfold Release.ckI
    rw [wrap_of_in (by unfold InI at h; unfold IntTy.In IntTy.mn IntTy.mx; simp only [if_true]; omega)]; exact rls_refl
  · unfold ckI; rw [if_neg h]; exact rls_panic

theorem rls_subU {w a b : Nat} : Rls (subU a b) (Release.subU w a b) := by
  unfold subU Release.subU
  split
  · exact rls_refl
  · exact rls_panic

theorem rls_addU {w a b : Nat} : Rls (addU w a b) (Release.addU w a b) := by
  unfold addU Release.addU waddU
  split
  · rw [Nat.mod_eq_of_lt ‹_›]; exact rls_refl
  · exact rls_panic

theorem rls_mulU {w a b : Nat} : Rls (mulU w a b) (Release.mulU w a b) := by
  unfold mulU Release.mulU wmulU
  split
  · rw [Nat.mod_eq_of_lt ‹_›]; exact rls_refl
  · exact rls_panic

/-- Steps through two programs that differ in their arithmetic only. -/
macro "rls" : tactic => `(tactic| repeat' first
  | with_reducible exact rls_refl
  | with_reducible exact rls_panic
  | with_reducible exact rls_ck
  | with_reducible exact rls_ckI
  | with_reducible exact rls_subU
  | with_reducible exact rls_addU
  | with_reducible exact rls_mulU
  | with_reducible assumption
  | with_reducible (refine rls_bind ?_ fun _ => ?_)
  | with_reducible (refine rls_ite (fun _ => ?_) fun _ => ?_))

/-! ### Functions -/

theorem lg_rls (i : Nat) : Rls (lg i) (Release.lg i) := by unfold lg Release.lg; rls
theorem ceilLg_rls (n : Nat) : Rls (ceilLg n) (Release.ceilLg n) := by unfold ceilLg Release.ceilLg; rls
theorem lcm_rls (ty : IntTy) (a b : Int) : Rls (Model.lcm ty a b) (Release.lcm ty a b) := by unfold Model.lcm Release.lcm; rls

theorem exGcdAux_rls (ty : IntTy) : ∀ (fuel : Nat) (a b : Int), Rls (exGcdAux ty fuel a b) (Release.exGcdAux ty fuel a b)
  | 0, _, _ => rls_refl
  | fuel + 1, a, b => by
    unfold exGcdAux Release.exGcdAux
    have ih := exGcdAux_rls ty fuel
    refine rls_ite (fun _ => rls_refl) fun _ => rls_bind rls_refl fun r => rls_bind (ih b r) ?_
    rintro ⟨x, y, g⟩
    rls

theorem exGcd_rls (ty : IntTy) (a b : Int) : Rls (exGcd ty a b) (Release.exGcd ty a b) := exGcdAux_rls ty _ a b

theorem crtStep_rls (a b m x l : Int) : Rls (crtStep a b m x l) (Release.crtStep a b m x l) := by
  unfold crtStep Release.crtStep
  refine rls_bind rls_ck fun a' => rls_bind rls_ck fun ax => rls_bind rls_ck fun b' => rls_bind (exGcd_rls _ _ _) ?_
  rintro ⟨y, z, g⟩
  rls

theorem crtLoop_rls (b m : List Int) : ∀ (l' : List Int) (i : Nat) (x l : Int),
    Rls (crtLoop b m i l' x l) (Release.crtLoop b m i l' x l)
  | [], _, _, _ => rls_refl
  | a :: l', i, x, l => by
    unfold crtLoop Release.crtLoop
    refine rls_bind rls_refl fun bi => rls_bind rls_refl fun mi => rls_bind (crtStep_rls _ _ _ _ _) ?_
    rintro (_ | ⟨x, l⟩)
    · exact rls_refl
    · exact crtLoop_rls b m l' (i + 1) x l

theorem exCrt_rls (a b m : List Int) : Rls (exCrt a b m) (Release.exCrt a b m) := by
  unfold exCrt Release.exCrt
  refine rls_bind (crtLoop_rls b m a 0 0 1) ?_
  rintro (_ | ⟨x, l⟩)
  · exact rls_refl
  · simp only; rls

theorem safeMod_rls (x m : Int) : Rls (safeMod x m) (Release.safeMod x m) := by unfold safeMod Release.safeMod; rls
theorem mulMod_rls (a b m im : Nat) : Rls (mulMod a b m im) (Release.mulMod a b m im) := by
  unfold mulMod Release.mulMod; rls
theorem barrettMul_rls (bt : Barrett) (a b : Nat) : Rls (bt.mul a b) (Release.Barrett.mul bt a b) := mulMod_rls ..
theorem powModStep_rls (m : Nat) (s : Int × Nat × Nat) : Rls (powModStep m s) (Release.powModStep m s) := by
  unfold powModStep Release.powModStep; rls
theorem powMod_rls (x n m : Int) : Rls (powMod x n m) (Release.powMod x n m) := by
  unfold powMod Release.powMod
  exact rls_ite (fun _ => rls_refl) fun _ => rls_bind (safeMod_rls x m) fun y => rls_loop (powModStep_rls _) _ _
theorem sprpStep_rls (n : Int) (s : Int × Int) : Rls (sprpStep n s) (Release.sprpStep n s) := by
  unfold sprpStep Release.sprpStep; rls
theorem sprpRejects_rls (n d a : Int) : Rls (sprpRejects n d a) (Release.sprpRejects n d a) := by
  unfold sprpRejects Release.sprpRejects
  exact rls_bind (powMod_rls ..) fun y => rls_bind (rls_loop (sprpStep_rls n) _ _) fun s => rls_refl
theorem isPrime_rls (n : Int) : Rls (isPrime n) (Release.isPrime n) := by
  unfold isPrime Release.isPrime
  have h := sprpRejects_rls n
  refine rls_ite (fun _ => rls_refl) fun _ => rls_ite (fun _ => rls_refl) fun _ => rls_bind rls_refl fun r =>
    rls_ite (fun _ => rls_refl) fun _ => rls_bind rls_refl fun d => rls_bind (h d 2) fun r =>
    rls_ite (fun _ => rls_refl) fun _ => rls_bind (h d 7) fun r => rls_ite (fun _ => rls_refl) fun _ =>
    rls_bind (h d 61) fun r => rls_refl
theorem invGcdStep_rls (st : Int × Int × Int × Int) : Rls (invGcdStep st) (Release.invGcdStep st) := by
  obtain ⟨s, t, m0, m1⟩ := st
  unfold invGcdStep Release.invGcdStep
  simp only
  rls
theorem invGcd_rls (a b : Int) : Rls (invGcd a b) (Release.invGcd a b) := by
  unfold invGcd Release.invGcd
  refine rls_bind (safeMod_rls a b) fun a => rls_ite (fun _ => rls_refl) fun _ =>
    rls_bind (rls_loop invGcdStep_rls _ _) ?_
  rintro ⟨s, m0⟩
  simp only
  rls
theorem trialStep_rls (s : Int × Int × List Int × Nat) : Rls (trialStep s) (Release.trialStep s) := by
  obtain ⟨i, x, divs, cnt⟩ := s
  unfold trialStep Release.trialStep
  simp only
  rls
theorem rootDivs_rls (m : Int) : Rls (rootDivs m) (Release.rootDivs m) := by
  unfold rootDivs Release.rootDivs
  refine rls_bind rls_ck fun m1 => rls_bind rls_refl fun h => rls_bind rls_refl fun x =>
    rls_bind (rls_loop trialStep_rls _ _) ?_
  rintro ⟨x, divs, cnt⟩
  simp only
  rls
theorem rootTest_rls (m g : Int) (divs : List Int) : ∀ k i, Rls (rootTest m g divs k i) (Release.rootTest m g divs k i)
  | 0, _ => rls_refl
  | k + 1, i => by
    unfold rootTest Release.rootTest
    refine rls_bind rls_ck fun m1 => rls_bind rls_refl fun q => rls_bind rls_refl fun e =>
      rls_bind (powMod_rls ..) fun r => rls_ite (fun _ => rootTest_rls m g divs k (i + 1)) fun _ => rls_refl
theorem rootStep_rls (m : Int) (divs : List Int) (cnt : Nat) (g : Int) :
    Rls (rootStep m divs cnt g) (Release.rootStep m divs cnt g) := by
  unfold rootStep Release.rootStep
  refine rls_bind (rootTest_rls ..) fun b => ?_
  rls
theorem rootSearch_rls (m : Int) : Rls (rootSearch m) (Release.rootSearch m) := by
  unfold rootSearch Release.rootSearch
  refine rls_bind (rootDivs_rls m) ?_
  rintro ⟨divs, cnt⟩
  exact rls_loop (rootStep_rls m divs cnt) _ _
theorem primitiveRoot_rls (m : Int) : Rls (primitiveRoot m) (Release.primitiveRoot m) := by
  unfold primitiveRoot Release.primitiveRoot
  have := rootSearch_rls m
  rls

theorem miAdd_rls (k : MKind) (a b : Nat) : Rls (miAdd k a b) (Release.miAdd k a b) := by
  unfold miAdd Release.miAdd; rls
theorem miMul_rls (k : MKind) (a b : Nat) : Rls (miMul k a b) (Release.miMul k a b) := by
  unfold miMul Release.miMul
  cases k with
  | stat m h => simp only; rls
  | dyn bt => exact mulMod_rls ..
theorem miPowStep_rls (k : MKind) (s : Nat × Nat × Nat) : Rls (miPowStep k s) (Release.miPowStep k s) := by
  unfold miPowStep Release.miPowStep
  have h := miMul_rls k
  refine rls_ite (fun _ => ?_) fun _ => rls_refl
  exact rls_bind (rls_ite (fun _ => h _ _) fun _ => rls_refl) fun r => rls_bind (h _ _) fun x => rls_refl
theorem miPow_rls (k : MKind) (x n : Nat) : Rls (miPow k x n) (Release.miPow k x n) := rls_loop (miPowStep_rls k) _ _
theorem miInvGcd_rls (k : MKind) (a : Nat) : Rls (miInvGcd k a) (Release.miInvGcd k a) := by
  unfold miInvGcd Release.miInvGcd
  refine rls_bind (invGcd_rls ..) ?_
  rintro ⟨g, x⟩
  exact rls_refl
theorem miInv_rls (k : MKind) (a : Nat) : Rls (miInv k a) (Release.miInv k a) := by
  unfold miInv Release.miInv
  split
  · simp only
    refine rls_ite (fun _ => rls_refl) fun _ => ?_
    split
    · exact rls_panic
    · rename_i m _ hm
      obtain ⟨p, hp, -⟩ := Props.C39_is_prime m (by simpa using hm)
      rw [hp, ok_bind]
      split
      · exact rls_bind rls_subU fun e => miPow_rls ..
      · exact rls_panic
  · rename_i h
    split
    · exact (h _ rfl).elim
    · exact miInvGcd_rls ..
theorem miDiv_rls (k : MKind) (a b : Nat) : Rls (miDiv k a b) (Release.miDiv k a b) :=
  rls_bind (miInv_rls k b) fun i => miMul_rls k a i
theorem foldRes_rls {f g : Nat → Nat → Res Nat} (h : ∀ a b, Rls (f a b) (g a b)) :
    ∀ (l : List Nat) (a : Nat), Rls (foldRes f a l) (foldRes g a l)
  | [], _ => rls_refl
  | x :: xs, a => rls_bind (h a x) fun b => foldRes_rls h xs b
theorem miSum_rls (k : MKind) (l : List Nat) : Rls (miSum k l) (Release.miSum k l) := foldRes_rls (miAdd_rls k) l 0
theorem miProduct_rls (k : MKind) (l : List Nat) : Rls (miProduct k l) (Release.miProduct k l) :=
  foldRes_rls (miMul_rls k) l 1

theorem factorialNew_rls (k : MKind) (n : Nat) : Rls (factorialNew k n) (Release.factorialNew k n) := by
  unfold factorialNew Release.factorialNew
  have h := miMul_rls k
  refine rls_bind rls_addU fun len => rls_bind rls_refl fun z => rls_bind rls_refl fun one => rls_bind rls_refl fun f =>
    rls_bind (rls_forRange fun i s _ _ => rls_bind rls_refl fun a => rls_bind rls_refl fun b => rls_bind (h _ _) fun v =>
      rls_refl) fun f => rls_bind rls_refl fun a => rls_bind (miInv_rls k a) fun v => rls_bind rls_refl fun g =>
    rls_bind (rls_forRangeRev fun i s _ _ => rls_bind rls_refl fun a => rls_bind rls_refl fun b => rls_bind (h _ _) fun v =>
      rls_refl) fun g => rls_refl
theorem choose_rls (t : Factorial) (k : MKind) (n r : Nat) : Rls (t.choose k n r) (Release.Factorial.choose t k n r) := by
  unfold Factorial.choose Release.Factorial.choose
  have h := miMul_rls k
  refine rls_bind rls_refl fun _ => rls_bind rls_refl fun _ => rls_bind rls_refl fun _ => rls_bind rls_subU fun _ =>
    rls_bind rls_refl fun _ => rls_bind (h _ _) fun _ => rls_bind rls_refl fun _ => h _ _
theorem perm_rls (t : Factorial) (k : MKind) (n r : Nat) : Rls (t.perm k n r) (Release.Factorial.perm t k n r) := by
  unfold Factorial.perm Release.Factorial.perm
  have h := miMul_rls k
  refine rls_bind rls_refl fun _ => rls_bind rls_refl fun _ => rls_bind rls_refl fun _ => rls_bind rls_subU fun _ =>
    rls_bind rls_refl fun _ => h _ _

theorem dec_of_pos {i : Nat} (h : 0 < i) : Release.dec i = i - 1 := by
  unfold Release.dec; rw [if_neg (by omega)]

theorem addU_eq_ok {w a b c : Nat} (h : addU w a b = ok c) : c = a + b ∧ a + b < 2 ^ w := by
  unfold addU at h
  split at h
  · cases h; exact ⟨rfl, ‹_›⟩
  · cases h

section
variable {T U : Type}
theorem fenwickFrom_rls (add : T → T → Res T) (zero : T) (a : List T) :
    Rls (Fenwick.from add zero a) (Release.Fenwick.from add zero a) := by
  unfold Fenwick.from Release.Fenwick.from
  simp only
  refine rls_bind (rls_forRange fun i ary h1 _ => ?_) fun _ => rls_refl
  refine rls_bind rls_refl fun x => rls_bind rls_refl fun y => rls_bind rls_refl fun s => rls_bind rls_refl fun ary =>
    rls_bindP rls_addU fun j hj => ?_
  rw [dec_of_pos (by have := (addU_eq_ok hj).1; omega)]
  exact rls_refl

theorem fenwickAddAt_rls (add : T → U → Res T) (t : Fenwick T) (i : Nat) (val : U) :
    Rls (t.addAt add i val) (Release.Fenwick.addAt add t i val) := by
  unfold Fenwick.addAt Release.Fenwick.addAt
  simp only
  refine rls_bindP rls_addU fun i hi => rls_bind (rls_while (I := fun s : Nat × List T => 0 < s.1) ?_ ?_ _ _ ?_) fun _ => rls_refl
  · rintro ⟨i, ary⟩ h
    simp only at h ⊢
    rw [dec_of_pos h]
    exact rls_bind rls_refl fun x => rls_bind rls_refl fun s => rls_bind rls_refl fun ary => rls_bind rls_addU fun j => rls_refl
  · rintro ⟨i, ary⟩ ⟨i', ary'⟩ h e
    simp only at h e ⊢
    obtain ⟨x, -, e⟩ := Res.bind_eq_ok.1 e
    obtain ⟨s, -, e⟩ := Res.bind_eq_ok.1 e
    obtain ⟨l, -, e⟩ := Res.bind_eq_ok.1 e
    obtain ⟨j, ej, e⟩ := Res.bind_eq_ok.1 e
    cases e
    have := (addU_eq_ok ej).1
    omega
  · have := (addU_eq_ok hi).1
    simp only; omega

theorem fenwickPartition_rls (add : T → T → Res T) (zero : T) (t : Fenwick T) (pred : T → Bool) :
    Rls (t.partitionPoint add zero pred) (Release.Fenwick.partitionPoint add zero t pred) := by
  unfold Fenwick.partitionPoint Release.Fenwick.partitionPoint
  refine rls_bindP rls_subU fun hi hhi => rls_bind (rls_forRangeRev ?_) fun _ => rls_refl
  rintro i ⟨pos, sum⟩ - hi'
  have : hi < 64 := by
    unfold subU usizeBits at hhi
    split at hhi
    · cases hhi; omega
    · cases hhi
  simp only
  rw [Nat.mod_eq_of_lt (show i < 64 by omega)]
  refine rls_bindP rls_addU fun next hn => ?_
  have h1 : 0 < 1 <<< i := by rw [Nat.shiftLeft_eq, Nat.one_mul]; exact Nat.two_pow_pos i
  rw [dec_of_pos (by have := (addU_eq_ok hn).1; omega)]
  exact rls_refl

theorem fenwickSearch_rls (add : T → T → Res T) (zero : T) (lt : T → T → Bool) (t : Fenwick T) (target : T) :
    Rls (t.search add zero lt target) (Release.Fenwick.search add zero lt t target) := fenwickPartition_rls ..

theorem lg_lt {n k : Nat} (h : lg n = ok k) : k < 64 := by
  unfold lg subU at h
  simp only [show (1 : Nat) ≤ 64 by omega, if_true, ok_bind] at h
  split at h
  · cases h; omega
  · cases h

theorem sparseFrom_rls (v : List T) (init : T) (op : T → T → Res T) :
    Rls (SparseTable.from v init op) (Release.SparseTable.from v init op) := by
  unfold SparseTable.from Release.SparseTable.from
  simp only
  refine rls_bindP (lg_rls _) fun k hk => rls_bind rls_refl fun data => rls_bind (rls_forRange fun c data h1 h2 => ?_)
    fun _ => rls_refl
  have := lg_lt hk
  rw [Nat.mod_eq_of_lt (show c < 64 by omega), Nat.mod_eq_of_lt (show c - 1 < 64 by omega)]
  rls

theorem sparseGet_rls (t : SparseTable T) (op : T → T → Res T) (l r : Nat) :
    Rls (t.get op l r) (Release.SparseTable.get t op l r) := by
  unfold SparseTable.get Release.SparseTable.get
  refine rls_bind rls_refl fun _ => rls_bindP (lg_rls _) fun c hc => ?_
  rw [Nat.mod_eq_of_lt (lg_lt hc)]
  rls
end

/-! ### Strings -/

theorem ahoInsert_rls (off N : Nat) (a : AhoCorasick) (s : List Nat) (i : Nat) :
    Rls (AhoCorasick.insert off N a s i) (Release.AhoCorasick.insert off N a s i) := by
  unfold AhoCorasick.insert Release.AhoCorasick.insert
  refine rls_bind rls_refl fun _ => rls_bind (rls_forList ?_ _ _) ?_
  · rintro c ⟨nodes, p⟩
    simp only
    rls
  · rintro ⟨nodes, p⟩
    simp only
    rls
theorem ahoFrom_rls (off N : Nat) (ps : List (List Nat)) :
    Rls (AhoCorasick.from off N ps) (Release.AhoCorasick.from off N ps) := by
  unfold AhoCorasick.from Release.AhoCorasick.from
  exact rls_bind (rls_forRange fun i a _ _ => rls_bind rls_refl fun s => ahoInsert_rls ..) fun _ => rls_refl
theorem ahoFind_rls (off : Nat) (a : AhoCorasick) (text : List Nat) :
    Rls (a.find off text) (Release.AhoCorasick.find off a text) := by
  unfold AhoCorasick.find Release.AhoCorasick.find
  refine rls_bind (rls_forList (fun c s => ?_) _ _) fun _ => rls_refl
  unfold AhoCorasick.findStep Release.AhoCorasick.findStep
  rls
theorem ahoFindAll_rls (off : Nat) (a : AhoCorasick) (text : List Nat) :
    Rls (a.findAll off text) (Release.AhoCorasick.findAll off a text) := by
  unfold AhoCorasick.findAll Release.AhoCorasick.findAll
  refine rls_bind (rls_forList (fun c s => ?_) _ _) fun _ => rls_refl
  unfold AhoCorasick.findAllStep Release.AhoCorasick.findAllStep
  rls
theorem ahoFindCnt_rls (off : Nat) (a : AhoCorasick) (text : List Nat) :
    Rls (a.findCnt off text) (Release.AhoCorasick.findCnt off a text) := by
  unfold AhoCorasick.findCnt Release.AhoCorasick.findCnt
  refine rls_bind (rls_forList (fun c s => ?_) _ _) fun _ => rls_refl
  unfold AhoCorasick.findCntStep Release.AhoCorasick.findCntStep
  refine rls_bind rls_subU fun k => rls_bind rls_refl fun p => rls_bind rls_refl fun nd => rls_bind (rls_of_eq ?_) fun cnt =>
    rls_bind (rls_loop ?_ _ _) fun _ => rls_refl
  · cases nd.fin <;> rfl
  · rintro ⟨_ | x, cnt⟩
    · exact rls_refl
    · exact rls_refl

/-! ### Graphs -/

theorem dijkstra_rls (B : BinaryHeap (Nat ×ₗ Nat)ᵒᵈ) (g : List (List (Nat × Nat))) (s : Nat) :
    Rls (dijkstra B g s) (Release.dijkstra B g s) := by
  unfold dijkstra Release.dijkstra
  simp only
  refine rls_bind rls_refl fun dis => rls_loop ?_ _ _
  rintro ⟨dis, q⟩
  simp only
  rcases q.pop with ⟨_ | x, q⟩
  · exact rls_refl
  · simp only
    refine rls_bind rls_refl fun du => rls_ite (fun _ => rls_refl) fun _ => rls_bind rls_refl fun gu =>
      rls_bind (rls_forList ?_ _ _) fun _ => rls_refl
    rintro ⟨v, c⟩ ⟨dis, q⟩
    simp only
    rls

theorem dinicBfs_rls (d : Dinic) (s t : Nat) : Rls (d.bfs s t) (Release.Dinic.bfs d s t) := by
  unfold Dinic.bfs Release.Dinic.bfs
  simp only
  refine rls_bind rls_refl fun h => rls_bind (rls_loop ?_ _ _) ?_
  · rintro ⟨h, _ | ⟨u, q⟩⟩
    · exact rls_refl
    · simp only
      refine rls_bind rls_refl fun gu => rls_bind (rls_forBrk ?_ _ _) ?_
      · rintro i ⟨h, q⟩
        simp only
        rls
      · rintro (s | h) <;> exact rls_refl
  · rintro ⟨h, b⟩
    exact rls_refl

theorem dinicDfs_rls (ty : IntTy) : ∀ (fuel : Nat) (d : Dinic) (u t : Nat) (f : Int),
    Rls (Dinic.dfs ty fuel d u t f) (Release.Dinic.dfs ty fuel d u t f)
  | 0, _, _, _, _ => rls_refl
  | fuel + 1, d, u, t, f => by
    have ih := dinicDfs_rls ty fuel
    unfold Dinic.dfs Release.Dinic.dfs
    refine rls_ite (fun _ => rls_refl) fun _ => rls_bind rls_refl fun i => rls_bind rls_refl fun gu0 =>
      rls_bind (rls_loop ?_ _ _) ?_
    · rintro ⟨d, r, i⟩
      simp only
      refine rls_bind rls_refl fun gu => rls_ite (fun _ => ?_) fun _ => rls_refl
      refine rls_bind rls_refl fun j => rls_bind rls_refl fun e => rls_bind ?_ fun go => rls_bind ?_ ?_
      · rls
      · refine rls_ite (fun _ => rls_bind (ih ..) ?_) fun _ => rls_refl
        rintro ⟨d, a⟩
        simp only
        rls
      · rintro ⟨d, r, brk⟩
        exact rls_refl
    · rintro ⟨d, r⟩
      simp only
      rls

theorem getMaxFlow_rls (ty : IntTy) (d : Dinic) (s t : Nat) :
    Rls (d.getMaxFlow ty s t) (Release.Dinic.getMaxFlow ty d s t) := by
  unfold Dinic.getMaxFlow Release.Dinic.getMaxFlow
  refine rls_bind rls_refl fun _ => rls_bind rls_refl fun _ => rls_loop ?_ _ _
  rintro ⟨d, ans⟩
  simp only
  refine rls_bind (dinicBfs_rls ..) ?_
  rintro ⟨d, b⟩
  simp only
  refine rls_ite (fun _ => rls_bind (dinicDfs_rls ..) ?_) fun _ => rls_refl
  rintro ⟨d, a⟩
  simp only
  rls

theorem sccDfs_rls : ∀ (fuel u : Nat) (g : List (List Nat)) (s : SCC),
    Rls (SCC.dfs fuel u g s) (Release.SCC.dfs fuel u g s)
  | 0, _, _, _ => rls_refl
  | fuel + 1, u, g, s => by
    have ih := sccDfs_rls fuel
    unfold SCC.dfs Release.SCC.dfs
    refine rls_bind rls_refl fun order => rls_bind rls_refl fun low => rls_bind rls_ckI fun pos => rls_bind rls_refl fun on =>
      rls_bind rls_refl fun gu => rls_bind (rls_forList ?_ _ _) fun _ => rls_refl
    intro v s
    exact rls_bind rls_refl fun ov => rls_bind (rls_ite (fun _ => ih ..) fun _ => rls_refl) fun s => rls_refl

theorem scc_rls (g : List (List Nat)) : Rls (scc g) (Release.scc g) := by
  unfold scc Release.scc
  simp only
  refine rls_bind (rls_forRange fun i s _ _ => rls_bind rls_refl fun o => rls_ite (fun _ => sccDfs_rls ..)
    fun _ => rls_refl) fun s => rls_bind (rls_of_eq ?_) fun _ => rls_refl
  rfl

/-! ### Trees -/

section
variable {S F : Type}

theorem segMaxRight_rls (M : MonoidOps S) (t : Segtree S) (l : Nat) (f : S → Bool) :
    Rls (t.maxRight M l f) (Release.Segtree.maxRight M t l f) := by
  unfold Segtree.maxRight Release.Segtree.maxRight
  refine rls_bind rls_refl fun _ => rls_bind rls_refl fun _ => rls_ite (fun _ => rls_refl) fun _ => rls_loop ?_ _ _
  rintro ⟨l, sm⟩
  simp only
  refine rls_bind rls_refl fun l => rls_bind rls_refl fun x => rls_bind rls_refl fun y => rls_ite (fun _ => ?_) fun _ => rls_refl
  refine rls_bind rls_refl ?_
  rintro ⟨l, sm⟩
  simp only
  rls

theorem segMinLeft_rls (M : MonoidOps S) (t : Segtree S) (r : Nat) (f : S → Bool) :
    Rls (t.minLeft M r f) (Release.Segtree.minLeft M t r f) := by
  unfold Segtree.minLeft Release.Segtree.minLeft
  refine rls_bind rls_refl fun _ => rls_bind rls_refl fun _ => rls_ite (fun _ => rls_refl) fun _ => rls_loop ?_ _ _
  rintro ⟨r, sm⟩
  simp only
  refine rls_bind rls_subU fun r => rls_bind rls_refl fun r => rls_bind rls_refl fun x => rls_bind rls_refl fun y =>
    rls_ite (fun _ => ?_) fun _ => rls_refl
  refine rls_bind (rls_while (I := fun _ => True) ?_ (fun _ _ _ _ => trivial) _ _ trivial) ?_
  · rintro ⟨r, sm⟩ -
    simp only
    rls
  · rintro ⟨r, sm⟩
    simp only
    rls

theorem lazyMaxRight_rls (M : MapMonoidOps S F) (t : LazySegtree S F) (l : Nat) (g : S → Bool) :
    Rls (t.maxRight M l g) (Release.LazySegtree.maxRight M t l g) := by
  unfold LazySegtree.maxRight Release.LazySegtree.maxRight
  refine rls_bind rls_refl fun _ => rls_bind rls_refl fun _ => rls_ite (fun _ => rls_refl) fun _ =>
    rls_bind rls_refl fun t => rls_loop ?_ _ _
  rintro ⟨l, sm⟩
  simp only
  refine rls_bind rls_refl fun l => rls_bind rls_refl fun x => rls_bind rls_refl fun y => rls_ite (fun _ => ?_) fun _ => rls_refl
  refine rls_bind rls_refl ?_
  rintro ⟨l, sm, t⟩
  simp only
  rls

theorem lazyMinLeft_rls (M : MapMonoidOps S F) (t : LazySegtree S F) (r : Nat) (g : S → Bool) :
    Rls (t.minLeft M r g) (Release.LazySegtree.minLeft M t r g) := by
  unfold LazySegtree.minLeft Release.LazySegtree.minLeft
  refine rls_bind rls_refl fun _ => rls_bind rls_refl fun _ => rls_ite (fun _ => rls_refl) fun _ =>
    rls_bind rls_refl fun t => rls_loop ?_ _ _
  rintro ⟨r, sm⟩
  simp only
  refine rls_bind rls_subU fun r => rls_bind rls_refl fun r => rls_bind rls_refl fun x => rls_bind rls_refl fun y =>
    rls_ite (fun _ => ?_) fun _ => rls_refl
  refine rls_bind (rls_while (I := fun _ => True) ?_ (fun _ _ _ _ => trivial) _ _ trivial) ?_
  · rintro ⟨r, sm, t⟩ -
    simp only
    rls
  · rintro ⟨r, sm, t⟩
    simp only
    rls

theorem ufJoin_rls (u : UF) (x y : Nat) : Rls (u.join x y) (Release.UF.join u x y) := by
  unfold UF.join Release.UF.join
  refine rls_bind rls_refl fun _ => rls_bind rls_refl fun _ => rls_bind rls_refl ?_
  rintro ⟨fx, u⟩
  refine rls_bind rls_refl ?_
  rintro ⟨fy, u⟩
  simp only
  rls

theorem blDfs_rls : ∀ (fuel : Nat) (g : List (List Nat)) (u p : Nat) (t : BinaryLifting) (timer : Nat),
    Rls (BinaryLifting.dfs fuel g u p t timer) (Release.BinaryLifting.dfs fuel g u p t timer)
  | 0, _, _, _, _, _ => rls_refl
  | fuel + 1, g, u, p, t, timer => by
    have ih := blDfs_rls fuel
    unfold BinaryLifting.dfs Release.BinaryLifting.dfs
    refine rls_bind rls_refl fun tin => rls_bind rls_addU fun timer => rls_bind rls_refl fun row => rls_bind rls_refl fun row =>
      rls_bind rls_refl fun pa => rls_bind (rls_forRange fun i pa _ _ => ?_) fun pa => rls_bind rls_refl fun gu =>
      rls_bind (rls_forList ?_ _ _) ?_
    · rls
    · rintro v ⟨t, timer⟩
      simp only
      exact rls_ite (fun _ => rls_bind rls_refl fun du => rls_bind rls_addU fun d => rls_bind rls_refl fun dep => ih ..)
        fun _ => rls_refl
    · rintro ⟨t, timer⟩
      exact rls_refl

theorem blFrom_rls (g : List (List Nat)) (root : Nat) :
    Rls (BinaryLifting.from g root) (Release.BinaryLifting.from g root) := by
  unfold BinaryLifting.from Release.BinaryLifting.from
  simp only
  refine rls_bind (lg_rls _) fun level => rls_bind rls_addU fun level => rls_bind (blDfs_rls ..) ?_
  rintro ⟨t, timer⟩
  exact rls_refl

theorem blDis_rls (t : BinaryLifting) (u v : Nat) : Rls (t.dis u v) (Release.BinaryLifting.dis t u v) := by
  unfold BinaryLifting.dis Release.BinaryLifting.dis
  rls

theorem dfs1_rls : ∀ (fuel : Nat) (g : List (List Nat)) (u : Nat) (t : HArr),
    Rls (HArr.dfs1 fuel g u t) (Release.HArr.dfs1 fuel g u t)
  | 0, _, _, _ => rls_refl
  | fuel + 1, g, u, t => by
    have ih := dfs1_rls fuel
    unfold HArr.dfs1 Release.HArr.dfs1
    refine rls_bind rls_refl fun gu => rls_bind (rls_forList ?_ _ _) ?_
    · rintro v ⟨t, size, maxSize⟩
      simp only
      refine rls_bind rls_refl fun pu => rls_ite (fun _ => ?_) fun _ => rls_refl
      refine rls_bind rls_refl fun parent => rls_bind rls_refl fun du => rls_bind rls_addU fun d => rls_bind rls_refl fun dep =>
        rls_bind (ih ..) ?_
      rintro ⟨t, childSize⟩
      simp only
      rls
    · rintro ⟨t, size, _⟩
      exact rls_refl

theorem dfs2_rls : ∀ (fuel : Nat) (g : List (List Nat)) (u hd : Nat) (t : HArr) (timer : Nat),
    Rls (HArr.dfs2 fuel g u hd t timer) (Release.HArr.dfs2 fuel g u hd t timer)
  | 0, _, _, _, _, _ => rls_refl
  | fuel + 1, g, u, hd, t, timer => by
    have ih := dfs2_rls fuel
    unfold HArr.dfs2 Release.HArr.dfs2
    refine rls_bind rls_refl fun head => rls_bind rls_refl fun pos => rls_bind rls_addU fun timer =>
      rls_bind rls_refl fun v => rls_bind (rls_ite (fun _ => rls_bind rls_refl fun v => ih ..) fun _ => rls_refl) ?_
    rintro ⟨t, timer⟩
    simp only
    refine rls_bind rls_refl fun gu => rls_bind (rls_forList ?_ _ _) ?_
    · rintro v ⟨t, timer⟩
      simp only
      exact rls_bind rls_refl fun pu => rls_ite (fun _ => rls_bind rls_refl fun hc => rls_ite (fun _ => ih ..)
        fun _ => rls_refl) fun _ => rls_refl
    · rintro ⟨t, timer⟩
      exact rls_refl

theorem hldNew_rls (M : MapMonoidOps S F) (g : List (List Nat)) (root : Nat) :
    Rls (HLD.new M g root) (Release.HLD.new M g root) := by
  unfold HLD.new Release.HLD.new
  simp only
  refine rls_bind rls_refl fun _ => rls_bind rls_refl fun data => rls_bind rls_refl fun parent => rls_bind (dfs1_rls ..) ?_
  rintro ⟨t, size⟩
  refine rls_bind (dfs2_rls ..) ?_
  rintro ⟨t, timer⟩
  exact rls_refl

theorem hldWith_rls (M : MapMonoidOps S F) (g : List (List Nat)) (root : Nat) (v : List S) :
    Rls (HLD.withInitValue M g root v) (Release.HLD.withInitValue M g root v) :=
  rls_bind rls_refl fun _ => rls_bind (hldNew_rls ..) fun _ => rls_refl
end

end Verif.ReleaseP
