import Verif.Proof.Release
import Verif.Props.Util
/-! Functions that behave the same in both profiles, and Aho–Corasick with wrapped letters. -/
namespace Verif.ReleaseP
open Model Res

theorem eq_of_rls {α : Type} {x y : Res α} (h : Rls x y) (h' : Rls y x) : y = x := by
  rcases h with h | h
  · rcases h' with h' | h'
    · rw [h, h']
    · exact h'.symm
  · exact h

theorem forRange_first {σ : Type} {f : Nat → σ → Res σ} {lo hi : Nat} {s : σ} (h : lo < hi) (hf : f lo s = panic) :
    forRange lo hi s f = panic := by
  unfold forRange
  obtain ⟨k, hk⟩ : ∃ k, hi - lo = k + 1 := ⟨hi - lo - 1, by omega⟩
  rw [hk]
  unfold forCount
  rw [hf]; rfl

theorem lg_same {n : Nat} (h0 : 1 ≤ n) (h : n < 2 ^ 64) : ∃ k, lg n = ok k ∧ Release.lg n = ok k ∧ 2 ^ k ≤ n := by
  obtain ⟨k, e, h1, -⟩ := Props.C01_lg n h0 h
  exact ⟨k, e, (lg_rls n).run e, h1⟩

theorem lg_zero_release : ∃ k, Release.lg 0 = ok k ∧ 1 ≤ k := by
  refine ⟨63 + 2 ^ 32 - 64, ?_, by norm_num⟩
  unfold Release.lg
  unfold Release.subU
  rw [ok_bind]
  rw [show leadingZeros 64 0 = 64 from rfl]
  rw [if_neg (by decide)]
  rfl

theorem subU_release (w a b : Nat) : ∃ c, Release.subU w a b = ok c := ⟨_, rfl⟩

theorem rls_subU_rev {w a b : Nat} (h : b ≤ a) : Rls (Release.subU w a b) (subU a b) := by
  unfold subU Release.subU
  rw [if_pos h, if_pos h]; exact rls_refl

section
variable {T : Type}

theorem sparseFrom_nil (init : T) (op : T → T → Res T) {k : Nat} (ek : Release.lg 0 = ok k) (hk : 1 ≤ k) :
    Release.SparseTable.from [] init op = panic := by
  unfold Release.SparseTable.from
  simp only [List.length_nil, ek, ok_bind]
  rw [upd_of_lt (by simp), ok_bind, forRange_first (by omega)]
  · rfl
  · obtain ⟨b, eb⟩ := subU_release 64 0 (1 <<< (1 % 64))
    rw [eb, ok_bind]
    refine forRange_first (by omega) ?_
    have : ∀ (d : List (List T)) (i : Nat), d[i]? = some [] → ∀ f : List T → T → Res (List (List T)),
        (idx d i >>= fun row => idx row 0 >>= f row) = panic := by
      intro d i hd f
      rw [idx_of_some hd, ok_bind]; rfl
    exact this _ _ (by rw [Nat.sub_self, List.getElem?_set_self (by simp)]) _

theorem sparseFrom_same (v : List T) (init : T) (op : T → T → Res T) (hv : v.length < 2 ^ 64) :
    Release.SparseTable.from v init op = SparseTable.from v init op := by
  by_cases h0 : v = []
  · subst h0
    have e : SparseTable.from [] init op = panic := by
      unfold SparseTable.from
      simp only [List.length_nil, Props.C01_lg_zero]; rfl
    rw [e]
    obtain ⟨k, ek, hk⟩ := lg_zero_release
    exact sparseFrom_nil init op ek hk
  · have h1 : 1 ≤ v.length := List.length_pos_iff.2 h0
    refine eq_of_rls (sparseFrom_rls v init op) ?_
    obtain ⟨k, e1, e2, hk⟩ := lg_same h1 hv
    unfold SparseTable.from Release.SparseTable.from
    simp only
    rw [e1, e2, ok_bind, ok_bind]
    refine rls_bind rls_refl fun data => rls_bind (rls_forRange fun c data c1 c2 => ?_) fun _ => rls_refl
    have hk64 := lg_lt e1
    have hp : 2 ^ c ≤ v.length := le_trans (Nat.pow_le_pow_right (by omega) (show c ≤ k by omega)) hk
    rw [Nat.mod_eq_of_lt (show c < 64 by omega), Nat.mod_eq_of_lt (show c - 1 < 64 by omega)]
    exact rls_bind (rls_subU_rev (by rw [Nat.shiftLeft_eq, Nat.one_mul]; exact hp)) fun _ => rls_refl

theorem sparseGet_same (t : SparseTable T) (op : T → T → Res T) (l r : Nat) (hr : r < 2 ^ 64) :
    Release.SparseTable.get t op l r = t.get op l r := by
  by_cases h : l < r
  · refine eq_of_rls (sparseGet_rls t op l r) ?_
    obtain ⟨k, e1, e2, hk⟩ := lg_same (n := r - l) (by omega) (by omega)
    unfold SparseTable.get Release.SparseTable.get
    rw [e1, e2, ok_bind, ok_bind, Nat.mod_eq_of_lt (lg_lt e1)]
    exact rls_bind rls_refl fun _ => rls_bind rls_refl fun _ => rls_bind rls_refl fun _ =>
      rls_bind (rls_subU_rev (by rw [Nat.shiftLeft_eq, Nat.one_mul]; omega)) fun _ => rls_refl
  · unfold SparseTable.get Release.SparseTable.get
    rw [assert_false h]; rfl
end

/-! ### Letters that wrap around -/

/-- The index of a byte in a release build. -/
def rot (off c : Nat) : Nat := if off ≤ c then c - off else c + 256 - off

theorem subU_rot (off c : Nat) : Release.subU 8 c off = ok (rot off c) := rfl
theorem subU_zero (c : Nat) : subU c 0 = ok c := by unfold subU; rw [if_pos (Nat.zero_le _)]; rfl

theorem forList_map {α β σ : Type} (h : α → β) (f : β → σ → Res σ) : ∀ (l : List α) (s : σ),
    forList (l.map h) s f = forList l s fun x => f (h x)
  | [], _ => rfl
  | x :: xs, s => by
    rw [List.map_cons, forList_cons, forList_cons]
    congr 1
    funext s'
    exact forList_map h f xs s'

theorem ahoInsert_rot (off N : Nat) (a : AhoCorasick) (s : List Nat) (i : Nat) :
    Release.AhoCorasick.insert off N a s i = AhoCorasick.insert 0 N a (s.map (rot off)) i := by
  unfold AhoCorasick.insert Release.AhoCorasick.insert
  have : (s.map (rot off) ≠ []) = (s ≠ []) := by simp
  simp only [this, forList_map, subU_rot, subU_zero, ok_bind]

theorem ahoFrom_rot (off N : Nat) (P : List (List Nat)) :
    Release.AhoCorasick.from off N P = AhoCorasick.from 0 N (P.map (List.map (rot off))) := by
  unfold AhoCorasick.from Release.AhoCorasick.from
  rw [List.length_map]
  congr 2
  funext i a
  cases h : P[i]? with
  | none =>
    rw [idx_panic (by simpa using h), idx_panic (by simpa using h)]; rfl
  | some p =>
    rw [idx_of_some h, ok_bind, idx_of_some (a := p.map (rot off)) (by rw [List.getElem?_map, h]; rfl), ok_bind]
    exact ahoInsert_rot ..

theorem ahoFind_rot (off : Nat) (a : AhoCorasick) (text : List Nat) :
    Release.AhoCorasick.find off a text = a.find 0 (text.map (rot off)) := by
  unfold AhoCorasick.find Release.AhoCorasick.find AhoCorasick.findStep Release.AhoCorasick.findStep
  simp only [forList_map, subU_rot, subU_zero, ok_bind]

theorem ahoFindAll_rot (off : Nat) (a : AhoCorasick) (text : List Nat) :
    Release.AhoCorasick.findAll off a text = a.findAll 0 (text.map (rot off)) := by
  unfold AhoCorasick.findAll Release.AhoCorasick.findAll AhoCorasick.findAllStep Release.AhoCorasick.findAllStep
  simp only [forList_map, subU_rot, subU_zero, ok_bind]

theorem ahoFindCnt_rot (off : Nat) (a : AhoCorasick) (text : List Nat) :
    Release.AhoCorasick.findCnt off a text = a.findCnt 0 (text.map (rot off)) := by
  unfold AhoCorasick.findCnt Release.AhoCorasick.findCnt
  rw [forList_map]
  unfold AhoCorasick.findCntStep Release.AhoCorasick.findCntStep
  simp only [subU_rot, subU_zero, ok_bind]
  rfl

theorem rot_inj {off c c' : Nat} (ho : off < 256) (hc : c < 256) (hc' : c' < 256) (h : rot off c = rot off c') : c = c' := by
  unfold rot at h
  split at h <;> split at h <;> omega

end Verif.ReleaseP
