import Verif.Proof.ReleaseSame
import Verif.Props.InternalMath
import Verif.Props.AhoCorasick
/-! C87: release builds and debug builds. -/
namespace Verif.Props
open Model Spec Res ReleaseP

/-- **C87.** Number theory: unless the debug build panics, the release build does exactly the same. (`Rls x y` says
that `x` is a panic or `y` equals `x`.) -/
theorem C87_numbers :
    (∀ i, Rls (lg i) (Release.lg i)) ∧ (∀ n, Rls (ceilLg n) (Release.ceilLg n)) ∧
    (∀ ty a b, Rls (Model.lcm ty a b) (Release.lcm ty a b)) ∧
    (∀ ty a b, Rls (exGcd ty a b) (Release.exGcd ty a b)) ∧
    (∀ a b m, Rls (exCrt a b m) (Release.exCrt a b m)) ∧
    (∀ x m, Rls (safeMod x m) (Release.safeMod x m)) ∧
    (∀ a b m im, Rls (mulMod a b m im) (Release.mulMod a b m im)) ∧
    (∀ bt a b, Rls (Barrett.mul bt a b) (Release.Barrett.mul bt a b)) ∧
    (∀ x n m, Rls (powMod x n m) (Release.powMod x n m)) ∧
    (∀ n, Rls (isPrime n) (Release.isPrime n)) ∧
    (∀ a b, Rls (invGcd a b) (Release.invGcd a b)) ∧
    (∀ m, Rls (primitiveRoot m) (Release.primitiveRoot m)) :=
  ⟨lg_rls, ceilLg_rls, lcm_rls, exGcd_rls, exCrt_rls, safeMod_rls, mulMod_rls, barrettMul_rls, powMod_rls, isPrime_rls,
    invGcd_rls, primitiveRoot_rls⟩

/-- C87, modular integers and factorial tables. -/
theorem C87_modint (k : MKind) :
    (∀ a b, Rls (miAdd k a b) (Release.miAdd k a b)) ∧ (∀ a b, Rls (miMul k a b) (Release.miMul k a b)) ∧
    (∀ x n, Rls (miPow k x n) (Release.miPow k x n)) ∧ (∀ a, Rls (miInv k a) (Release.miInv k a)) ∧
    (∀ a b, Rls (miDiv k a b) (Release.miDiv k a b)) ∧ (∀ l, Rls (miSum k l) (Release.miSum k l)) ∧
    (∀ l, Rls (miProduct k l) (Release.miProduct k l)) ∧
    (∀ n, Rls (factorialNew k n) (Release.factorialNew k n)) ∧
    (∀ t n r, Rls (Factorial.choose t k n r) (Release.Factorial.choose t k n r)) ∧
    (∀ t n r, Rls (Factorial.perm t k n r) (Release.Factorial.perm t k n r)) :=
  ⟨miAdd_rls k, miMul_rls k, miPow_rls k, miInv_rls k, miDiv_rls k, miSum_rls k, miProduct_rls k, factorialNew_rls k,
    (choose_rls · k), (perm_rls · k)⟩

/-- C87, range structures. -/
theorem C87_ranges {T U S F : Type} :
    (∀ (add : T → T → Res T) zero a, Rls (Fenwick.from add zero a) (Release.Fenwick.from add zero a)) ∧
    (∀ (add : T → U → Res T) t i v, Rls (Fenwick.addAt add t i v) (Release.Fenwick.addAt add t i v)) ∧
    (∀ (add : T → T → Res T) zero t p,
      Rls (Fenwick.partitionPoint add zero t p) (Release.Fenwick.partitionPoint add zero t p)) ∧
    (∀ (M : MonoidOps S) t l f, Rls (Segtree.maxRight M t l f) (Release.Segtree.maxRight M t l f)) ∧
    (∀ (M : MonoidOps S) t r f, Rls (Segtree.minLeft M t r f) (Release.Segtree.minLeft M t r f)) ∧
    (∀ (M : MapMonoidOps S F) t l f, Rls (LazySegtree.maxRight M t l f) (Release.LazySegtree.maxRight M t l f)) ∧
    (∀ (M : MapMonoidOps S F) t r f, Rls (LazySegtree.minLeft M t r f) (Release.LazySegtree.minLeft M t r f)) :=
  ⟨fenwickFrom_rls, fenwickAddAt_rls, fenwickPartition_rls, segMaxRight_rls, segMinLeft_rls, lazyMaxRight_rls,
    lazyMinLeft_rls⟩

/-- C87, graphs and trees. -/
theorem C87_graphs {S F : Type} :
    (∀ B g s, Rls (dijkstra B g s) (Release.dijkstra B g s)) ∧
    (∀ ty d s t, Rls (Dinic.getMaxFlow ty d s t) (Release.Dinic.getMaxFlow ty d s t)) ∧
    (∀ g, Rls (scc g) (Release.scc g)) ∧
    (∀ u x y, Rls (UF.join u x y) (Release.UF.join u x y)) ∧
    (∀ g root, Rls (BinaryLifting.from g root) (Release.BinaryLifting.from g root)) ∧
    (∀ t u v, Rls (BinaryLifting.dis t u v) (Release.BinaryLifting.dis t u v)) ∧
    (∀ (M : MapMonoidOps S F) g root, Rls (HLD.new M g root) (Release.HLD.new M g root)) ∧
    (∀ (M : MapMonoidOps S F) g root v, Rls (HLD.withInitValue M g root v) (Release.HLD.withInitValue M g root v)) :=
  ⟨dijkstra_rls, getMaxFlow_rls, scc_rls, ufJoin_rls, blFrom_rls, blDis_rls, hldNew_rls, hldWith_rls⟩

/-- C87, strings. -/
theorem C87_strings :
    (∀ off N a s i, Rls (AhoCorasick.insert off N a s i) (Release.AhoCorasick.insert off N a s i)) ∧
    (∀ off N P, Rls (AhoCorasick.from off N P) (Release.AhoCorasick.from off N P)) ∧
    (∀ off a text, Rls (AhoCorasick.find off a text) (Release.AhoCorasick.find off a text)) ∧
    (∀ off a text, Rls (AhoCorasick.findAll off a text) (Release.AhoCorasick.findAll off a text)) ∧
    (∀ off a text, Rls (AhoCorasick.findCnt off a text) (Release.AhoCorasick.findCnt off a text)) :=
  ⟨ahoInsert_rls, ahoFrom_rls, ahoFind_rls, ahoFindAll_rls, ahoFindCnt_rls⟩

/-- C87: `is_prime` has no overflow at all: the release build decides primality of every `i32`. -/
theorem C87_is_prime (n : Int) (hn : i32.In n) :
    Release.isPrime n = isPrime n ∧ ∃ b, Release.isPrime n = ok b ∧ (b = true ↔ 0 ≤ n ∧ n.toNat.Prime) := by
  obtain ⟨b, e, hb⟩ := C39_is_prime n hn
  have := (isPrime_rls n).run e
  exact ⟨by rw [this, e], b, this, hb⟩

/-- C87: a sparse table behaves the same in both profiles, panics included: an empty slice makes `lg` wrap around in
a release build, but then building the second row reads outside the first; an empty range fails an assertion. -/
theorem C87_sparse {T : Type} (op : T → T → Res T) :
    (∀ v init, v.length < 2 ^ 64 → Release.SparseTable.from v init op = SparseTable.from v init op) ∧
    (∀ t l r, r < 2 ^ 64 → Release.SparseTable.get t op l r = SparseTable.get t op l r) :=
  ⟨fun v init => sparseFrom_same v init op, fun t => sparseGet_same t op⟩

/-- C87: in a release build the automaton works with the letters turned by `off`: byte `c` is letter
`(c - off) mod 256`. -/
theorem C87_aho_rotates (off N : Nat) (P : List (List Nat)) :
    Release.AhoCorasick.from off N P = AhoCorasick.from 0 N (P.map (List.map (rot off))) ∧
    ∀ a text, Release.AhoCorasick.find off a text = a.find 0 (text.map (rot off)) ∧
      Release.AhoCorasick.findAll off a text = a.findAll 0 (text.map (rot off)) ∧
      Release.AhoCorasick.findCnt off a text = a.findCnt 0 (text.map (rot off)) :=
  ⟨ahoFrom_rot off N P, fun _ _ => ⟨ahoFind_rot .., ahoFindAll_rot .., ahoFindCnt_rot ..⟩⟩

theorem rot_lt_iff {off N c : Nat} (hN : off + N ≤ 256) (hc : c < 256) : rot off c < N ↔ off ≤ c ∧ c < off + N := by
  unfold rot; split <;> omega

theorem inAlphabet_rot {off N : Nat} (hN : off + N ≤ 256) {w : List Nat} (hw : ∀ c ∈ w, c < 256) :
    InAlphabet 0 N (w.map (rot off)) ↔ InAlphabet off N w := by
  unfold InAlphabet
  simp only [List.mem_map, forall_exists_index, and_imp, forall_apply_eq_imp_iff₂, Nat.zero_le, true_and, Nat.zero_add]
  exact forall₂_congr fun c hc => rot_lt_iff hN (hw c hc)

/-- C87: if the alphabet ends by byte 255, both profiles agree on all patterns and texts: a byte outside the alphabet,
also one below `off`, makes the release build panic as well. -/
theorem C87_aho_same {off N : Nat} (hN : off + N ≤ 256) {P : List (List Nat)} {text : List Nat}
    (hPb : ∀ p ∈ P, ∀ c ∈ p, c < 256) (htb : ∀ c ∈ text, c < 256) :
    Release.AhoCorasick.from off N P = AhoCorasick.from off N P ∧
    ∀ a, AhoCorasick.from off N P = ok a →
      Release.AhoCorasick.find off a text = a.find off text ∧
      Release.AhoCorasick.findAll off a text = a.findAll off text ∧
      Release.AhoCorasick.findCnt off a text = a.findCnt off text := by
  have hgood : (∀ p ∈ P.map (List.map (rot off)), p ≠ [] ∧ InAlphabet 0 N p) ↔ ∀ p ∈ P, p ≠ [] ∧ InAlphabet off N p := by
    simp only [List.mem_map, forall_exists_index, and_imp, forall_apply_eq_imp_iff₂]
    refine forall₂_congr fun p hp => ?_
    rw [inAlphabet_rot hN (hPb p hp)]
    simp
  have h1 : Release.AhoCorasick.from off N P = AhoCorasick.from off N P := by
    by_cases hP : ∀ p ∈ P, p ≠ [] ∧ InAlphabet off N p
    · obtain ⟨a, _, e, -⟩ := C29_find_all (text := []) hP (by simp [InAlphabet])
      rw [e, (ahoFrom_rls off N P).run e]
    · rw [C29_bad_pattern_panics hP, ahoFrom_rot, C29_bad_pattern_panics (fun h => hP (hgood.1 h))]
  refine ⟨h1, fun a e => ?_⟩
  have hP : ∀ p ∈ P, p ≠ [] ∧ InAlphabet off N p := by
    by_contra hP
    rw [C29_bad_pattern_panics hP] at e; cases e
  by_cases ht : InAlphabet off N text
  · refine ⟨?_, ?_, ?_⟩
    · obtain ⟨a', _, e', e2, -⟩ := C31_find hP ht
      rw [e] at e'; cases e'
      rw [e2]; exact (ahoFind_rls ..).run e2
    · obtain ⟨a', _, e', e2, -⟩ := C29_find_all hP ht
      rw [e] at e'; cases e'
      rw [e2]; exact (ahoFindAll_rls ..).run e2
    · obtain ⟨a', _, e', e2, -⟩ := C30_find_cnt hP ht
      rw [e] at e'; cases e'
      rw [e2]; exact (ahoFindCnt_rls ..).run e2
  · obtain ⟨a', e', p1, p2, p3⟩ := C29_bad_text_panics hP ht
    rw [e] at e'; cases e'
    obtain ⟨a', e', q1, q2, q3⟩ := C29_bad_text_panics (hgood.2 hP) (fun h => ht ((inAlphabet_rot hN htb).1 h))
    rw [← ahoFrom_rot, h1, e] at e'; cases e'
    rw [ahoFind_rot, ahoFindAll_rot, ahoFindCnt_rot, p1, p2, p3, q1, q2, q3]
    exact ⟨rfl, rfl, rfl⟩

/-- The byte of a letter. -/
def unrot (off d : Nat) : Nat := (d + off) % 256

theorem unrot_rot {off c : Nat} (ho : off < 256) (hc : c < 256) : unrot off (rot off c) = c := by
  unfold rot unrot; split <;> omega

theorem map_unrot {off : Nat} (ho : off < 256) {w : List Nat} (hw : ∀ c ∈ w, c < 256) :
    (w.map (rot off)).map (unrot off) = w := by
  rw [List.map_map]
  conv_rhs => rw [← List.map_id w]
  exact List.map_congr_left fun c hc => unrot_rot ho (hw c hc)

theorem endsWith_rot {off : Nat} (ho : off < 256) {P : List (List Nat)} {w : List Nat}
    (hPb : ∀ p ∈ P, ∀ c ∈ p, c < 256) (hw : ∀ c ∈ w, c < 256) (j : Nat) :
    EndsWith (P.map (List.map (rot off))) (w.map (rot off)) j ↔ EndsWith P w j := by
  have hinj : ∀ p ∈ P, ∀ q ∈ P, p.map (rot off) = q.map (rot off) → p = q := by
    intro p hp q hq h
    rw [← map_unrot ho (hPb p hp), h, map_unrot ho (hPb q hq)]
  constructor
  · rintro ⟨p', h1, h2, h3⟩
    rw [List.getElem?_map, Option.map_eq_some_iff] at h1
    obtain ⟨p, hp, rfl⟩ := h1
    have hpm := List.mem_of_getElem? hp
    refine ⟨p, hp, ?_, fun k hk hk2 => h3 k hk (by rw [List.getElem?_map, hk2]; rfl)⟩
    have := h2.map (unrot off)
    rwa [map_unrot ho (hPb p hpm), map_unrot ho hw] at this
  · rintro ⟨p, hp, h2, h3⟩
    have hpm := List.mem_of_getElem? hp
    refine ⟨p.map (rot off), by rw [List.getElem?_map, hp]; rfl, h2.map _, fun k hk hk2 => ?_⟩
    rw [List.getElem?_map, Option.map_eq_some_iff] at hk2
    obtain ⟨q, hq, e⟩ := hk2
    rw [hinj q (List.mem_of_getElem? hq) p hpm e] at hq
    exact h3 k hk hq

/-- C87: with an alphabet that runs past byte 255 the release build searches correctly where the debug build panics:
the letters are the `N` bytes from `off` on, cyclically. -/
theorem C87_aho_find_all {off N : Nat} (ho : off < 256) {P : List (List Nat)} {text : List Nat}
    (hP : ∀ p ∈ P, p ≠ [] ∧ ∀ c ∈ p, c < 256 ∧ (c + 256 - off) % 256 < N)
    (ht : ∀ c ∈ text, c < 256 ∧ (c + 256 - off) % 256 < N) :
    ∃ a res, Release.AhoCorasick.from off N P = ok a ∧ Release.AhoCorasick.findAll off a text = ok res ∧
      res.length = text.length ∧
      ∀ (i : Nat) (row : List Nat), res[i]? = some row →
        (∀ j, j ∈ row ↔ EndsWith P (text.take (i + 1)) j) ∧
        row.Pairwise (fun j k => (P.getD k []).length < (P.getD j []).length) := by
  have hr : ∀ {w : List Nat}, (∀ c ∈ w, c < 256 ∧ (c + 256 - off) % 256 < N) → InAlphabet 0 N (w.map (rot off)) := by
    intro w hw c hc
    obtain ⟨d, hd, rfl⟩ := List.mem_map.1 hc
    have := hw d hd
    unfold rot; split <;> omega
  obtain ⟨a, res, e1, e2, hl, hres⟩ := C29_find_all (off := 0) (N := N) (P := P.map (List.map (rot off)))
    (text := text.map (rot off))
    (by
      intro p' hp'
      obtain ⟨p, hp, rfl⟩ := List.mem_map.1 hp'
      exact ⟨by simpa using (hP p hp).1, hr (hP p hp).2⟩) (hr ht)
  refine ⟨a, res, by rw [ahoFrom_rot, e1], by rw [ahoFindAll_rot, e2], by simpa using hl, fun i row hi => ?_⟩
  obtain ⟨h1, h2⟩ := hres i row hi
  refine ⟨fun j => ?_, h2.imp ?_⟩
  · rw [h1 j, ← List.map_take]
    exact endsWith_rot ho (fun p hp c hc => ((hP p hp).2 c hc).1)
      (fun c hc => (ht c (List.mem_of_mem_take hc)).1) j
  · intro j k h
    have hlen : ∀ i, ((P.map (List.map (rot off))).getD i []).length = (P.getD i []).length := by
      intro i
      rw [List.getD_eq_getElem?_getD, List.getD_eq_getElem?_getD, List.getElem?_map]
      cases P[i]? <;> simp
    rw [hlen, hlen] at h; exact h

/-- Alphabet of all 256 bytes with offset `b'a'`: `"A"` panics in a debug build, and is found in a release build. -/
example : AhoCorasick.from 97 256 [bytes "A"] = .panic ∧
    (do let a ← Release.AhoCorasick.from 97 256 [bytes "A"]
        Release.AhoCorasick.findAll 97 a (bytes "aAA")) = ok [[], [0], [0]] := by
  constructor <;> decide +kernel
/-- Where a byte is outside the alphabet, both profiles panic. -/
example : AhoCorasick.from 97 26 [bytes "A"] = .panic ∧ Release.AhoCorasick.from 97 26 [bytes "A"] = .panic := by
  constructor <;> decide +kernel
/-- The profiles do differ: the debug build panics, the release build returns a number. -/
example : ceilLg 0 = ok 0 ∧ lg 0 = .panic ∧ Release.lg 0 = ok (2 ^ 32 - 1) := by
  refine ⟨by decide, by decide, by decide⟩
example : Release.isPrime 2147483647 = ok true ∧ Release.isPrime (-2147483648) = ok false := by
  constructor <;> decide +kernel
end Verif.Props
