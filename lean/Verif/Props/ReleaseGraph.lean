import Verif.Proof.ReleaseFlow
import Verif.Props.Dinic
import Verif.Props.Dijkstra
/-! C90: maximum flow and shortest paths in a release build. -/
namespace Verif.Props
open Model Spec Res ReleaseP DinicP FlowP

/-- A history of calls on one `Dinic` in a release build. -/
def flowRunR (ty : IntTy) (d : Dinic) : List FlowOp → Res (List Int × Dinic)
  | [] => ok ([], d)
  | .addEdge u v c :: ops => do
    let d ← d.addEdge u v c
    flowRunR ty d ops
  | .maxFlow s t :: ops => do
    let (d, a) ← Release.Dinic.getMaxFlow ty d s t
    let (outs, d) ← flowRunR ty d ops
    ok (a :: outs, d)

/-- C90: one call. The answer is the value of a maximum flow, reduced to the type; the network is left with a maximum
flow, whether or not the answer overflows. -/
theorem C90_get_max_flow {ty : IntTy} {n : Nat} {N : List NEdge} {d : Dinic}
    (h : FlowRep ty n N d) (hmx : 0 < ty.mx) (hn : n < 2 ^ 31) {s t : Nat} (hs : s < n) (ht : t < n) :
    ∃ d' w v x, Release.Dinic.getMaxFlow ty d s t = ok (d', w) ∧ ty.In w ∧ (2 : Int) ^ ty.bits ∣ w - v ∧
      w = Release.wrap ty v ∧ IsMaxFlow N s t v ∧ (s ≠ t → IsMinCut N s t v) ∧
      IsFlow N s t x ∧ netOut N x s = v ∧ FlowRep ty n (residual N x) d' := by
  have hnv := h.nv
  obtain ⟨⟨d', w⟩, e, v, hw, h1, h2, h3, h4, h5, h6, h7⟩ := release_loop_sat (t := t) h.st h.cap h.fits hmx
    (by omega) (by omega : s < d.n) (by omega)
  simp only at hw
  subst hw
  refine ⟨d', _, v, flowOf N d', e, Release.wrap_in .., ?_, rfl, h6, h7, h4, h5, flowRep_residual h h1 h2⟩
  rw [← md_eq]
  · exact dvd_wrap ..
  · by_contra hc
    have : ty.bits = 0 := by omega
    unfold IntTy.mx at hmx
    rw [this] at hmx
    split at hmx <;> norm_num at hmx

theorem flowRunR_sat {ty : IntTy} {n : Nat} (hmx : 0 < ty.mx) (hn : n < 2 ^ 31) :
    ∀ (ops : List FlowOp) (N : List NEdge) (d : Dinic), FlowRep ty n N d →
    (∀ o ∈ ops, o.Pre n ∧ o.cap ≤ ty.mx) →
    Sat (flowRunR ty d ops) (fun r => ∃ vs, r.1 = vs.map (Release.wrap ty) ∧ FlowRunOk N ops vs) := by
  intro ops
  induction ops with
  | nil =>
    intro N d h _
    rw [flowRunR, sat_ok]
    exact ⟨[], rfl, trivial⟩
  | cons o ops ih =>
    intro N d h hp
    have hp1 := hp o (List.mem_cons_self ..)
    have hp2 : ∀ o ∈ ops, o.Pre n ∧ o.cap ≤ ty.mx := fun o ho => hp o (List.mem_cons_of_mem _ ho)
    cases o with
    | addEdge u v c =>
      obtain ⟨⟨hu, hv, hc⟩, hcm⟩ := hp1
      rw [flowRunR, sat_bind]
      refine (flowAdd_sat h hu hv hc hcm).mono fun d' h' => ?_
      exact ih _ d' h' hp2
    | maxFlow s t =>
      obtain ⟨⟨hs, ht⟩, -⟩ := hp1
      obtain ⟨d', w, v, x, e, -, -, hw, h1, h2, h3, h4, h5⟩ := C90_get_max_flow h hmx hn hs ht
      rw [flowRunR, e, ok_bind, sat_bind]
      refine (ih _ d' h5 hp2).mono ?_
      rintro ⟨as', d''⟩ ⟨vs, h6, h7⟩
      simp only at h6
      subst h6
      simp only [sat_ok]
      exact ⟨v :: vs, by rw [hw]; rfl, h1, x, h3, h4, h7⟩

/-- **C90.** Any sequence of `add_edge` (in range, non-negative capacities) and `get_max_flow` after `new(n)`, in a release
build: it runs to the end whatever the sums of the capacities, and every answer is the maximum flow value of what the
earlier calls left, reduced to the type. The flows themselves are right even after an answer that overflowed. -/
theorem C90_history (ty : IntTy) (hmx : 0 < ty.mx) (n : Nat) (hn : n < 2 ^ 31) (ops : List FlowOp)
    (hp : ∀ o ∈ ops, o.Pre n ∧ o.cap ≤ ty.mx) :
    ∃ outs d vs, flowRunR ty (Dinic.new n) ops = ok (outs, d) ∧ outs = vs.map (Release.wrap ty) ∧ FlowRunOk [] ops vs := by
  obtain ⟨⟨outs, d⟩, e, vs, h⟩ := flowRunR_sat hmx hn ops [] _ (flowRep_new ty n) hp
  exact ⟨outs, d, vs, e, h⟩

/-- `u8` capacities 200 and 100 between the same vertices: the debug build panics; the release build answers
`300 - 256 = 44`, and the second call finds nothing left. -/
example : flowRun ⟨false, 8⟩ (Dinic.new 2) [.addEdge 0 1 200, .addEdge 0 1 100, .maxFlow 0 1, .maxFlow 0 1] = .panic ∧
    (flowRunR ⟨false, 8⟩ (Dinic.new 2) [.addEdge 0 1 200, .addEdge 0 1 100, .maxFlow 0 1, .maxFlow 0 1] >>=
      fun r => ok r.1) = ok [44, 0] := by
  decide +kernel

/-- C90: `dijkstra` in a release build may return a distance that is too small, even if all distances fit: with edges
`0 → 1` of length `2^64 - 1`, `1 → 2` of length `2` and `0 → 2` of length `5`, vertex `2` has distance `5`, and the
release build returns `1`; the debug build panics. -/
theorem C90_dijkstra_wrong :
    IsDist [[(1, 2 ^ 64 - 1), (2, 5)], [(2, 2)], []] 0 2 5 ∧
    dijkstra (listHeap (Nat ×ₗ Nat)ᵒᵈ) [[(1, 2 ^ 64 - 1), (2, 5)], [(2, 2)], []] 0 = .panic ∧
    Release.dijkstra (listHeap (Nat ×ₗ Nat)ᵒᵈ) [[(1, 2 ^ 64 - 1), (2, 5)], [(2, 2)], []] 0 =
      ok [some 0, some (2 ^ 64 - 1), some 1] := by
  refine ⟨?_, by decide +kernel, by decide +kernel⟩
  refine ⟨Walk.snoc (g := [[(1, 2 ^ 64 - 1), (2, 5)], [(2, 2)], []]) (u := 0) (v := 2) (w := 0) (c := 5) .nil (by simp), fun w hw => ?_⟩
  have key : ∀ v w, Walk [[(1, 2 ^ 64 - 1), (2, 5)], [(2, 2)], []] 0 v w → (v = 1 → 5 ≤ w) ∧ (v = 2 → 5 ≤ w) := by
    intro v w hw
    induction hw with
    | nil => omega
    | @snoc u v w c _ hm ih =>
      rcases u with _ | _ | _ | u
      · simp at hm; omega
      · simp at hm; omega
      · simp at hm
      · simp at hm
  exact (key 2 w hw).2 rfl
end Verif.Props
