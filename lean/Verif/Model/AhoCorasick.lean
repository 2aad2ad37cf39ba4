import Verif.Prelude.Res
import Verif.Prelude.Int
/-! Model of `/repo/src/string/aho_corasick.rs`. The const parameters `OFFSET`, `N` are arguments
`off`, `N`; bytes are natural numbers. -/
namespace Verif.Model
open Res

/-- `/repo/src/string/aho_corasick.rs:1-7`, `struct Node`. -/
structure ACNode where
  back : Nat
  fin : Option Nat
  nmatches : Nat
  output : Option Nat
  next : List Nat
deriving DecidableEq

/-- `/repo/src/string/aho_corasick.rs:9-19`, `Node::new`. -/
def ACNode.new (N : Nat) : ACNode :=
  { back := 0, fin := none, nmatches := 0, output := none, next := List.replicate N 0 }

/-- `/repo/src/string/aho_corasick.rs:21-24`, `struct AhoCorasick`. -/
structure AhoCorasick where
  n : Nat
  nodes : List ACNode
deriving DecidableEq

namespace AhoCorasick

/-- `/repo/src/string/aho_corasick.rs:27-32`, `new`. -/
def new (N n : Nat) : AhoCorasick := { n := n, nodes := [ACNode.new N] }

/-- `self.nodes[p].next[c] = v`. -/
def setNext (nodes : List ACNode) (p c v : Nat) : Res (List ACNode) := do
  let nd ← idx nodes p
  let row ← upd nd.next c v
  upd nodes p { nd with next := row }

/-- `self.nodes[p].next[c]`. -/
def getNext (nodes : List ACNode) (p c : Nat) : Res Nat := do
  let nd ← idx nodes p
  idx nd.next c

/-- `/repo/src/string/aho_corasick.rs:43-56`, `insert`. The `+= 1` on `nmatches` cannot overflow
before the memory is exhausted; it is not checked. -/
def insert (off N : Nat) (a : AhoCorasick) (s : List Nat) (i : Nat) : Res AhoCorasick := do
  assert (s ≠ [])
  let (nodes, p) ← forList s ((a.nodes, 0) : List ACNode × Nat) fun c (nodes, p) => do
    let k ← subU c off
    let v ← getNext nodes p k
    let nodes ← (if v = 0 then do
        let nodes ← setNext nodes p k nodes.length
        ok (nodes ++ [ACNode.new N])
      else ok nodes : Res (List ACNode))
    let p ← getNext nodes p k
    ok (nodes, p)
  let nd ← idx nodes p
  let nodes ← upd nodes p { nd with fin := some i, nmatches := nd.nmatches + 1 }
  ok { a with nodes := nodes }

/-- `/repo/src/string/aho_corasick.rs:65-80`, the body of the queue loop for one vertex `u`. -/
def buildStep (N : Nat) (u : Nat) (s : List ACNode × List Nat) : Res (List ACNode × List Nat) :=
  forRange 0 N s fun i (nodes, q) => do
    let nu ← idx nodes u
    let fail ← getNext nodes nu.back i
    let v ← getNext nodes u i
    if v = 0 then do
      let nodes ← setNext nodes u i fail
      ok (nodes, q)
    else do
      let nv ← idx nodes v
      let nodes ← upd nodes v { nv with back := fail }
      let nf ← idx nodes fail
      let out := if nf.fin.isSome then some fail else nf.output
      let nv ← idx nodes v
      let nodes ← upd nodes v { nv with output := out }
      ok (nodes, q ++ [v])

/-- `/repo/src/string/aho_corasick.rs:58-81`, `build`, with a bound on the number of rounds of the queue loop. -/
def buildFuel (fuel N : Nat) (a : AhoCorasick) : Res AhoCorasick := do
  let q ← forRange 0 N ([] : List Nat) fun i q => do
    let v ← getNext a.nodes 0 i
    if v ≠ 0 then ok (q ++ [v]) else ok q
  let nodes ← loop fuel ((a.nodes, q) : List ACNode × List Nat) fun (nodes, q) =>
    match q with
    | [] => ok (.done nodes)
    | u :: q => do
      let s ← buildStep N u (nodes, q)
      ok (.next s)
  ok { a with nodes := nodes }

/-- `/repo/src/string/aho_corasick.rs:58-81`, `build`. Fuel: every vertex enters the queue at most
once. -/
def build (N : Nat) (a : AhoCorasick) : Res AhoCorasick := buildFuel (a.nodes.length + 1) N a

/-- `/repo/src/string/aho_corasick.rs:34-41`, `from`. -/
def «from» (off N : Nat) (patterns : List (List Nat)) : Res AhoCorasick := do
  let a ← forRange 0 patterns.length (new N patterns.length) fun i a => do
    let s ← idx patterns i
    insert off N a s i
  build N a

/-- `/repo/src/string/aho_corasick.rs:88-91`, the closure of `find` with its captured state `p`. -/
def findStep (off : Nat) (nodes : List ACNode) (c : Nat) (s : Nat × List (Option Nat)) :
    Res (Nat × List (Option Nat)) := do
  let k ← subU c off
  let p ← getNext nodes s.1 k
  let nd ← idx nodes p
  ok (p, s.2 ++ [nd.fin])

/-- `/repo/src/string/aho_corasick.rs:83-93`, `find`. -/
def find (off : Nat) (a : AhoCorasick) (text : List Nat) : Res (List (Option Nat)) := do
  let s ← forList text (0, []) (findStep off a.nodes)
  ok s.2

/-- `/repo/src/string/aho_corasick.rs:99-107`, one step of `find_all`: the entries for the state `p`.
`res[i]` is built as the list `r`. Fuel: output links lead to shorter strings. -/
def collect (nodes : List ACNode) (p : Nat) : Res (List Nat) := do
  let nd ← idx nodes p
  let r : List Nat := match nd.fin with
    | some x => [x]
    | none => []
  loop (nodes.length + 1) ((nd.output, r) : Option Nat × List Nat) fun (o, r) =>
    match o with
    | none => ok (.done r)
    | some x => do
      let nx ← idx nodes x
      let e ← unwrap nx.fin
      ok (.next (nx.output, r ++ [e]))

/-- `/repo/src/string/aho_corasick.rs:98-108`, the loop body of `find_all`. The rows of `res` are
produced in order, so `res[i].push(..)` into a preallocated vector is modelled by appending the
finished row. -/
def findAllStep (off : Nat) (nodes : List ACNode) (c : Nat) (s : Nat × List (List Nat)) :
    Res (Nat × List (List Nat)) := do
  let k ← subU c off
  let p ← getNext nodes s.1 k
  let r ← collect nodes p
  ok (p, s.2 ++ [r])

/-- `/repo/src/string/aho_corasick.rs:95-110`, `find_all`. -/
def findAll (off : Nat) (a : AhoCorasick) (text : List Nat) : Res (List (List Nat)) := do
  let s ← forList text (0, []) (findAllStep off a.nodes)
  ok s.2

/-- `cnt[x] += 1`; the count never exceeds the text length, so no overflow check is made. -/
def bump (cnt : List Nat) (x : Nat) : Res (List Nat) := do
  let c ← idx cnt x
  upd cnt x (c + 1)

/-- `/repo/src/string/aho_corasick.rs:115-125`, the loop body of `find_cnt`. -/
def findCntStep (off : Nat) (nodes : List ACNode) (c : Nat) (s : Nat × List Nat) :
    Res (Nat × List Nat) := do
  let k ← subU c off
  let p ← getNext nodes s.1 k
  let nd ← idx nodes p
  let cnt ← (match nd.fin with
    | some x => bump s.2 x
    | none => ok s.2 : Res (List Nat))
  let cnt ← loop (nodes.length + 1) ((nd.output, cnt) : Option Nat × List Nat) fun (o, cnt) =>
    match o with
    | none => ok (.done cnt)
    | some x => do
      let nx ← idx nodes x
      let e ← unwrap nx.fin
      let cnt ← bump cnt e
      ok (.next (nx.output, cnt))
  ok (p, cnt)

/-- `/repo/src/string/aho_corasick.rs:112-127`, `find_cnt`. -/
def findCnt (off : Nat) (a : AhoCorasick) (text : List Nat) : Res (List Nat) := do
  let s ← forList text (0, List.replicate a.n 0) (findCntStep off a.nodes)
  ok s.2

end AhoCorasick
end Verif.Model
