# Formal model of thallium/cp-algo-rust in Lean 4

## 1. Method

The Rust sources in `/repo/src` are modelled function by function as total, executable Lean
definitions in the *result monad* `Res` (`Verif/Prelude/Res.lean`):

* `ok a` – the Rust call returns `a`;
* `panic` – the Rust call panics: out-of-bounds index, failed `assert!`, `unwrap()` on `None`,
  arithmetic overflow (debug-profile semantics, i.e. overflow checks on), division by zero, `todo!()`;
  release builds, where overflow wraps around and `debug_assert!` is absent, are in `Model/Release.lean` (C87–C91);
* `diverge` – the fuel of a `while`/`loop`/recursive function ran out.

`Vec<T>` is `List`, `&mut self` becomes a returned new value, `for` is `Res.forRange`/`Res.forList`,
`while`/`loop` and recursion take fuel. Every property theorem concludes `= ok …` (or `Sat`, i.e.
`∃ a, r = ok a ∧ P a`), so absence of panics and termination are *part of* every theorem: a fuel that is too
small would make the theorem false, never vacuously true.

Layout, per topic `X`:

* `Verif/Model/X.lean` – the model. Every definition cites file and lines.
* `Verif/Spec/X.lean` – the small independent specification (plain lists, walks, matchings, …), no reference to
  the model.
* `Verif/Proof/X.lean` – lemmas and invariants.
* `Verif/Props/X.lean` – the property theorems and, beside each one, an `example` showing that its hypotheses are met
  by a concrete non-trivial case.
* `Verif/Tests/X.lean` – checks of the model itself, evaluated by the kernel: the unit tests of `/repo` replayed on the
  model, and comparisons with brute-force definitions on small inputs. No theorem depends on them; they guard against
  slips in the transcription and give concrete failures in mutation testing.

## 2. Trusted base

* Lean 4.33.0's kernel.
* Axioms: at most `propext`, `Classical.choice`, `Quot.sound`. No `sorry`, no `native_decide`, no `bv_decide`,
  no axioms of our own.
* Faithfulness of the hand-written model to the Rust text (no code is run here); each definition cites the lines it models.
* `std` behaviour assumed: `Vec` (indexing, push, fill), `VecDeque` as a FIFO queue, `BinaryHeap` as *any*
  structure satisfying an explicit interface (multiset, pop returns a maximum) – an interface instance is exhibited,
  `slice::clone_from_slice`, `str::split_whitespace`, `char::is_whitespace`, `from_str` of the integer types, `SeqCst`
  atomics as sequentially consistent cells, integer primitive operations.

Simplifications that apply everywhere:

* `usize` is 64-bit (32-bit targets: C92, `Model/Width.lean`). Index arithmetic bounded by a `Vec` length is done in `Nat` without an overflow check (a `Vec`
  never has more than `isize::MAX` elements); where the code uses wrapping/bit tricks the 64-bit
  behaviour is modelled exactly and the theorem carries the bound `n < 2^63`.
* `Clone`/`Copy`/references are value copies. Operations supplied by the user (`Monoid`, `MapMonoid`) are
  deterministic functions that may panic; predicates passed by the user are total functions
  (except in C68, where they have a state and may panic).
* Stack exhaustion and allocation failure are not modelled. How many calls are nested is stated for every recursive
  function (C93 for the graph searches, with the limit as a parameter in `Model/Depth.lean`; C72 for `find`, C58 for `ex_gcd`).
* Generic numeric element types (`T` in `FenwickTree`) are modelled as abstract algebraic structures with operations that may panic. `Add` and `AddAssign` of
  such a `T` are one operation; a type whose `+` and `+=` differ is outside the model.

## 3. Plan per property

| Id | Model | How it is proved |
|----|-------|------------------|
| C01 | `lg`, `ceil_lg` with `leading_zeros` on 64/32 bits and checked subtraction | characterise `Nat.log2` |
| C02 | Fenwick `new/from/add/pref/sum`, index walk by `x & -x` on 64-bit | each cell is the sum of its block `(i-lowbit i, i]`; induction on the walk; refinement to a plain list over any history |
| C03 | `partition_point`, `search` | binary-descent invariant on prefix sums |
| C04 | segment tree `from/set/get/prod/all_prod` over an abstract monoid | heap-shape invariant `d[k] = d[2k]*d[2k+1]`; node = product of its leaf block; loop invariants |
| C05, C06 | `max_right`, `min_left` loops | loop invariants on (node, accumulated product) |
| C07, C08 | lazy segment tree, all operations | value of a leaf = pending maps of its ancestors applied; push/update preserve the abstract array; refinement over operation histories |
| C09 | sparse table build and query | table entry = fold of block; overlap by idempotence |
| C10–C13 | union-find exactly as written (joins use `x`,`y`, not the roots) | forest invariant with a rank; C10 and C12 are FALSE of the code: negation by concrete history, `_partial` theorems for histories that join representatives only, `_exact` theorems that these are all the good histories, and the effect of a join in any history |
| C14 | `MinHeap` over any `BinaryHeap` satisfying an interface | refinement to multisets |
| C15 | `dijkstra` with that heap, checked 64-bit additions | settled/tentative invariant, termination measure |
| C16, C17 | `from/dfs/is_ancestor/lca/dis` | structural induction on rooted trees (rose trees) represented by the adjacency list |
| C18 | Kuhn's algorithm exactly as written | matching invariant, failing phase gives a König cover |
| C19, C20 | Dinic exactly as written (integers with a type maximum) | residual invariant, blocking argument, max-flow = min-cut |
| C21, C22 | Tarjan with `low` updated by `low` | white-path style invariant by induction on the dfs |
| C23–C26 | HLD on top of the lazy segment tree model | rooted-tree induction, chains; C26 is FALSE of the code (order): counterexample, and the exact set of paths in order (`C26_exact`) |
| C53 | the chain decomposition of HLD | subtree sizes at least double across a light edge |
| C27, C28 | `kmp`, `z_function` | border / Z-box invariants |
| C29–C31 | trie insertion, BFS build, searches | trie ↔ prefixes, fail link = longest proper suffix |
| C54 | `build` with an arbitrary number of rounds | every round keeps a vertex with a non-root link in the queue |
| C32–C35 | `gcd`, `lcm`, `ex_gcd`, `ex_crt`, checked arithmetic | Euclid induction, coefficient bounds |
| C36–C41 | `internal_math.rs` | modular arithmetic, Barrett error bound, Fermat, orders in `ZMod p` |
| C42–C48 | `modint.rs` on u32/u64/u128 wrap-around arithmetic | refinement to integers mod m; interleaving semantics for the two atomics |
| C49 | `Factorial` | over prime moduli |
| C50 | the four monoids on machine integers | case analysis |
| C51 | tokenizer and reader state | list induction |
| C52 | closure bodies as interaction trees | determinism of the evaluation, fuel monotonicity |
| C55 | expansions of `de!` in both build profiles, expressions as state transformers | induction on the expression list |
| C56 | results of `kmp` and `z_function` | borders are periods and common prefixes |
| C57, C58, C59, C53 | `Model/Cost.lean`, `Model/CostHLD.lean`: copies that count loop rounds; forgetting the count gives the function (`*_fst`), and the count itself is characterised exactly from the input | potential functions; Lamé; lowest set bit |
| C60 | `Spec/FlowMatching.lean`: the unit network, vertex covers | integral flows of the unit network ↔ matchings; the visited set of the last phase gives a cover of the size of the matching |
| C61, C62 | `Model/Modint.lean`; `Spec/ModExpr.lean`: expressions and their value in `ZMod m` | Barrett product for all `u32` operands; induction on the expression |
| C63 | `Spec/LazyDebug.lean`: the table as text, maps of ancestors | the invariant of C07, read off the table |
| C64 | `Spec/LazyRefine.lean`: representation relation, operations may panic | two runs of the same program with related data (`Prelude/Sim.lean`), against C07 and C23 |
| C65 | `Spec/LazyBound.lean`: measures, bounds of the elements after each call | potential of a node (its measure plus the measures of the maps pending above it) at most the bound of a leaf below it; run compared with the abstract one |
| C66 | `Model/CostDinic.lean`: copies that count arcs and rounds | levels of one search bound the distance to the sink after the blocking search, so each phase makes it grow; every `i += 1` moves one current-edge pointer, every `break` ends a path of pointers; on the ladder (a path through all vertices and a short cut of capacity 1 to the sink from each) every phase pushes one unit |
| C67 | `PosEq` (two positions compare equal) | kmp: replace every element by the first position comparing equal to it and use C27, since a position is never compared with itself; z: the proof of C28 with transitivity |
| C68 | `Answers`: a closure with a state answers on given arguments | the proofs of C05, C06, C08, C03 again, with the closure's state and the number of its calls in the invariant |
| C69 | `Spec/LazyFit.lean`: log of the maps applied to each position, `Fine` | pushes and updates only happen where nothing is pending above, so every value computed is a product of a range of the present list; the maps pending on the lower part of a root path compose to the latest maps logged for the leaf (`HK`); run compared with the one whose operations check that results fit |
| C70 | `Model/CostDijkstra.lean`: copy of `dijkstra` with its work | the proof of C15 with the counts in the invariant; a vertex is expanded only while exactly one heap entry carries its distance |
| C71 | `HOp.key`, `HOut.key`: the history on keys | the multiset semantics is mapped to keys, where C14 says it is deterministic |
| C72 | `up`: following links | induction on the way to the root; the chain state in closed form |
| C73 | `Spec/SparseTable.lean`: balanced product of a block | rows of the table hold the blocks; overlap by idempotence |
| C74 | `ExactAdd`, `segSum` in `Spec/Fenwick.lean` | the invariants of C02 with the set of sums computed so far; `SatOr` |
| C75 | `Model/ModintTypes.lean`; `fieldValue`, `idValues` in `Spec/ModExpr.lean` | primality by C39 and evaluation of `is_prime`; C62 |
| C76 | `Spec/SegtreeAny.lean`: products of aligned blocks, bracketing of a query | nodes hold the blocks; loop invariant over the levels |
| C77 | `Spec/FlowAny.lean`: clipped calls, histories with the network they leave | simulation of runs that differ on edges never used |
| C78 | `Spec/NumberTheory.lean`: integer solutions of the system | loop invariant: `x` smaller in size than `l`, and the solution set |
| C79 | `Spec/TreeAny.lean`: cycles, connected vertices, walks that do not turn back | walks that do not turn round are bounded iff there is no cycle; the component is completed to a tree by leaves below the root |
| C80 | `Spec/TreeAny.lean`, `Spec/HLD.lean` | the component is completed to a tree by leaves below the root; the searches and climbs cannot tell the difference |
| C81 | `Spec/Eff.lean` | simulation: forgetting the state commutes with every step |
| C82 | `Spec/Eff.lean` | levels of the tree; invariants that count taken nodes per level |
| C83 | `Spec/AhoCorasick.lean` | the trie invariant; find_all and find_cnt in step; the transition function of the built automaton |
| C84 | `Spec/AhoCorasick.lean` | finished nodes as a finite set that grows by one per round; distinct lengths |
| C85 | `Props/CostGraph.lean` (`matchRunCost`) | degrees of the vertices marked in a round as a potential; every round but the last enlarges the matching |
| C86 | `Props/CostGraph.lean` | entered vertices and their degrees as potentials; the stack is empty at the end |
| C87 | `Prelude/Rls.lean` (`Rls`) | the two texts compared statement by statement; for Aho-Corasick by turning the letters |
| C88 | `Props/ReleaseNum.lean` | the extended Euclid invariant as a congruence; a wrapped product is smaller than the product |
| C89 | `Spec/Fenwick.lean`, `Spec/LazyRefine.lean` | reduction to the type is a homomorphism; a simulation in which neither side may panic, then C87 |
| C90 | `Props/ReleaseGraph.lean` (`flowRunR`) | the invariant of C46 with the answer up to reduction; single augmentations never overflow |
| C91 | `Props/ReleaseNum.lean` | Fermat's little theorem; 64-bit products of residues do not overflow |
| C92 | `Spec/Width.lean`, `Spec/Tree.lean`, `Spec/Dijkstra.lean` | the proofs of C15 to C17 with the width as a parameter; for the sparse table, the first row that does not fit |
| C93 | `Spec/Depth.lean`, `Spec/TreeAny.lean` | one more level changes nothing once the run ends; unmarked vertices, levels and path lengths bound the depth; the runs on paths and chains are followed step by step |
| C94 | `Spec/LazyLeaf.lean`, `Spec/HLD.lean` | the run next to one over words, on which the maps act letter by letter: same control flow, same pending maps, leaves hold one-letter words; searches push nodes, which keeps the elements |
| C95 | `Spec/TwoTrees.lean` | a push with only identity maps pending returns the same tree, so the two programs run in step |
| C96 | `Props/Agree.lean` (`sumMonoid`, `segAdds`, `addMaps`, `diffs`, `unitWeights`) | both sides equal the same independent specification, proved under C02, C04, C08, C09, C15, C16, C21, C23, C27 to C30, C40, C56 and others |
| C97 | `Props/HLDFit.lean` (`HTotalFits`, `HUnitOp`), `Spec/HLD.lean` | the operations with an explicit fit test run without a panic on the representation in which every value is at least the additions made to it; simulation with the operations of u{w} (C65, C69) |
| C98 | `Spec/FlowPaths.lean` (`EWalk`, `IsMaxPacking`, `IsMinSeparator`, `Separates`) | the last bfs of get_max_flow levels exactly the vertices reachable in the residual network of a maximum flow; flow decomposition by strong induction on the total flow, a walk exists while the value is positive; a minimum cut is tight, so residual steps cannot leave it |
| C99 | `Spec/MatchDuality.lean` (`nbrs`, `IsMaxIndep`, `IsMinEdgeCover`) | from the least vertex cover of C60; for the first round an invariant of its loop: visited vertices are matched or have been tried, and unmatched ones that have been tried see only matched vertices |
| C100 | `Spec/TwoSat.lean` (`implGraph`, `SatAll`, `Acyclic`) | from C21 and C22: an unsatisfied clause would give two strictly decreasing chains of colours; truth is carried along implications |
| C101 | `Spec/Tree.lean` (`IsPath`, `IsTreeDist`, `IsLca`) | from C17: distance is the sum of depths less twice that of the lowest common ancestor; the depths of the three common ancestors satisfy the ultrametric inequality |
| C102 | `Spec/DijkstraRuns.lean` (`IsReverse`, `IsAddEdge`, `Feasible`, `reduced`, `scaled`, `withSource`, `Least`) | from C15: walks of the related graphs correspond, so least weights do |
| C103 | `Props/FlowRuns.lean` (`FlowAns`, `NetOk`, `turned`, `dcut`, `CutAns`) | from C98 and C19: every answer is a least cut, and cuts of the related networks correspond |
| C104 | `Props/MatchRuns.lean` (`MatchAns`, `leftIn`), `Spec/Bipartite.lean` | from C18 and C60: answers are greatest matchings and least covers, which are moved between the related graphs |
| C105 | `Spec/SccRuns.lean` (`IsTurned`, `IsAdded`, `IsCondensed`, `SameClasses`) | from C21: colours are classes of mutual reachability, and walks of the related graphs correspond |
| C106 | `Spec/NumberTheory.lean` (`CongrSol`), `Props/NumberRuns.lean` (`crtOf`, `CongrOk`) | from C32 to C35; an arithmetic progression determines its least element and its step |
| C107 | core `List` operations, `List.rotate`; `Props/StringRuns.lean` (`PiLink`), `Props/StringSearch.lean` (`HasPeriod`) | from C27, C28 and C56; the periodicity lemma of Fine and Wilf for powers |
| C108 | `Spec/FenwickBag.lean` (`bagOf`, `BagOk`, `below`, `invCount`), `Spec/Fenwick.lean` | from C02, C03; prefix sums of the counts are ranks, and induction over the list from its end for inversions |
| C109 | Mathlib's `ZMod`, `Nat.choose`; the identities are between results of the model's calls | from C41, C43 to C46 and C49, with the theorems of Fermat, Euler, Wilson and Vandermonde |
| C110 | `List` prefixes, suffixes, reversal; `AllAns` and `CntAns` say that the calls return these answers | from C29 and C30, with a recursion for the number of occurrences from either end of the text |
| C111 | `Conn` (equivalence closure of a list of pairs); the client programs `joinRoots` and `kruskal` call the model's functions | loop invariant; counting of components through least vertices; comparison of forests at every weight threshold |
| C112 | `List.insertionSort`; `BinTree` with leaves and path cost; the client programs call the model's functions | invariants on the multiset of the heap; exchange argument on multisets of weights and depths |
| C113 | `LLaw` lists the pairs of call sequences; the opposite monoid is Mathlib's `MulOpposite` | both sides lead to trees representing the same list; boundaries of factor-closed predicates are unique |
| C114 | `HLaw` lists the pairs of call sequences; `TreeIso` and `HldOp.rename`; paths and ancestors as in `Spec/Tree.lean` | effect of a history on each node; simulation of two decompositions with equal arrays; uniqueness of tree paths |
| C115 | `Tokens`, `IntToken` and `CallsGive` of `Props/Input.lean`; `showInt`, `showRow` write numbers out | the history theorem of C51 and uniqueness of tokens |
| C116 | `slice`, `fold1` on lists; `lesser` is the pair operation of a user | C09; splitting folds of overlapping slices; simulation of a table by another for gcd |
| C117 | `Top` over prefixes, suffixes and infixes; `BalancedSeq` by heights; sublists that are `Pairwise (<)`; `cover` counts intervals | simulation by the tree over the free monoid; loop invariants over the represented list |
| C118 | `IsPathCover` by `List.IsChain` and a permutation of `range n`; `IsAntichainOf`; `NoCircle` by transitive closure | paths are merged edge by edge along the matching; the vertices outside a least cover (C60) form the antichain |
| C119 | `IsClosedSet`, `labelCost`, `VWalk` by `List.IsChain`, `IsVertexSep`, `IsVDisjoint` by counting | least cuts (C103) translated to each problem; walk packings (C98) projected from the split network |
| C120 | `querySums` on a list; `ListWalk`, `IsMaxMatching`, `IsMaxFlow`, reachability on the list of edges; `Tokens` of the text | one lemma for loops that read an item and do a step; the histories of C02, C18, C19, C15, C21 |
| C121 | `IsWalkFrom` by `List.IsChain`, `collected` as a sum over the set of vertices, `IsMostFrom` | C21 and C22; a walk stays in a component or leaves it by an edge; a walk can go through a whole component and end at any of its vertices |
| C122 | `PathUses` by infixes of the unique simple path, `countP`; positions in paths | the only edge between the vertices below x and the others is the one to the parent; positions in root paths by C17 |
| C123 | `IsCount` by finite sets with exactly the given elements; infixes, reversal, `List.flatten` | new prefixes of a suffix are those longer than the greatest entry; C107 for palindromes; the last pattern of a text determines the rest, with C29 |
| C124 | `WalkAlong` on lists of vertices, `FreeWalk` as an inductive relation, `Least` | C102 (every entry is attained by a last edge); walks of the copies are exactly the walks with free edges |
| C125 | cardinalities of Mathlib's `DyckWord`, `Sym` and `derangements` | C49 for the values of choose and perm, C43 in ZMod p; Catalan and derangement sums of Mathlib |
| C126 | `Nat.totient`; `rotSetoid`, colourings up to rotation; points of a grid on a line | C32, C42 to C45; Burnside's lemma, colourings fixed by a rotation are colourings of its cosets |

Known disagreements between documentation and code are listed in section 4.

## 4. Findings (property false of the code, or documentation inaccurate)

Each item names the theorem that proves it of the model.

* **union_find**: `join(x, y)` links `x` to `y` themselves instead of their representatives, so it can cut nodes off
  or merge nothing useful (`C10_false`), and the sizes go wrong (`C12_false…`, see the manifest). The swap by size changes
  only unused variables, so chains arise and the recursion of `find` gets `n` calls deep (`C72_chain`).
* **heavy_light_decomp**: `path_prod` does not multiply in path order, so it is wrong for non-commutative monoids
  (`C26_not_path_order`, `C26_not_path_order_down`).
* **modint**: for moduli above 2^31 (accepted by `set_modulus`) `+` panics when the sum reaches 2^32 and `-` returns a
  canonical but wrong value (`C43_any_modulus`); Barrett multiplication is wrong too (`C37_large_modulus_wrong`).
  With modulus 1, `pow(0)` and the empty product return the non-canonical `1` (`C44_false`, `C46_false`).
  `inv` on a modulus hinted as prime panics when the modulus is not a prime below 2^31 (`C45_inv_hint`).
* **dynamic modint under threads**: `update` stores `m` and the reciprocal in two steps. A multiplication in between is
  wrong (`C47_torn_read`), and two overlapping `set_modulus` calls can leave a mixed pair behind for good, so that
  products are wrong although every `set_modulus` has ended (`C47_overlapping_sets`, `C47_false`).
* **internal_math**: `pow_mod` with a negative exponent does not terminate (`C38_negative_diverges`). A negative
  modulus makes it work modulo `2^32 + m` (`C38_negative_modulus`). `primitive_root` loops forever on `m ≤ 1`
  (`C41_no_root_diverges`) and returns a number without meaning for composite `m` (`C41_composite`).
* **number_theory**: `lcm` can overflow although the result fits; `gcd`/`ex_gcd` panic on `(MIN, -1)`; `ex_gcd` on
  unsigned types panics unless one argument divides the other; `ex_crt` with negative residues returns a negative
  answer (`C35_negative_witness`), and "smallest positive" is the smallest non-negative solution (`C35_zero_witness`).
* **monoids**: with overflow panics counted, `Additive` on signed types and `Multiplicative` on all types are not
  associative (`C50_additive_signed`, `C50_multiplicative_not_assoc`).
* **fenwick_tree**: `add` with an index out of range does nothing instead of panicking; `pref(idx)` with `idx > n`
  panics; `partition_point` panics for `n = 0`.
* **segtree / lazy_segtree**: the length is cast to `u32`; the theorems need `n < 2^32`. Where the maps do not distribute
  over the operation, elements are still right (C94) but products are not (`C94_product_differs`), and `max_right` may
  return more than the length (`C94_search_past_end`).
* **sparse_table**: an empty table panics; a range end beyond `n` may return filler instead of panicking
  (`C73_get` says when). The operation may panic; operations with side effects are in C81.
* **util, 32-bit targets**: `lg` assumes 64 bits, so `SparseTable::from` panics on every slice where `usize` has 32 bits
  (`C92_lg`, `C92_sparse`, `C92_sparse_release`).
* **recursion**: the graph searches nest as many calls as a path has vertices (`C93_scc_path`, `C93_lifting`, `C93_hld`,
  `C93_matching_chain`, `C93_flow_path`), so long paths use stack in proportion to their length.
* **min_heap**: `into_sorted_vec` is in descending order.
* **bipartite_matching**: `add_edge` accepts a right vertex that is out of range; `solve` panics later if the
  search comes to that edge (`C18_right_panics`), and never answers wrongly (`C18_any_right`).
* **max_flow**: source equal to sink gives 0; the run panics exactly when the flow exceeds the type.
* **aho_corasick**: of equal patterns the last one wins; earlier ones have count 0 in `find_cnt`; calling `build`
  twice loops for ever (`C54_rebuild_diverges`).
* **debug**: a release build does not evaluate the arguments of `de!`, so side effects in them are lost, and `de!()` does
  not compile there (`C55_release`, `C55_profiles_agree_iff`).
* **release builds**: where the debug build panics by overflow, the release build may give wrong answers: `lcm` always
  (`C88_lcm`), `ex_crt` (`C88_ex_crt_wrong`), `+` on moduli above 2^31 (`C91_add`), `inv` with a false claim of primality
  (`C91_inv_false_hint`), `dijkstra` (`C90_dijkstra_wrong`). Fenwick sums and flows are right modulo the type (`C89_fenwick`,
  `C90_history`), so an answer that fits is right although the debug build may panic. Building a sparse table from an empty
  slice asks for 2^32 empty rows before it panics; memory is not modelled.
* **recursive_function**: `call` makes a second `&mut` to the closure while the first is live, which the aliasing rules
  of Rust forbid; the model does not cover this.

## 5. A search evaluated by the kernel

`is_prime` (C39) needs that no composite below 2^31 is a strong probable prime to the bases 2, 7 and 61. This is proved
in `Verif/Proof/Sprp`: a composite that passes has its prime factors restricted by the order of 2 modulo them, which
cuts the search down to cases that are evaluated by the kernel through `Nat.rec` and the kernel's
arithmetic on literals (`decide`-style, no compiler). `tools/sprp_run.py` generates the files `Run*.lean`, which only
split the work into pieces. The whole directory takes about two minutes.
