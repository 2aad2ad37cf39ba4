#!/usr/bin/env python3
"""Writes /verif/properties.jsonl (single source for the property list)."""
import json
P=[]
def p(id,title,statement,quantifier,why,anchors):
    P.append(dict(id=id,title=title,statement=statement,quantifier=quantifier,why_tests_cant=why,anchors=anchors))

p("C01","lg and ceil_lg are exact integer logarithms",
  "For every usize i >= 1, lg(i) is the unique k with 2^k <= i < 2^(k+1); lg(0) panics (overflow check). For every u32 n, ceil_lg(n) is the least k with n <= 2^k (so 0 for n = 0, 1).",
  "every 64-bit i and every 32-bit n","2^64 / 2^32 inputs; the test samples a dozen",
  ["src/misc/util.rs: lg, ceil_lg"])
p("C02","FenwickTree behaves like a plain array with prefix sums",
  "After new(n) or from(a) and any sequence of add(i, v) calls, pref(i) equals data[0]+...+data[i-1] and sum(l, r) equals data[l]+...+data[r-1] of the plain array that received the same additions; from(a) is indistinguishable from new(n) followed by n adds; add at an index >= n changes nothing; pref of an index > n panics.",
  "every length n < 2^63, every initial array, every finite history of adds, every query index, every commutative additive value type",
  "unbounded histories and sizes; bit-trick index walks differ at every size",
  ["src/data_structure/fenwick_tree.rs: new, from, add, pref, sum"])
p("C03","FenwickTree::partition_point / search return the partition point of the prefix sums",
  "For a non-empty tree and a predicate that holds on a prefix of the prefix-sum array (sum[i] = data[0]+...+data[i]) and fails after it, partition_point returns exactly the number of prefix sums satisfying it; search(t) with non-negative data returns the first index whose prefix sum is >= t (n if none). On an empty tree the call panics.",
  "every length, every contents reachable by any history, every partitioned predicate",
  "quantifies over predicates and histories",
  ["src/data_structure/fenwick_tree.rs: partition_point, search"])
p("C04","Segtree refines a plain array with ordered range products",
  "After From<Vec>/new and any sequence of set calls, get(p) is the last value written at p, prod(l, r) is the left-to-right monoid product of positions l..r (identity when l = r), all_prod is the product of everything; out-of-range arguments panic and in-range ones never do. Holds for non-commutative monoids.",
  "every monoid, every length < 2^32, every history of set, every l <= r <= n",
  "all histories, all lengths (including non powers of two), all monoids",
  ["src/data_structure/segtree.rs: new, from, set, get, prod, all_prod, update"])
p("C05","Segtree::max_right returns a correct boundary",
  "For every predicate f with f(identity) and every l <= n, max_right(l, f) returns r with l <= r <= n, f(prod(l, r)) true, and r = n or f(prod(l, r+1)) false; if f is monotone it is the maximum such r. If f(identity) is false or l > n it panics.",
  "every monoid, contents, l and (possibly non-monotone) predicate",
  "quantifies over predicates",
  ["src/data_structure/segtree.rs: max_right"])
p("C06","Segtree::min_left returns a correct boundary",
  "For every predicate f with f(identity) and every r <= n, min_left(r, f) returns l <= r with f(prod(l, r)) true, and l = 0 or f(prod(l-1, r)) false; if f is monotone it is the minimum such l.",
  "every monoid, contents, r and predicate","quantifies over predicates",
  ["src/data_structure/segtree.rs: min_left"])
p("C07","LazySegtree refines a plain array under range updates",
  "For a monoid with an action satisfying the documented laws (identity map acts trivially, composition is composition of actions, maps distribute over the operation), after From<Vec>/new and any interleaving of set, get, prod, all_prod, apply, apply_range, max_right, min_left, every returned value equals the one computed on a plain array where apply_range maps each element of [l, r). Queries do not change the contents.",
  "every lawful monoid action, every length < 2^32, every finite operation history",
  "lazy propagation bugs only show on particular interleavings; histories are unbounded",
  ["src/data_structure/lazy_segtree.rs: from, set, get, prod, all_prod, apply, apply_range, push, all_apply, update"])
p("C08","LazySegtree::max_right / min_left return correct boundaries and leave the contents unchanged",
  "In every reachable state and for every predicate g with g(identity): max_right(l, g) returns r in [l, n] with g(prod(l, r)) and (r = n or not g(prod(l, r+1))); min_left symmetric; every later query, searches included, answers as if the search had not happened; and the searches return exactly what they return on a Segtree made from the present contents, also where a predicate has several boundaries.",
  "every lawful action, every reachable state (with pending lazy maps), every predicate and argument",
  "quantifies over histories and predicates",
  ["src/data_structure/lazy_segtree.rs: max_right, min_left"])
p("C09","SparseTable::get is the range fold",
  "For a non-empty slice v and an associative idempotent op, get(l, r) with l < r <= len equals v[l] op ... op v[r-1], whatever `init` is; from on an empty slice panics; get with l >= r panics. (Commutativity is not needed.)",
  "every slice, every associative idempotent operation, every l < r <= n","all lengths and operations",
  ["src/data_structure/sparse_table.rs: from, get"])
p("C10","UnionFind connectivity equals the equivalence closure of the joins",
  "After any sequence of join/find/is_same/size/groups calls, is_same(x, y) is true exactly when x and y are connected through the joined pairs; join returns true exactly when it connected two previously unconnected elements.",
  "every n and every operation history","bug needs a join through a non-representative after an earlier join",
  ["src/data_structure/union_find.rs: join, is_same, find"])
p("C11","UnionFind never diverges and only merges along joins",
  "In every history of in-range calls, find terminates and returns a representative r with find(r) = r; find/is_same/size/groups never change which elements are considered the same; is_same is an equivalence relation; is_same(x, y) holds right after join(x, y); elements never connected by a chain of joins are never reported the same.",
  "every n and every operation history","cycle freedom over all histories",
  ["src/data_structure/union_find.rs: find, join, is_same"])
p("C12","UnionFind::size is the size of the component",
  "After any history, size(x) equals the number of y with is_same(x, y).",
  "every n and every operation history","depends on the whole history of joins",
  ["src/data_structure/union_find.rs: size, join"])
p("C13","UnionFind::groups is the partition into is_same classes",
  "After any history groups() returns non-empty lists, every element of 0..n occurs exactly once overall, two elements are in the same list iff is_same says so, and each list is in increasing order.",
  "every n and every operation history","all histories",
  ["src/data_structure/union_find.rs: groups"])
p("C14","MinHeap is a multiset whose pop returns a minimum",
  "For every history of push/pop/peek/append/clear/len/is_empty: the heap holds exactly the multiset of pushed-and-not-popped items; pop and peek return a minimal element (None iff empty); append moves everything and empties the other heap; into_sorted_vec returns all items in NON-INCREASING order (Reverse order), not ascending.",
  "every totally ordered item type, every history, any correct BinaryHeap","all histories",
  ["src/data_structure/min_heap.rs: MinHeap"])
p("C15","dijkstra computes exact shortest distances",
  "For every weighted digraph with in-range endpoints and every source s, dijkstra terminates, entry v is None iff v is unreachable from s, and otherwise Some of the minimum total weight over all walks from s to v; entry s is Some(0). Valid when no relaxed sum exceeds usize::MAX.",
  "every graph (zero weights, parallel edges, loops included) and every source","all graphs and all walks",
  ["src/graph/shortest_path.rs: dijkstra","src/data_structure/min_heap.rs"])
p("C16","BinaryLifting::is_ancestor is exactly ancestry in the rooted tree",
  "For the adjacency list of any tree and any root, from terminates, and is_ancestor(u, v) is true iff u lies on the path from the root to v.",
  "every tree, adjacency order, root, u, v","all trees",
  ["src/graph/binary_lifting.rs: from, dfs, is_ancestor"])
p("C17","BinaryLifting::lca / dis are the lowest common ancestor and the tree distance",
  "lca(u, v) is a common ancestor of u and v that every common ancestor is an ancestor of; dis(u, v) is the length of the shortest path between u and v in the tree.",
  "every tree, root and pair of vertices","all trees; jump tables must be deep enough for every size",
  ["src/graph/binary_lifting.rs: lca, dis"])
p("C18","AugmentedPath::solve returns the maximum bipartite matching size",
  "After new(n, m) and any interleaving of add_edge (in range, duplicates allowed) and solve, solve terminates without panic and returns the maximum number of pairwise disjoint edges of the current graph.",
  "every bipartite graph, edge order and call history","maximality quantifies over all matchings",
  ["src/graph/bipartite_matching.rs: new, add_edge, dfs, solve"])
p("C19","Dinic::get_max_flow returns the maximum flow value",
  "For every network and every s, t, get_max_flow terminates and returns the value of a maximum s-t flow, which equals the minimum cut capacity (0 when s = t), as long as the total fits the capacity type. A second call with the same s, t returns 0.",
  "every network (parallel edges, loops, cycles), s, t","optimality over all flows/cuts, termination over all networks",
  ["src/graph/max_flow.rs: add_edge, bfs, dfs, get_max_flow"])
p("C20","Dinic conserves capacity",
  "At every point each edge's residual plus its reverse edge's residual equals the capacity it was added with, both stay non-negative (for non-negative inputs), so no residual update can overflow; net flow is conserved at every vertex other than s and t.",
  "every network and every moment between phases","invariant over every augmentation",
  ["src/graph/max_flow.rs: dfs"])
p("C21","scc colours are exactly the strongly connected components",
  "For every digraph with in-range edges, scc terminates without panic; color[u] = color[v] iff u and v reach each other; the colours used are exactly 0..cnt.",
  "every digraph","all graphs; correctness of lowlinks is global",
  ["src/graph/tarjan.rs: scc, SCC::dfs"])
p("C22","scc numbers components in reverse topological order",
  "For every edge u -> v, color[v] <= color[u]; hence whenever v is reachable from u, color[v] <= color[u].",
  "every digraph and every edge/path","all graphs",
  ["src/graph/tarjan.rs: scc"])
p("C23","HLD positions are a bijection and node values are addressed correctly",
  "For every tree and root, new terminates; pos is a permutation of 0..n; after with_init_value, get(u) returns v[u]; after set(u, x), get(u) returns x and all other nodes are unchanged.",
  "every tree, root, history","all trees",
  ["src/graph/heavy_light_decomp.rs: new, with_init_value, dfs1, dfs2, get, set"])
p("C24","HLD subtree operations touch exactly the subtree",
  "apply_subtree(u, f) maps the value of exactly the descendants of u (including u); subtree_prod(u) is the product over exactly those nodes (in position order).",
  "every tree, root, node, lawful monoid action, history","all trees",
  ["src/graph/heavy_light_decomp.rs: dfs2, apply_subtree, subtree_prod"])
p("C25","HLD path operations touch exactly the path",
  "apply_path(u, v, f) maps the value of exactly the nodes on the tree path u..v, each once; for a commutative operation path_prod(u, v) is the product over exactly those nodes. Both terminate for every u, v.",
  "every tree, root, u, v, lawful action, history","all trees and pairs",
  ["src/graph/heavy_light_decomp.rs: apply_path, path_prod"])
p("C26","HLD::path_prod multiplies in path order",
  "path_prod(u, v) is the product of the node values in the order they occur walking from u to v, for any monoid accepted by the type (no commutativity bound is declared).",
  "every tree, u, v, monoid","needs a non-commutative monoid and a path over several chains",
  ["src/graph/heavy_light_decomp.rs: path_prod"])
p("C27","kmp returns the prefix function",
  "For every slice s and every i, kmp(s)[i] is the length of the longest proper prefix of s[0..=i] that is also a suffix of it. It terminates and never panics.",
  "every slice over every type with decidable equality","all strings",
  ["src/string/kmp.rs: kmp"])
p("C28","z_function returns longest common prefixes",
  "For every slice s and every i >= 1, z_function(s)[i] is the length of the longest common prefix of s and s[i..]; entry 0 is 0. It terminates and never panics.",
  "every slice","all strings",
  ["src/string/z_algorithm.rs: z_function"])
p("C29","AhoCorasick::find_all lists exactly the patterns ending at each position",
  "For every list of non-empty in-alphabet patterns and every in-alphabet text, find_all(text)[i] lists, longest first and without repetition, exactly one index (the last) for each distinct pattern string that ends at text position i.",
  "every pattern set (duplicates, patterns inside patterns) and text","all pattern sets and texts",
  ["src/string/aho_corasick.rs: insert, build, find_all"])
p("C30","AhoCorasick::find_cnt counts occurrences",
  "find_cnt(text)[j] is the number of positions of text where pattern j ends, for each j that is the last index of its string; it is 0 for a pattern repeated later in the list.",
  "every pattern set and text","all pattern sets and texts",
  ["src/string/aho_corasick.rs: find_cnt"])
p("C31","AhoCorasick::find reports the pattern equal to the longest matched prefix",
  "find(text)[i] is Some(j) iff the longest suffix of text[0..=i] that is a prefix of some pattern is itself a pattern (j its last index). In particular Some(j) implies pattern j ends at i; None does not imply that no pattern ends there.",
  "every pattern set and text","all pattern sets and texts",
  ["src/string/aho_corasick.rs: find"])
p("C32","gcd is the greatest common divisor",
  "For all a, b, gcd(a, b) terminates and its absolute value is the greatest common divisor (gcd(0,0)=0); for unsigned or non-negative inputs the result is non-negative; the only panic is the signed MIN % -1 overflow.",
  "every pair of values of every primitive integer type","2^128 pairs",
  ["src/math/number_theory.rs: gcd"])
p("C33","lcm is the least common multiple when the product fits",
  "lcm(a, b) for non-negative a, b not both 0 is the least common multiple whenever a*b fits the type; it panics on a*b overflow even when the lcm would fit, and on (0, 0).",
  "every pair of values","all pairs",
  ["src/math/number_theory.rs: lcm"])
p("C34","ex_gcd returns Bezout coefficients without overflow for signed types",
  "For signed a, b (other than the MIN/-1 case), ex_gcd(a, b) = (x, y, g) with a*x + b*y = g and |g| = gcd(|a|, |b|), and no intermediate value overflows. For unsigned types it can panic on underflow although the doc places no restriction.",
  "every pair of signed values","all pairs; overflow freedom is global",
  ["src/math/number_theory.rs: ex_gcd"])
p("C35","ex_crt solves the congruence system exactly",
  "For a[i] >= 0, m[i] > 0 and no i64 overflow, ex_crt returns None iff the system a[i]*x = b[i] (mod m[i]) has no integer solution; otherwise Some((ans, lcm)) with 0 <= ans < lcm and the integer solutions are exactly ans + k*lcm.",
  "every number of congruences, all coefficients","all systems",
  ["src/math/number_theory.rs: ex_crt"])
p("C36","safe_mod is the Euclidean remainder",
  "For every i64 x and m >= 1, safe_mod(x, m) is in [0, m) and congruent to x; no overflow. Outside that domain: m = 0 panics; for m < 0 the result is x % m if that is >= 0, else x % m + m, with a panic exactly on overflow.",
  "every x, m","2^127 pairs",["src/math/internal_math.rs: safe_mod"])
p("C37","Barrett multiplication is exact",
  "For 1 <= m <= 2^31 and a, b < m, Barrett::mul(a, b) = a*b mod m with the 32/64/128-bit wrapping arithmetic of the code. For 2^31 < m < 2^32 the result is a*b mod m, plus 2^32 - m exactly when the quotient estimate is one too high and the remainder is below 2m - 2^32. Barrett::new(0) panics.",
  "every m <= 2^31, a, b < m","~2^93 triples; rounding error analysis",
  ["src/math/internal_math.rs: Barrett::new, mul, mul_mod"])
p("C38","pow_mod is modular exponentiation",
  "For n >= 0 and m >= 1 (i32), pow_mod(x, n, m) = x^n mod m (in [0,m)), terminates, no overflow. For n < 0 and m >= 2 the loop never terminates. m = 0 panics. For m < 0 the powers are taken modulo 2^32 + m, and a base with x % m < 0 panics unless n = 0.",
  "every x, n, m","all triples",["src/math/internal_math.rs: pow_mod"])
p("C39","is_prime decides primality for every i32",
  "is_prime(n) is true iff n is prime, for every i32 n; it terminates and does not overflow.",
  "all 2^32 inputs","test sieve covers n < 10^6 only",["src/math/internal_math.rs: is_prime"])
p("C40","inv_gcd returns gcd and reduced Bezout coefficient",
  "For every i64 a and b >= 1, inv_gcd(a, b) = (g, x) with g = gcd(a, b), x*a = g (mod b), 0 <= x < b/g, and no overflow. b = 0 panics. For i64::MIN < b < 0 it panics exactly if safe_mod does, and otherwise returns the gcd up to sign with 0 <= x < |b|/g. For b = i64::MIN it returns (i64::MIN, 0) if a is 0 or i64::MIN, panics for every other negative a and every odd positive a, and returns the same as for the other negative moduli if a is even and positive.",
  "every a, b","2^127 pairs",["src/math/internal_math.rs: inv_gcd"])
p("C41","primitive_root returns the least primitive root",
  "For every prime m (i32), primitive_root(m) terminates, without overflow or array overrun, and returns the least g >= 1 whose powers generate all non-zero residues mod m. For composite m it terminates with the least g >= 2 that passes the test of the loop, and g is at most the smallest prime factor of m; for i32::MIN < m <= 1 it never terminates and for i32::MIN it panics.",
  "every i32","10^8 primes",["src/math/internal_math.rs: primitive_root"])
p("C42","Modint construction reduces any integer exactly",
  "For every primitive integer type and value v, ModInt::new(v).val() is the unique representative of v in [0, m), including negative v and v wider than 32 bits.",
  "every source type, value and modulus","all values",["src/misc/modint.rs: StaticModInt::new, DynamicModInt::new, RemEuclidU32"])
p("C43","Modint +, -, *, unary - implement the ring Z/m",
  "For 1 <= m <= 2^31 and canonical operands, results are canonical and equal the integer operation mod m; no overflow panic. Hence the ring laws hold. For m > 2^31 (accepted by set_modulus) + can panic and - can return a wrong value.",
  "every modulus and operands","all triples",["src/misc/modint.rs: add_impl, sub_impl, mul_impl, neg_impl"])
p("C44","Modint pow is exponentiation and stays canonical",
  "pow(x, n).val() = x^n mod m for every n: u64 and modulus 1 <= m <= 2^31.",
  "every modulus, x, n","all triples",["src/misc/modint.rs: ModIntBase::pow"])
p("C45","Modint inv / div are exact or panic",
  "inv(x) returns y with x*y = 1 (mod m), canonical, whenever gcd(x, m) = 1, and panics otherwise (prime-hinted static moduli and gcd-based path alike); a / b * b = a when b is invertible.",
  "every modulus and operand","all pairs",["src/misc/modint.rs: inv, inv_for_non_prime_modulus, div_impl"])
p("C46","Modint sum / product of an iterator",
  "sum() and product() over any finite iterator equal the integer sum/product reduced mod m.",
  "every list","all lists",["src/misc/modint.rs: impl_folding"])
p("C47","DynamicModInt under a concurrent set_modulus",
  "If every set_modulus call has completed before a multiplication starts (the documented constraint), then for every interleaving of the individual atomic loads and stores every product is exact for the modulus in force. Without the constraint a schedule exists where a multiplication mixes the new m with the old reciprocal and returns a wrong value.",
  "every interleaving of atomic steps","schedules",["src/misc/modint.rs: Barrett::update, Barrett::mul"])
p("C48","Modint parse / display round-trip",
  "Displaying x and parsing the text gives x back; parsing the decimal text of any i64 v gives new(v); text that is not an i64 panics.",
  "every value and modulus","all strings",["src/misc/modint.rs: from_str_impl, display_impl"])
p("C49","Factorial tables give exact binomials and permutations",
  "For a prime modulus p and n < p, Factorial::new(n) succeeds and choose(a, k) = C(a, k) mod p, perm(a, k) = a!/(a-k)! mod p for all k <= a <= n; for n >= p new panics; k > a or a > n panics.",
  "every prime modulus, n, a, k","all arguments",["src/math/factorial.rs: new, choose, perm"])
p("C50","The provided monoids satisfy the monoid laws",
  "Max, Min, Additive, Multiplicative have a two-sided identity and (Max, Min always; Additive, Multiplicative when no intermediate overflows) are associative for every primitive integer type; checked Additive on signed types is not associative once overflow panics are counted.",
  "every width, all triples of values","all triples",["src/misc/monoids.rs","src/traits/numeric.rs"])
p("C51","Input reader returns the whitespace-separated tokens in order",
  "Successive bytes/chars/read calls return the maximal non-whitespace runs of the string in order, each once; checked_read is None exactly when none remain; vec(n) reads exactly n tokens.",
  "every string and call sequence","all strings",["src/misc/input.rs: In"])
p("C52","RecursiveFunction::call runs the closure's recursion",
  "call(x) runs the closure with recursive calls re-entering the same closure with its state threaded in program order; if the recursion terminates the result is the unique value satisfying the recursive equation.",
  "every closure body and argument","quantifies over programs",["src/misc/recursive_function.rs: recursive_function!"])
p("C53","HLD root paths meet O(log n) chains",
  "For every tree, root and node x, the number k of nodes on the root path of x that start a chain satisfies 2^(k-1) <= n, and a path operation makes exactly as many loop rounds as its path changes chain (one less than the number of different chains on it), at most 2*log2(n), with one segment tree call per round and one after the loop.",
  "every tree, root, node","bound over all trees",["src/graph/heavy_light_decomp.rs: dfs1, dfs2"])
p("C54","An Aho-Corasick automaton cannot be built twice",
  "After from with at least one non-empty pattern, and any further valid insertions, build never returns: its queue always holds a vertex that pushes another one. Without patterns build returns at once and changes nothing.",
  "every alphabet, pattern list, list of later insertions","non-termination cannot be tested",["src/string/aho_corasick.rs: build"])
p("C55","The debugging macro de! in debug and release builds",
  "In a debug build de!(e1, ..., ek) evaluates each expression exactly once, left to right, and writes one line with the line number and every source text with its value; if an expression panics or does not return, exactly the text before it has been written and nothing after it is evaluated. In a release build nothing is evaluated or written, and de!() without arguments is not accepted. The two builds go on the same way exactly when evaluating the expressions returns and leaves the state unchanged.",
  "every list of caller expressions, state and line","quantifies over programs and build profiles",["src/misc/debug.rs: de!, debug_single!"])
p("C56","String search, periods, and the duality of kmp and z_function",
  "With a separator that occurs in neither p nor t, the entry of kmp(p + [sep] + t) at position i of t is |p| exactly when p ends there, and is never larger; likewise for z_function and p starting there. The last entry k of kmp(s) gives the least period |s| - k of s. kmp(s)[i] is the greatest i + 1 - j over 1 <= j <= i with i < j + z_function(s)[j].",
  "every pattern, text, separator; every sequence","all strings",["src/string/kmp.rs: kmp","src/string/z_algorithm.rs: z_function"])
p("C57","kmp and z_function are linear",
  "In a whole run on n elements the inner loop of kmp makes exactly one round for every border that is tried and rejected, at most n - 2 in all, and that of z_function exactly one for every position inside a match of a prefix, at most n - 1; both bounds are attained for every n >= 2.",
  "every sequence","worst case over all inputs; a slower run returns the same result",["src/string/kmp.rs: kmp","src/string/z_algorithm.rs: z_function"])
p("C58","Number of divisions of gcd and depth of ex_gcd",
  "gcd(a, b) makes as many divisions as Euclid's algorithm on |a|, |b|; if it returns after k divisions then b = 0 and k = 0, or fib(k+1) <= |b|; consecutive Fibonacci numbers attain it for every k. On i64 this is at most 91 divisions for gcd and at most 92 nested calls for ex_gcd; both are attained.",
  "every integer type and pair of values","worst case over all inputs",["src/math/number_theory.rs: gcd, ex_gcd"])
p("C59","Fenwick and segment tree queries are logarithmic",
  "FenwickTree::pref(i) makes exactly as many rounds as i has one bits; add(i) makes exactly one round per node whose range contains i, at most log2(n) + 1; Segtree::prod(l, r) makes exactly one round per block size 2^j that has an aligned block inside l..r, at most ceil(log2 n) + 1, in every reachable state.",
  "every tree, index, range","worst case over all inputs",["src/data_structure/fenwick_tree.rs: pref, add","src/data_structure/segtree.rs: prod"])
p("C60","Flow, matching and vertex cover agree",
  "On the unit network of a bipartite graph (source to every left vertex, the edges, every right vertex to the sink, all of capacity 1) Dinic returns the number that AugmentedPath::solve returns on the graph, and 0 when asked again. That number is also the least number of vertices touching every edge, and what solve leaves in its fields is such a vertex cover: the matched left vertices its last phase did not visit, with the right vertices matched to visited ones.",
  "every bipartite graph, repeated edges allowed; for Dinic: every integer type, vertex count below 2^31 and n + edges + m within the type","relates two programs over all graphs; optimality quantifies over all covers",["src/graph/max_flow.rs: get_max_flow","src/graph/bipartite_matching.rs: solve"])
p("C61","Modint operations on values that are not reduced",
  "For operands that are any u32 values (as raw makes them, or left over from before set_modulus): *, pow with n >= 1 and inv by gcd give the reduced right result; + panics when the sum leaves u32, else its result is congruent and is reduced exactly when a + b < 2m; a - b never panics and is congruent exactly when -m <= a - b < 2^32 - m or m divides 2^32; inv with the prime hint is right unless a is a non-zero multiple of m, for which it returns 0 (1 for m = 2) instead of panicking. Modulo 1 a DynamicModInt product is a * b in u32, plus 1 unless that is 0.",
  "every modulus 2 <= m <= 2^31 (static kinds: every u32), every pair of u32 values","2^96 triples; wrong results only for rare combinations",["src/misc/modint.rs: add_impl, sub_impl, mul_impl, pow, inv","src/math/internal_math.rs: mul_mod"])
p("C62","Every modint expression has its value in Z/m",
  "Any expression built from integer literals of the primitive types by +, -, *, /, unary -, inv and pow evaluates to the least non-negative representative of its value in Z/m; it panics exactly when some divisor has no inverse in Z/m. Two results compare equal exactly when the expressions are equal in Z/m.",
  "every expression tree; every modulus 2 <= m <= 2^31; static kinds (prime hint only on primes below 2^31) and dynamic","all expression trees",["src/misc/modint.rs: new, add_impl, sub_impl, mul_impl, div_impl, neg_impl, inv, pow"])
p("C63","The Debug text of a lazy segment tree shows the elements",
  "In every reachable state {:?} succeeds and writes ceil(log2 n) + 1 levels, 2^i entries in level i, every level but the last with the pending map in brackets and a line end. Applying to the value of an entry the maps written at its strict ancestors, from the parent up, gives the product of the present elements below the entry; in the last level that is the element itself, and the identity beyond the end.",
  "every lawful MapMonoid, initial vector with fewer than 2^32 elements, history of calls within preconditions, and Debug texts of elements and maps","all histories",["src/data_structure/lazy_segtree.rs: fmt"])
p("C64","Panicking operations never lead to a wrong answer",
  "Let the operations of a MapMonoid implementation panic at will (for instance on overflow), but be right whenever they return: their values represent elements of a structure that obeys the laws. Then every history of calls on the lazy segment tree, and on the heavy-light decomposition, either panics or returns representatives of the results that the plain list (the plain tree with values) gives.",
  "every representation relation, implementation, lawful structure, initial values (fewer than 2^32), tree and root, and history of calls within preconditions","tests use total operations; which products and compositions are formed internally depends on the history",["src/data_structure/lazy_segtree.rs: LazySegtree","src/graph/heavy_light_decomp.rs: HLD","src/traits/monoid.rs: MapMonoid"])
p("C65","No overflow inside a lazy segment tree of bounded elements",
  "Let a MapMonoid implementation with checked arithmetic be measured: the operation does not exceed the larger measure (maximum, minimum), a map adds at most its own measure (range add). Give each element the measure of the last value written to it plus the measures of the maps applied to it since. While these numbers stay within a bound B under which no single operation panics, no call on the lazy segment tree panics, and every result is right: neither the internal nodes nor the composed pending maps ever exceed B.",
  "every measured implementation, bound, initial values (fewer than 2^32) and history of calls within preconditions","overflow of a composed pending map or of an internal node needs a particular history of range updates that land on one node",["src/data_structure/lazy_segtree.rs: LazySegtree","src/traits/monoid.rs: MapMonoid"])
p("C66","Work of Dinic's algorithm does not depend on the capacities",
  "After any history of calls that has added m edges between n vertices, get_max_flow(s, t) finishes after fewer than n phases; every call of bfs looks at each of the 2m arcs at most once, and the loops of one blocking search, recursive calls included, make at most 2m + n(2m + 1) rounds. For every n >= 2 there is a network with n - 1 phases.",
  "every history of add_edge and get_max_flow, all capacities whose sum fits the type","worst case over all inputs; without the current-edge pointers or the level test the answers stay right and only the time grows",["src/graph/max_flow.rs: bfs, dfs, get_max_flow"])
p("C67","Prefix function and Z-function for any PartialEq",
  "If == of the element type is symmetric and transitive (not necessarily reflexive: f64 with NaN), entry i of kmp is the greatest k <= i such that the last k of the elements 0..i compare equal, one by one, to the first k. For z_function transitivity alone is enough: entry i is the greatest k such that the first k elements compare equal to those i places further on. For an arbitrary == neither function panics or loops, and entries stay within i and n - i.",
  "every comparison with these properties, every slice of every length","tests use integers, where == is equality; whether a position is ever compared with itself, or equality is chained through a third element, cannot be seen there",["src/string/kmp.rs: kmp","src/string/z_algorithm.rs: z_function"])
p("C68","Tree searches with closures that keep a state or panic",
  "max_right(l, f) and min_left(r, f) of both segment trees call f only on products of ranges starting at l (ending at r), the first time on the identity, and at most max(2L, L + 2) times for at most 2^L elements; partition_point calls it only on sums of the first k >= 1 elements, at most floor(log2 n) + 1 times. If these calls return and agree with some p(k), the result is a boundary of p and f's final state is the one after these calls; what f does elsewhere, even panicking, is irrelevant. A closure that answers inconsistently still gets a result within these bounds, but max_right may exceed the length.",
  "every monoid, every history of the tree, every closure with any state, every start","a test with a pure predicate cannot see how often or on what values it is called, nor whether a partial predicate would have been called outside its domain",["src/data_structure/segtree.rs: max_right, min_left","src/data_structure/lazy_segtree.rs: max_right, min_left","src/data_structure/fenwick_tree.rs: partition_point"])
p("C69","No overflow inside a lazy segment tree, in terms of the plain list",
  "Let a MapMonoid implementation with checked arithmetic return whenever its arguments and the true result fit. While every product of a range of the plain list fits, and for each position every composition of the latest maps applied to it since it was last written, no call on the lazy segment tree panics and every result is right. For range addition and range sums of unsigned integers of w >= 32 bits this is exact: the tree answers if the sum of the whole list fits in w bits at each moment, otherwise it panics.",
  "every implementation, notion of fitting, initial values (fewer than 2^32) and history of calls within preconditions; every width w >= 32","which values and compositions the tree forms internally depends on the history",["src/data_structure/lazy_segtree.rs: LazySegtree","src/traits/monoid.rs: MapMonoid"])
p("C70","Work of dijkstra",
  "dijkstra looks at the edges of every reachable vertex exactly once, in order of non-decreasing distance and each with its final distance. Everything pushed on the heap is popped; there are at most m' + 1 pushes, where m' <= m is the number of edges leaving reachable vertices, and the heap never holds more than max(1, m') elements. Both bounds are attained for every m.",
  "every digraph, source, correct heap, without overflow and edges out of the graph","a slower run returns the same result",["src/graph/shortest_path.rs: dijkstra"])
p("C71","MinHeap with elements that compare equal",
  "Let the order of the elements look at a key only, so that different elements may compare equal. Then every correct heap answers every history with the same keys, and holds elements with the same keys at the end; popping as often as there are elements gives every element exactly once, in non-decreasing order, and then None.",
  "every element type with a key, heap implementations, history of calls on any number of heaps","which of several equal elements comes out is not determined",["src/data_structure/min_heap.rs: MinHeap"])
p("C72","Nesting of find and path compression",
  "In every reached state find(x) follows the d < n links from x to its representative, making exactly d + 1 nested calls; afterwards every element on this way is linked to the representative directly and nothing else has changed. Union by size is without effect: after the joins (0, 1), (1, 2), ..., (n - 2, n - 1), find(0) makes n nested calls.",
  "every n, history and element; the chain for every n < 2^64","recursion depth over all histories; a deep recursion overflows the stack only for large n",["src/data_structure/union_find.rs: find, join"])
p("C73","Sparse table with any operation",
  "For an operation that may panic and need satisfy no law: from panics exactly if the balanced product of some 2^c consecutive elements panics, and otherwise returns; get(l, r) panics for l >= r and for arguments too large for the table, and otherwise combines the balanced product of the 2^c elements from l and of the 2^c elements before r, c the logarithm of r - l, where a product that would end beyond the slice is the filler init. An operation that panics or is right with respect to an associative idempotent one yields queries that panic or are right. The table is right for all slices and ranges exactly if the operation is associative and idempotent.",
  "every operation, slice, filler and pair of query arguments","a statement about all operations and about arguments outside the slice",["src/data_structure/sparse_table.rs:18-38"])
p("C74","Fenwick tree: exactly when it panics",
  "For an element type with checked + and - (return exactly if the result fits): from returns exactly if for each node (positions 2q*2^m .. (2q+1)*2^m) its sum and its sums without the last 2^t positions fit; in every tree that a history left all node sums fit, and the next add returns exactly if they still do; pref(i) returns exactly if the sums from i rounded down to multiples of 2^m up to i fit; sum(l, r), also for l > r, is the c with pref(l) + c = pref(r) if it exists and fits; partition_point returns k exactly if the prefix sums on the way of the binary search to k fit. For unsigned integers of w bits: a history returns exactly if in the end each node sum is below 2^w, pref(i) exactly if the prefix sum is. add with another type U is the addition of f(u) where x += u is x + f(u).",
  "every list, history, index, predicate and checked type","the panics depend on all elements and on the order of additions inside the tree",["src/data_structure/fenwick_tree.rs:24-128"])
p("C75","The provided modint types are fields; several dynamic types are independent",
  "ModInt1000000007, ModInt998244353 and ModInt as it starts have a prime modulus p, and every expression over them (literals of any primitive type, + - * /, negation, inv, pow) evaluates to its value in the field of p elements or panics if it divides by zero. Eq, Hash and Debug agree: equal values in Z/m, equal modints, equal hasher input and equal Debug text coincide; default() is zero. In a program over several DynamicModInt types with their own Id, each expression has its value modulo the modulus set last for its own type (998244353 if none). Barrett::new and set_modulus make the same pair.",
  "every expression; every program of set_modulus calls and expressions over any number of types","primality of the constants and all operand values",["src/misc/modint.rs:66-68", "src/misc/modint.rs:254-283", "src/misc/modint.rs:446-506", "src/misc/modint.rs:752-882"])
p("C76","Segment tree with any operation",
  "For an operation that may panic and need satisfy no law, and fewer than 2^32 elements: from panics exactly if the product of an aligned block of a power of two of elements, formed by halves and padded with the identity, panics; set exactly if that of such a block containing the position does; get, all_prod and prod(l, r) return the element, the product of everything by halves, and the product of O(log n) aligned blocks in one fixed bracketing. For checked arithmetic in a monoid this is stated in sums: set and from panic exactly if the true product of such a block does not fit, and prod(l, r) exactly if the product of l..r, or of l up to the next, or of the last, multiple of some 2^j to r, does not fit. 2^32 or more elements panic, in the lazy tree too. An operation that panics or is right with respect to a monoid yields histories (searches included) that panic or are right. The tree is right for all arrays and ranges exactly if the operation is associative with the given identity.",
  "every operation, array, history of writes and query","a statement about all operations; which partial sums overflow depends on the alignment of the range",["src/data_structure/segtree.rs:4-74", "src/data_structure/lazy_segtree.rs: from"])
p("C77","Maximum flow with arbitrary arguments",
  "An edge of negative capacity behaves like one of capacity zero in every history of add_edge and get_max_flow. Every history with fewer than 2^31 vertices either has all vertices in range and returns maximum flows (of the network with negative capacities read as zero, each call continuing from the residual network), or it panics, namely at a call with a vertex out of range or at a get_max_flow whose value does not fit the type. If all vertices are in range and the positive capacities together fit, it does not panic.",
  "every capacity type, history and argument","negative capacities enter comparisons with zero in several places, and overflow depends on the history",["src/graph/max_flow.rs:28-88"])
p("C78","ex_crt on arbitrary i64 arguments",
  "For i64 entries of any sign, zero moduli included, ex_crt answers None only if no integer solves the system, and Some((x, l)) only if no modulus is zero and the solutions are exactly x + k*l, where |x| < |l| and x is zero or has the sign of l; the only alternative is a panic. x mod |l| is then the least non-negative solution. If the moduli have a common multiple L > 0 with 2L <= 2^63, |a[i]*L| <= 2^62 and |b[i]| <= 2^62 there is no panic. A single equation a*x = b (mod 0) gives None if a does not divide b and panics otherwise. If b or m is shorter than a, ex_crt panics unless the congruences before the end of the shorter list were answered with None.",
  "all i64 inputs of any sign and length","sign combinations of the gcd, quotients and remainders are many, and the panics depend on sizes of intermediate products",["src/math/number_theory.rs:9-47"])
p("C79","Binary lifting on graphs that need not be trees",
  "For arbitrary adjacency lists, if the walks from the root that never turn straight back are bounded then BinaryLifting::from ends, and otherwise no depth of recursion is enough for it to return. On an undirected graph without self-loops and parallel edges it returns exactly when no cycle is connected to the root. Then is_ancestor, lca and dis are right for all vertices connected to the root, whatever the other components are; a vertex not connected to the root is reported to lie below the root and above nothing. Trees are exactly the connected graphs without cycles.",
  "every adjacency list and root","non-termination cannot be observed by a test, and acyclicity is a global condition",["src/graph/binary_lifting.rs:12-68"])
p("C80","Heavy-light decomposition on graphs that need not be trees",
  "HLD::new does not return if walks from the root that never turn straight back can be arbitrarily long (adjacency lists without self-loops, possibly directed). On an undirected graph without self-loops and parallel edges it returns exactly when no cycle is connected to the root. Then every history of calls on vertices connected to the root gives the results computed from the node values, except that with_init_value gives the root the value of the last vertex that is the root or not connected to it. get and set on a vertex not connected to the root address the root, its subtree is empty, the path between two such vertices is the root alone; and if vertex 0 is one of them, apply_path and path_prod between a connected and an unconnected vertex never return.",
  "every undirected graph, root and history of calls","non-termination cannot be observed by a test, and acyclicity is a global condition",["src/graph/heavy_light_decomp.rs:19-129"])
p("C81","Side effects of the user's operations do not change results",
  "If the operation, mapping, composition, addition, subtraction or search predicate given to a Fenwick tree, sparse table, segment tree, lazy segment tree or heavy-light decomposition has side effects on some state (a counter, a log) but always computes the same values and panics on the same arguments, then every constructor and method has exactly the same outcome (value, panic, or no return) as with operations without effects.",
  "every state type and effect, all operations (lawful or not, panicking or not), all trees and arguments","tests use operations without effects",["src/data_structure/fenwick_tree.rs:24-111", "src/data_structure/sparse_table.rs:18-38", "src/data_structure/segtree.rs:17-157", "src/data_structure/lazy_segtree.rs:18-278", "src/graph/heavy_light_decomp.rs:19-129"])
p("C82","How often the user's operations are called",
  "The numbers of calls of the user's functions, each compared with a run of the plain method. Segment trees over n elements have 2^L leaves with 2^L the least power of two that is at least n (so less than 2n), and stay so. from: 2^L - 1 products. set: L products; in the lazy tree also 2L mappings and 2(L-1) compositions, as get; apply one mapping more. prod: at most max(2, 2L-1) products (none in the lazy tree, one in the plain tree, for an empty range), at most 4L mappings and 4(L-1) compositions. apply_range: at most 2L products, 4L + max(1, 2(L-1)) mappings. max_right, min_left: at most max(2, 3L-2) products and max(L+2, 2L) tests. Fenwick: from exactly 2n additions less the one bits of n, pref exactly the one bits of i, add the nodes that cover i, partition_point at most 2(lg n + 1) additions and lg n + 1 tests. Sparse table: from exactly lg n (n+1) + 2 - 2^(lg n + 1), get exactly one. Heavy-light decomposition: new 2^L - 1, with_init_value 2(2^L - 1), and the path operations at most one range operation per chain on the path.",
  "all operations (also panicking and unlawful ones; lawful ones for the path operations), all sizes, arguments and reachable states","a test would have to count calls, and for every size",["src/data_structure/fenwick_tree.rs:24-111", "src/data_structure/sparse_table.rs:18-38", "src/data_structure/segtree.rs:17-157", "src/data_structure/lazy_segtree.rs:18-278", "src/graph/heavy_light_decomp.rs:19-129"])
p("C83","Aho-Corasick in any order of calls and with any numbers",
  "insert accepts exactly non-empty words of the alphabet. Searches before build restart from nothing at every byte that does not continue the current prefix of an inserted word, and find_all then lists at most the number of that prefix. On every automaton find_cnt counts the numbers that find_all lists, and panics when find_all does or when a listed number is not below n. After new(n), insertions with any numbers and build, find gives the number of the longest suffix that is a prefix of an inserted word. A word inserted after from, all of whose non-empty prefixes end with the beginning of a pattern, creates no node: its number is given to the longest suffix of it that begins a pattern, so later searches report it at wrong places; other late insertions can make searches miss patterns.",
  "all alphabets, words, numbers, texts; all automata for find_cnt","tests build with from and search afterwards",["src/string/aho_corasick.rs:27-127"])
p("C84","Size and work of Aho-Corasick",
  "After any insertions the trie has one node for every distinct prefix of the inserted words (the empty one included), at most one more than the number of bytes inserted. build goes through its queue loop exactly once per node, root excepted: one round fewer and it does not finish. A row of find_all with r entries satisfies r(r+1)/2 <= total length of the patterns, so the inner loops are short.",
  "all words and texts","tests do not count nodes or rounds",["src/string/aho_corasick.rs:43-127"])
p("C85","Work of bipartite matching",
  "After new(n, m), for every interleaving of in-range add_edge and solve calls with e edges added in all, the rounds of the outer loop in all solve calls together are at least the number of solve calls and at most the last answer plus the number of solve calls; each round looks at no more than e edges in the first loop of dfs and makes no more than n + e calls of dfs, recursive ones included. A single solve takes at most one round for every pair by which the matching grows, and one more. Counted on copies of dfs and solve that are proved to return the same.",
  "all n, m, all histories of in-range calls","tests look at answers, not at the number of rounds or calls",["src/graph/bipartite_matching.rs:23-66"])
p("C86","Work of scc",
  "On every digraph with in-range edges and fewer than 2^31 vertices, scc calls dfs exactly once for each vertex, looks exactly once at each edge (repeated edges and loops counted), and takes each vertex off the stack exactly once. Counted on a copy that is proved to return the same.",
  "all such digraphs","tests look at components only",["src/graph/tarjan.rs:21-68"])
p("C87","Release builds agree with debug builds that do not panic",
  "With overflow checks and debug_assert! off (the release profile, which Cargo.toml leaves at its defaults), every modelled function whose arithmetic could overflow returns what the debug build returns, unless the debug build panics. is_prime decides primality of every i32. Sparse tables behave the same in both profiles, panics included. Aho-Corasick in release works on the letters (byte - off) mod 256: if off + N is at most 256 both profiles agree on all patterns and texts, panics included; otherwise find_all is right for the N bytes from off on, cyclically, where the debug build panics.",
  "all arguments, all user operations, all patterns and texts of bytes","tests run in one profile and cannot compare two on all inputs",["Cargo.toml:1-11", "src/string/aho_corasick.rs:43-127", "src/data_structure/sparse_table.rs:18-38", "src/misc/util.rs:1-7", "src/math/internal_math.rs:11-234"])
p("C88","gcd, lcm and ex_crt in a release build",
  "ex_gcd in a release build returns, on every primitive integer type including the unsigned ones, the greatest common divisor up to sign with coefficients that satisfy Bezout's identity modulo 2^bits (only MIN with -1 is excluded); on signed types it does what the debug build does. lcm of non-negative arguments, not both 0, is right exactly if the product of the arguments fits, so every overflow gives a wrong number even if the least common multiple fits. ex_crt may then return a number that solves nothing, None for a solvable system, or a solution with a wrong modulus.",
  "all integer types, all arguments of the type","tests do not run release builds on overflowing arguments",["src/math/number_theory.rs:1-47"])
p("C89","Range structures in a release build",
  "A Fenwick tree over a primitive integer type in a release build returns, for every list and every history of add calls and with no bound on the sums, the prefix and range sums of the plain integers reduced to the type; so every answer that fits is right. On an empty tree partition_point returns 0 where the debug build panics. Segment tree, lazy segment tree and heavy-light decomposition return representatives of admissible results for every history of calls if the user's operations represent a lawful structure and do not panic; wrapping sums, wrapping products and wrapping range addition with range sums are such operations.",
  "all lists, all histories, all integer types, all operations as described","tests avoid overflow, and cannot try every history",["src/data_structure/fenwick_tree.rs:24-128", "src/data_structure/segtree.rs:15-153", "src/data_structure/lazy_segtree.rs:20-245", "src/graph/heavy_light_decomp.rs:19-129", "src/misc/monoids.rs:37-62"])
p("C90","Maximum flow and shortest paths in a release build",
  "After Dinic::new(n), every sequence of in-range add_edge calls with non-negative capacities of the type and get_max_flow calls runs to the end in a release build, whatever the sums of the capacities; each answer is the maximum flow value of the network left by the earlier calls, reduced to the type, and the flows themselves are right even after an answer that overflowed. dijkstra in a release build may return a distance that is too small although every distance fits.",
  "all n below 2^31, all integer types with a positive value, all histories of such calls","tests have no flow values beyond the type",["src/graph/max_flow.rs:28-88", "src/graph/shortest_path.rs:2-19"])
p("C91","Modular integers and factorials in a release build",
  "For every modulus below 2^32: + of two residues is the right residue exactly if the sum of the representatives fits a u32, and otherwise a wrong residue below the modulus; products of static modular integers are right, and powers for moduli from 2 on; the inverse for a type that claims a prime modulus is right for every prime below 2^32, and for a false claim it is right exactly if a^(m-1) is 1 modulo m; the factorial tables are right for every prime modulus below 2^32.",
  "all moduli below 2^32, all residues, all exponents below 2^64","tests use few moduli, all below 2^31, and debug builds",["src/misc/modint.rs:169-183", "src/misc/modint.rs:675-833", "src/math/factorial.rs:9-36"])
p("C92","Targets with a 32-bit usize",
  "lg has the constant 64 in its text. Where usize has 32 bits, lg(i) is therefore 32 more than the binary logarithm and lg(0) is 31. SparseTable::from then panics for every slice and every operation, in debug builds and (below 2^31 elements) in release builds. Binary lifting only gets 32 superfluous columns: is_ancestor, lca and dis are right on every tree with fewer than 2^31 vertices. Fenwick trees with fewer than 2^31 elements behave as on 64 bits, and dijkstra returns exact distances unless a distance plus the weight of an outgoing edge exceeds 2^32 - 1, when it panics.",
  "all slices, all operations that return or panic, all trees, all weighted digraphs, all histories of add calls","tests run on the 64-bit host",["src/misc/util.rs:1-3", "src/data_structure/sparse_table.rs:18-31", "src/graph/binary_lifting.rs:12-68", "src/data_structure/fenwick_tree.rs:24-111", "src/graph/shortest_path.rs:2-19"])
p("C93","Nesting depth of the recursive searches",
  "No recursive graph search nests more calls than there are vertices (one more for bipartite matching, counting the left side), and each attains its bound. scc: at most n calls on every graph, exactly n on a directed path. BinaryLifting::from and HeavyLightDecomposition::new: exactly as many nested calls as there are vertices on the longest path from the root, whenever the component of the root has no cycle. solve: at most n + 1 calls for n left vertices, and exactly n + 1 on a chain for every n of at least 2. get_max_flow: at most n calls in every state that the public functions can reach, and exactly n on a path network. A limit that is enough for a run to return or panic gives the same outcome as every higher limit.",
  "all graphs, all structures, all limits, all n","tests run on small inputs, where the stack is never the limit",["src/graph/tarjan.rs:23-68", "src/graph/binary_lifting.rs:12-42", "src/graph/heavy_light_decomp.rs:19-97", "src/graph/bipartite_matching.rs:23-66", "src/graph/max_flow.rs:48-88"])
p("C94","Single elements need no law of the binary operation",
  "In a lazy segment tree, get returns for every history of calls what it returns on a plain array to which the maps are applied one by one, whenever the identity map does nothing and a composition acts as the one map after the other. Nothing is assumed about the binary operation or about e(), except that the operation ends: it need not be associative, the maps need not distribute over it, and it may panic, in which case the run may panic too. The same holds for the node values of a heavy-light decomposition of any tree under set, apply_path and apply_subtree, from with_init_value and from new. Products then need not be right (minimum maps under a sum), and max_right may return a position beyond the end of the array if e() is not neutral.",
  "all operations, all maps that act on the elements, all arrays shorter than 2^32, all trees, all histories within the preconditions","tests use monoids and maps that satisfy the laws",["src/data_structure/lazy_segtree.rs:18-278", "src/graph/heavy_light_decomp.rs:19-129"])
p("C95","A lazy segment tree on which no range is mapped is a segment tree",
  "A LazySegtree and a Segtree made from the same list (or of the same length by new) with the same e() and op behave identically through any history of set, get, prod, all_prod, max_right and min_left, and of apply on a single position, which is get, the map and set on the plain tree: the same results, the same table of products, panics in exactly the same calls (also for arguments out of range, predicates that reject e(), and operations or maps that panic), and only identity maps pending. Nothing is assumed of the operation, and of the maps only that the identity map does nothing and composes with itself to itself. The one difference is the product of an empty range: the lazy tree returns e(), the plain tree returns op(e(), e()); so either op(e(), e()) = e() or no such product is asked for.",
  "all operations, all maps with an identity, all lists, all histories without range maps, any arguments","tests compare each tree with a naive array on lawful monoids, not the two trees with each other",["src/data_structure/segtree.rs:10-167", "src/data_structure/lazy_segtree.rs:18-278"])
p("C96","Independent implementations of the same quantity agree",
  "Programs of the library that compute the same thing by different algorithms return the same values. (1) A FenwickTree and a Segtree of sums after the same additions give the same sum of every range, and partition_point is max_right(0) for every predicate that holds of 0 and is falling along the prefix sums. (2) Range additions on a LazySegtree of zeros and get(p) give what a FenwickTree of differences gives as pref(p + 1). (3) A SparseTable and a Segtree of the same list under an idempotent monoid give the same product of every non-empty range. (4) On a tree, dis of BinaryLifting is what dijkstra finds with all weights 1. (5) On an HLD whose values are all 1 under addition, path_prod(u, v) is dis(u, v) + 1 and subtree_prod(u) is the number of nodes v with is_ancestor(u, v). (6) scc gives two nodes one colour iff dijkstra finds each from the other. (7) An AhoCorasick with one pattern marks the positions at which kmp of pattern, separator, text is the length of the pattern and those at which z_function, at the start of the occurrence, is; find_cnt counts them. (8) Modulo a prime below 2^31, inv_gcd, pow_mod with exponent p - 2, ex_gcd reduced modulo p and ex_crt of one congruence give the same inverse.",
  "all lists, additions, ranges, trees, graphs, patterns and texts, primes within the stated ranges","tests check each structure alone on a few inputs; agreement is a claim about two programs on all inputs",["src/data_structure/fenwick_tree.rs", "src/data_structure/segtree.rs", "src/data_structure/lazy_segtree.rs", "src/data_structure/sparse_table.rs", "src/graph/binary_lifting.rs", "src/graph/shortest_path.rs", "src/graph/heavy_light_decomp.rs", "src/graph/tarjan.rs", "src/string/kmp.rs", "src/string/z_algorithm.rs", "src/string/aho_corasick.rs", "src/math/internal_math.rs: inv_gcd, pow_mod", "src/math/number_theory.rs: ex_gcd, ex_crt"])
p("C97","A heavy-light decomposition of sums overflows exactly when the sum of all node values does",
  "Take an HLD on a tree of fewer than 2^32 nodes whose values are pairs (sum, 1) and whose maps add a constant, all numbers of an unsigned type of w bits, w at least 32, with additions and products that panic on overflow. Through any history of get, set, apply_path, path_prod, apply_subtree and subtree_prod with nodes in range: if the sum of all node values fits in the type before and after every call, no call panics and every answer is the right one; if at some moment it does not fit, the history panics. So neither sums of chains, nor composed pending maps, nor the intermediate states inside one apply_path, where only part of the path has been increased, overflow on their own.",
  "all trees, roots, node values, widths of at least 32 bits, histories of calls with nodes in range","tests use small values; which intermediate sums and pending maps arise depends on the whole history and on the decomposition",["src/graph/heavy_light_decomp.rs:19-130", "src/data_structure/lazy_segtree.rs:18-278"])
p("C98","Maximum flows are walk packings, and the final levels are the least minimum cut",
  "Enter any edges of non-negative capacity into Dinic and call get_max_flow any number of times with the same two different terminals s and t, the last call with no edge after it, total capacity within the type. The answers add up to the largest number of walks from s to t that together use no edge more often than its capacity, and to the least total capacity of edges that every such walk has to use; with all capacities 1 this is Menger's theorem: the largest number of edge-disjoint walks is the least number of separating edges. The sum is positive exactly when some walk uses only edges of positive capacity. The vertices whose level is not -1 after the last call are the source side of a minimum cut, and this side is contained in the source side of every minimum cut.",
  "every integer type, fewer than 2^31 vertices, all edges and capacities with the sum within the type, all histories with the same terminals s and t, s different from t","a wrong final level structure or a flow that is not a packing of walks shows only on certain networks; tests check the number alone, and only on small ones",["src/graph/max_flow.rs:17-88"])
p("C99","Deficiency, Hall's condition, independent sets and edge covers from AugmentedPath::solve",
  "Enter the edges of any bipartite graph with n left and m right vertices into AugmentedPath and call solve. The answer is the least value of n less the size of A plus the number of neighbours of A, over all sets A of left vertices; it is n exactly when every such set has at least as many neighbours as elements. n + m less the answer is the largest number of vertices with no edge between them, and, when no vertex is isolated, the least number of edges that touch every vertex. After the first round of the outer loop of solve every edge already has a matched end, so at least half of the final number of pairs is matched then; a graph where it is exactly half is given.",
  "every bipartite graph, repeated edges allowed","Hall's condition and the two covering numbers range over all subsets of the vertices; tests compare the answer with a handful of known values",["src/graph/bipartite_matching.rs:8-66"])
p("C100","2-satisfiability, topological orders and universal vertices from the colours of scc",
  "Call scc on the implication graph of any list of clauses of two literals over n variables: the clauses can be satisfied exactly when no variable has the colour of its negation, and then making true the literals whose colour is smaller than that of their negation satisfies all of them. On any digraph: there is no cycle exactly when there are as many components as vertices and no loops, and then the colours are a permutation of 0..n and every edge goes to a strictly smaller colour. If some vertex reaches all others, those that do are the vertices of the largest colour; if some vertex is reached from all others, those that are have colour 0; the graph is strongly connected exactly when there is at most one component.",
  "every digraph with in-range edges and fewer than 2^31 vertices; every list of two-literal clauses over fewer than 2^30 variables","these uses rest on the order of the colours and not only on which are equal; a numbering in another order passes tests that compare components",["src/graph/tarjan.rs:1-68"])
p("C101","Distances of BinaryLifting as a tree metric, two sweeps for the diameter, and lca for another root",
  "For the adjacency list of any tree, dis computes the same function D whichever root from was given. D is zero only for equal vertices, one exactly for adjacent ones, symmetric, satisfies the triangle inequality and the four point condition, and D(u,v) + D(v,w) = D(u,w) exactly when v is on the path from u to w. If a is farthest from some vertex and b is farthest from a, no two vertices are farther apart than a and b, and the vertex farthest from any vertex is a or b. For any vertex r, two of lca(u,v), lca(u,r), lca(v,r) are equal, and the exclusive or of the three is what lca(u,v) answers for the structure built with root r.",
  "every tree with fewer than 2^63 vertices, every pair of roots and all vertices","these are the identities client code relies on when it rebuilds nothing; a wrong answer at one pair of vertices only shows on trees that contain that shape",["src/graph/binary_lifting.rs:1-69"])
p("C102","Relations between several runs of dijkstra",
  "Whenever the runs concerned return (with any heaps): the result is 0 at the source, rises along every edge by at most its weight, is above every other function with these two properties, and every other entry is attained by a last edge. Runs from s and from u satisfy the triangle inequality, with equality exactly when some lightest walk from s to v passes through u. Turning all edges round exchanges source and target. Reducing the weights by a feasible function p changes every distance by p(s) - p(v); multiplying the weights by k multiplies the distances by k. A run from an added vertex with edges of weight 0 to a set of vertices gives the least of the distances from them. After adding an edge every distance is the least of the old one and the one over the new edge.",
  "every weighted digraph, source, heap implementation, feasible function, factor, set of sources and added edge for which the runs return","each clause compares two or three runs on different graphs, for all graphs; tests compare one run with expected numbers",["src/graph/shortest_path.rs:1-19"])
p("C103","Relations between several runs of get_max_flow",
  "For fresh networks whose vertices exist, whose capacities are not negative and together fit the type, and for different terminals: get_max_flow returns, and the answer is the least capacity of a cut. The answer does not depend on the order of the edges; turning all edges round and exchanging the terminals keeps it, so in a symmetric network the terminals may be exchanged. Multiplying all capacities by k multiplies it by k. Parallel edges may be merged. Loops, edges into the source and edges out of the sink may be dropped. It is at most the capacity leaving the source and the capacity entering the sink. The answers for two sets of edges add up to at most the answer for both together; one more edge never lowers the answer and raises it by at most its capacity. The answer from s to t is at least the smaller of the answers from s to u and from u to t; in a symmetric network the two smaller of the answers for three pairs are equal.",
  "every integer type, number of vertices below 2^31, list of edges within these bounds, pair of different terminals, factor, added edge and third vertex","each clause compares two or more runs on different networks or terminals, for all networks; tests compare one run with an expected number",["src/graph/max_flow.rs:1-89"])
p("C104","Relations between several runs of AugmentedPath::solve",
  "For fresh bipartite graphs with edges in range: solve always answers, and the answer depends only on the set of edges (not on their order, repetitions or unused vertices), is kept when vertices are renamed injectively and when the sides are exchanged, and does not fall when edges are added; one more edge raises it by at most one; deleting all edges at one vertex lowers it by at most one. For two sets of edges together it is at least the larger and at most the sum of the answers, and exactly the sum when they have no common vertices. As a function of the set of left vertices that may be used the answer is submodular, and when all of A and all of a larger set B can be matched, some vertex of B can be added to A (the matchable sets form a matroid).",
  "every bipartite graph, added edge, deleted vertex, renaming, second graph and pair of sets of left vertices","each clause compares two to four runs on different graphs, for all graphs; tests compare one run with an expected number",["src/graph/bipartite_matching.rs:1-67"])
p("C105","Relations between several runs of scc",
  "Whenever the runs concerned return: turning all edges round gives the same components; graphs with the same reachability have the same components; with more edges components only grow together and there are no more of them; renaming the vertices renames the components. Adding an edge u to v joins exactly the components that lie on walks from v to u, and leaves the number of components unchanged exactly when v does not reach u or both are in one component already. In the graph of the components walks correspond to those of the graph, and scc on it gives every vertex its own colour, with the same number of components.",
  "every digraph, reversed graph, larger graph, renaming and added edge for which the runs return","each clause compares two runs on different graphs, for all graphs; tests compare one run with expected colours",["src/graph/tarjan.rs:1-68"])
p("C106","Algebra of gcd, lcm, ex_gcd and ex_crt across several calls",
  "On non-negative values of any primitive integer type: gcd is commutative, associative and idempotent with unit 0, unchanged when a multiple of the second argument is added to the first, and lets a common factor out; gcd times lcm is the product; lcm is commutative, panics included, and associative when both ways return; for positive values, when lcm(b, c) returns, lcm(gcd(a, b), gcd(a, c)) returns and equals gcd(a, lcm(b, c)). Folding gcd over a list gives the greatest common divisor of its elements, whatever their order and repetitions. On signed types a u + b v = c is solvable exactly when the third answer of ex_gcd divides c, and then by multiples of the other two. Two congruence systems with the same solutions (a[i] >= 0, m[i] > 0), in particular the same congruences in another order or repeated, get the same answer of ex_crt when both calls return, and the answers for two parts of a system, given to a third call, give the answer for the whole when the calls return.",
  "every primitive integer type, all values, lists and systems of congruences within these conditions","each clause relates the results of several calls, for all arguments; tests compare single calls with expected numbers",["src/math/number_theory.rs:1-47"])
p("C107","Relations between several runs of kmp and z_function",
  "The run of kmp on a prefix of a string computes a prefix of its result, and for z_function the entries are cut off where the prefix ends; renaming the letters injectively changes neither result; consecutive entries of kmp grow by at most one. The chain m, pi[m-1], pi[pi[m-1]-1], ..., 0 lists exactly the lengths of the borders of the prefix of length m. A string and its reverse have the same last entry. With k the last entry of kmp(s) for a non-empty s and d = len(s) - k, s is a power of a shorter string exactly when k > 0 and d divides len(s); then its first d letters are a root and d divides the length of every root. The prefix of length L >= 1 occurs in s once more than there are entries >= L in z_function(s). For two strings of equal length n > 0, t is a rotation of s exactly when one of the entries n..2n-1 of z_function(t s s) is at least n. With a letter c not in s, the last entry of kmp(s c reverse(s)) is the length of the longest palindromic prefix of s.",
  "all strings over any type of letters with decidable equality, all prefix lengths and renamings","each clause relates the results on different strings or an entry to all factorisations, borders or rotations of the string",["src/string/kmp.rs: kmp", "src/string/z_algorithm.rs: z_function"])
p("C108","Programs that use the Fenwick tree: ranks, order statistics, inversions, range additions",
  "Numbers below n are put into a FenwickTree of w-bit signed counts by add(x, 1) and taken out by add(x, -1), only when present, in fewer than 2^(w-1) calls: all calls return, pref(x) is the number of elements below x, sum(l, r) the number of elements in l..r, and search(k) for 1 <= k <= the number of elements is the k-th smallest one (an element with fewer than k elements below it and at least k up to it), and n for greater k. Going through a list of numbers below n, adding up sum(x + 1, n) before each add(x, 1), counts its inversions. With the calls add(l, v); add(r, -v) for every range addition, l <= r, on a new tree over a commutative group, pref(i + 1) is the sum of the values added to the ranges that contain i.",
  "every n < 2^63, width w, history of insertions and removals, list of numbers, list of range additions that stays within the type","whole programs against multisets, inversions and range additions; tests run single calls on one small array",["src/data_structure/fenwick_tree.rs: add, pref, sum, search"])
p("C109","Identities between several calls of modular integers, primitive_root and Factorial",
  "For a modulus 2 <= m <= 2^31: pow(x, a + b) = pow(x, a) * pow(x, b), pow(x, a * b) = pow(pow(x, a), b) and pow(x * y, a) = pow(x, a) * pow(y, a), when the exponents fit u64. For a prime modulus p < 2^31 and a != 0: pow(a, p - 1) is 1 and pow(a, p - 2) is inv(a); for p odd pow(a, (p - 1) / 2) is 1 when a is a square and -1 when not; with g = primitive_root(p) every a != 0 is pow(g, e) for exactly one e < p - 1. For a Factorial table of size n < p: Pascal's rule and the symmetry of choose, choose(a, r) * perm(r, r) = perm(a, r), the row sums are pow(2, a) (p odd), Vandermonde's identity (r <= a, r <= b, a + b <= n), and perm(p - 1, p - 1) = -1 in the largest table.",
  "every modulus or prime in these ranges, static or dynamic (static for the tables), all operands, exponents and table arguments","each clause relates the results of many calls, for every prime; tests check single values",["src/misc/modint.rs: pow, inv, Mul, Sum", "src/math/internal_math.rs: primitive_root", "src/math/factorial.rs: choose, perm"])
p("C110","Relations between several automata and searches of AhoCorasick",
  "For non-empty patterns over the alphabet: from, find_all and find_cnt always answer. The rows of find_all for a text are the first rows for every longer text beginning with it. With a text s put before t, the row at position i of t lists first numbers of patterns longer than i + 1 and then exactly the row of t alone. The strings listed, with their order, depend only on the set of patterns, not on their order or repetitions. After one more pattern, different from the others, the rows without its number are the old rows. Renaming the bytes, different ones differently, into any alphabet leaves the rows unchanged. The count of a pattern in s ++ t is at least the sum of its counts in s and t, and at most len - 1 more. Reversing all patterns and the text leaves the counts unchanged.",
  "all const parameters OFFSET and N, all lists of non-empty patterns and all texts over the alphabet","each clause compares automata or searches for different inputs; tests look at single automata",["src/string/aho_corasick.rs: from, insert, build, find_all, find_cnt"])
p("C111","Joining representatives: components, spanning forests and Kruskal's algorithm with UnionFind",
  "A program that calls join(find(x), find(y)) for each edge of any list (n < 2^63, vertices below n) never panics; afterwards is_same is exactly connectivity through the edges and size(x) the number of vertices connected to x; one more such join answers true exactly if the ends were not connected. The edges for which it answered true are a spanning forest: they connect what all edges connect, no one of them can be left out, and their number plus the number of groups() is n. When the edges come in order of weight, the kept edges have the least total weight of all selections of edges connecting the same vertices (Kruskal). With plain join(x, y) the same loop keeps an edge that closes a circle.",
  "all n < 2^63, all lists of weighted edges below n (for Kruskal sorted by weight), all rival selections","connectivity, minimality and the number of groups over all graphs; shows the usage under which the partial properties C10 and C12 hold in full",["src/data_structure/union_find.rs: find, join, is_same, size, groups"])
p("C112","Programs that use MinHeap: the k largest of a stream, merging sorted lists, Huffman's algorithm",
  "Pushing each element of a stream and popping whenever len() exceeds k leaves the k largest: into_sorted_vec is the first k of the stream sorted in non-increasing order. Merging sorted lists through a heap of their heads (pop the least, push the next element of the same list) gives all elements in non-decreasing order. Popping two numbers and pushing their sum until one is left (Huffman) adds up to the least sum of weight times depth over all binary trees with these leaf weights, and a tree attains it.",
  "every totally ordered element type, every correct BinaryHeap, all streams, lists of sorted lists, non-empty lists of weights and binary trees","the claims compare the outcome of whole runs with all trees or with the sorted stream; tests see single runs",["src/data_structure/min_heap.rs: new, push, pop, len, into_sorted_vec"])
p("C113","Laws between calls of the segment trees: interchangeable updates, fitting answers, searches as inverses, mirror image",
  "In every reachable lazy segment tree the following update sequences can replace each other without any later answer changing: two sets at one position and the last one, sets at different positions in either order, set then apply and set of the mapped value, apply and apply_range of one position, an empty or identity apply_range and nothing, two maps on one range and their composition, a range and its two parts, ranges that are disjoint or whose maps commute in either order, and the four ways a set meets a range. prod(l,m)*prod(m,r) = prod(l,r), prod(p,p+1) = get(p), prod(0,n) = all_prod(), and apply_range maps the product of its range. For a predicate that passes to factors min_left(r) <= l exactly when r <= max_right(l), exactly when it holds of prod(l,r). A tree over the reversed list with the operation's factors swapped has the mirrored products and searches.",
  "every (non-commutative) monoid and lawful map monoid, all reachable states, all arguments within the preconditions, all later histories","each law compares two runs from an arbitrary reachable state under all continuations",["src/data_structure/lazy_segtree.rs: set, get, prod, all_prod, apply, apply_range, max_right, min_left", "src/data_structure/segtree.rs: from, set, prod, max_right, min_left"])
p("C114","Relations between calls of heavy-light decompositions: interchangeable updates, fitting products, isomorphic trees",
  "Two decompositions of the same tree and root in which get reads the same at every node answer every later history alike, for any monoid. In every reachable state these updates can replace each other: two sets, set and map of one node, apply_path(u,v) and apply_path(v,u), a path and two paths it is cut into, a subtree and its top node with the subtrees of the children, two maps of one path or subtree and their composition, the identity map and nothing, disjoint subtrees or commuting maps in either order. For commutative operations path_prod is symmetric, path_prod(u,u) = get(u), it splits at each node of the path, path_prod(r,u)*path_prod(r,v)*get(l) = path_prod(u,v)*path_prod(r,l)^2 for the root r and the lowest common ancestor l, subtree_prod of the root is the product of everything and subtree_prod(u) is get(u) times those of its children. Decompositions of isomorphic trees answer corresponding histories alike; without subtree calls the roots may be different nodes.",
  "every tree, root, lawful map monoid (commutative where said), all reachable states, all later histories, all renamings of the nodes","each law compares two runs from an arbitrary reachable state under all continuations, or two trees under all histories",["src/graph/heavy_light_decomp.rs: new, with_init_value, apply_path, path_prod, apply_subtree, subtree_prod, get, set"])
p("C115","Relations between input readers: only tokens matter, texts can be joined, vec can be split, numbers written out are read back",
  "Two texts with the same tokens, however they are separated, give the same results for every list of calls, panics included. If some calls without checked_read read a text to its end, then these calls followed by others on that text and a further one that starts with white space give the results of the first part followed by those of the others on the further text, and panic exactly when the others do. vec(m+n) gives what vec(m) and vec(n) after one another give, put together, for all later calls and on every text, also when it panics. Integers of any type written in decimal, in rows of any lengths, are read back by one vec per row.",
  "all texts, all lists of calls, all integer types, all rows of values of the type","each law compares two texts or two call lists over all inputs, with panics on either side",["src/misc/input.rs: new, read, checked_read, i32, i64, usize, bytes, chars, vec"])
p("C116","Relations between calls of sparse tables: only the elements of the range matter, joins, homomorphisms, reversal, first minimum, gcd",
  "For an associative idempotent operation and ranges within the slice: tables of any two slices, with any fillers, answer alike on ranges with the same elements, panics included; get(l,m') and get(m,r) with l<=m<=m'<=r combine to get(l,r), also if the operation is not commutative; a homomorphism of operations carries the answers over; the table of the reversed slice with exchanged arguments answers mirrored ranges alike; a value is below get(l,r) exactly if it is below every element of the range whenever being below op(x,y) means being below both. The table of (value, position) pairs that keeps the left of equal values gives the first position of the smallest value in the range. The table of non-negative integers with the crate's gcd is built without a panic for every integer type and answers with the greatest common divisor of the range.",
  "all slices shorter than 2^64, all fillers, all associative idempotent operations, all ranges within the slice, all integer types","each law compares two tables or two queries over all slices and operations; an off-by-one in a level only shows for particular lengths",["src/data_structure/sparse_table.rs: from, get", "src/math/number_theory.rs: gcd"])
p("C117","Programs that use the segment trees: increasing subsequences, greatest subarray sums, balanced brackets, overlapping intervals",
  "If the elements of a Segtree describe lists and its operation describes concatenation, then after any writes prod(l,r) describes the list of the current entries l..r, and nothing panics; the operation need not be associative on values that describe nothing. From this: with the usual four-component monoid prod(l,r) holds the greatest sum of a contiguous part of the range, and with pairs of unmatched brackets prod(l,r) is (0,0) exactly if the range is balanced. The dynamic program over a Segtree with the crate's Max of u64 returns the length of the longest strictly increasing subsequence of any list of numbers below n. With a LazySegtree of range additions and maxima, intervals added one after the other give after each the greatest number of intervals that share a point.",
  "all lists shorter than 2^32 (subsequences: numbers below n < 2^32), all writes within the length, all ranges, all sequences of intervals within the length","the claims are about optima over exponentially many subsequences or all subarrays, after arbitrary updates",["src/data_structure/segtree.rs: new, from, set, prod, all_prod", "src/data_structure/lazy_segtree.rs: new, apply_range, all_prod", "src/misc/monoids.rs: Max"])
p("C118","Bipartite matching gives minimum path covers of acyclic graphs, and Dilworth's theorem",
  "Enter a directed graph on n vertices into AugmentedPath with every vertex once on the left and once on the right. If the graph has no circle, n minus the answer of solve is the least number of vertex-disjoint paths that contain every vertex. If its edges are all pairs of a strict order, the same number is also the greatest size of a set of pairwise incomparable vertices. With a circle the first claim is false: on 0 to 1 to 0 the answer is 2, but no cover has 0 paths.",
  "all n and all edge lists on vertices below n, in any order and with repeated edges, that are acyclic (paths) or a strict order (antichains)","the claims are about optima over all path covers and all antichains, of which there are exponentially many",["src/graph/bipartite_matching.rs: new, add_edge, solve"])
p("C119","Programs that use Dinic: selection with requirements, two-label labelling, vertex separators, vertex-disjoint walks",
  "Four standard uses of get_max_flow return what they are used for. Selection: with gains from the source, losses to the sink and requirements as edges whose capacity is at least the sum of gains, the sum of gains minus the answer is the greatest profit of a selection that contains with a thing all it requires. Labelling: the answer is the least cost of giving each thing one of two labels, where things pay for their labels and pairs pay for different labels. Vertex separators: if every vertex v is split into an edge from 2v to 2v+1 with its weight and the other edges have a larger capacity than all weights together, the answer between two vertices not joined by an edge is the least weight of vertices that every walk has to visit. With all weights 1 it is also the largest number of walks that together visit every other vertex at most once (Menger).",
  "all numbers of things or vertices n with the network's vertex count below 2^31, all gains, losses, costs and weights, all lists of requirements, pairs or edges, such that no capacity is negative and all capacities together fit the type","the claims are about optima over exponentially many selections, labellings, separators and families of walks",["src/graph/max_flow.rs: new, add_edge, get_max_flow"])
p("C120","Whole programs: from the text of the input to the answers",
  "Five short programs that read their input with the crate's reader and answer with one of its structures are right for every input text, whatever white space separates the numbers: point additions and range sums with FenwickTree of i64 (answers of the plain list), bipartite matching with AugmentedPath (size of a maximum matching), maximum flow with Dinic of i64 (value of a maximum flow and of a least cut), distances with dijkstra (least weight of a walk along the listed edges, None if there is none) and strongly connected components with scc (same colour exactly if each vertex can be reached from the other along the listed edges).",
  "all instances whose counts fit usize, with positions and vertices in range, numbers or capacities together below 2^63 (sums, flow), no overflowing distance (dijkstra), fewer than 2^31 vertices (flow, components); all texts whose tokens are the decimal numerals of the instance","the claim is about all texts and all instances at once; it covers the way in which the reader and the structure are put together",["src/misc/input.rs: new, usize, i64, vec, read", "src/data_structure/fenwick_tree.rs: from, add, sum", "src/graph/bipartite_matching.rs: new, add_edge, solve", "src/graph/max_flow.rs: new, add_edge, get_max_flow", "src/graph/shortest_path.rs: dijkstra", "src/graph/tarjan.rs: scc"])
p("C121","Programs that use scc: the most a walk can collect, longest walks",
  "A program that calls scc and then goes once through the components in the order of their numbers, adding the weights of a component to the best entry that one of its edges leads to, returns for every vertex the most that a walk from it can collect when every visited vertex counts once: some walk collects that much, no walk of any length collects more. In a graph without circles and with all weights one it returns the number of vertices of the longest walk from each vertex.",
  "all digraphs with in-range edges and fewer than 2^31 vertices, all weights (unbounded natural numbers), all walks","the optimum is over infinitely many walks, and the claim uses partition and order of the components together",["src/graph/tarjan.rs: scc"])
p("C122","Programs that use BinaryLifting: edges used by paths, ancestors by distance, vertices of a path",
  "Three uses of BinaryLifting. Marking both ends of every path of a list and taking two marks away at lca, the marks of the vertices that is_ancestor places below x add up to the number of listed paths that go along the edge from x to its parent, and to zero for the root. Following the tables pa along the binary digits of k gives the vertex k edges up (the root if there is none). With lca, dep and dis this gives, for every k, the vertex k edges along the path from u to v.",
  "all trees, all roots, all lists of pairs of vertices, all vertices and all k below the number of vertices; fewer than 2^63 vertices where dis is used","the claim is about all trees and all lists of paths at once; a wrong lca changes the sums only for some edges",["src/graph/binary_lifting.rs: from, is_ancestor, lca, dis, pa, dep"])
p("C123","Programs that use the string functions: different substrings, shortest palindromes, ways to put a text together",
  "Three uses of the string functions. Adding up, for every suffix, its length minus the greatest entry of its z_function gives the number of different substrings that are not empty. Putting in front of s the reverse of what follows the last entry of kmp(s + c + reverse s), where c does not occur in s, gives the shortest palindrome that ends with s. Adding up along the rows of find_all gives the number of ways to write a text as patterns one after the other.",
  "all strings over all types with decidable equality; all lists of patterns that are not empty and all texts over the alphabet of the automaton","the claims count sets of exponentially many things or are about all palindromes",["src/string/z_algorithm.rs: z_function", "src/string/kmp.rs: kmp", "src/string/aho_corasick.rs: from, find_all"])
p("C124","Programs that use dijkstra: finding a lightest walk by going back, walks with free edges",
  "Two uses of dijkstra. If all weights are positive, going back from a vertex along edges on which the distances fit exactly arrives at the source, and the vertices met are a walk whose weight is the distance, the least of all walks; with edges of weight zero the same loop may run for ever (proved with a concrete graph). On k + 1 copies of the graph, where every edge also leads to the next copy at no cost, the least entry of the copies of v is the least cost of a walk to v on which at most k edges are taken free, and there is none exactly if no walk leads to v.",
  "all weighted digraphs and sources for which the run returns, all heaps that keep the contract of BinaryHeap; positive weights for going back, edges in range for the copies; all k","the optimum is over infinitely many walks; the loop going back stops only if no circle fits exactly",["src/graph/shortest_path.rs: dijkstra"])
p("C125","Programs that count with Factorial: balanced words, selections with repetition, derangements",
  "With a table up to N for a prime modulus p > N: choose(2n, n) - choose(2n, n+1) is the number of balanced words of n opening and n closing brackets modulo p, choose(n + r - 1, r) is the number of multisets of r things out of n modulo p, and the alternating sum of perm(n, n - i) for i from 0 to n is the number of permutations of n things without a fixed point modulo p.",
  "all primes p < 2^31, all table sizes N < p, all n >= 1 with 2n <= N, all n >= 1 and r with n + r - 1 <= N, all n <= N","the counts are of exponentially many objects, and the equality is needed for every prime and every table size",["src/math/factorial.rs: choose", "src/math/factorial.rs: perm", "src/misc/modint.rs: add_impl, sub_impl"])
p("C126","Programs that use gcd: numbers prime to n, necklaces, lattice points",
  "Counting the i in 0..n with gcd(i, n) = 1 gives Euler's totient of n. With modular integers for a prime p that does not divide n, the sum of new(c).pow(gcd(i, n)) for i in 0..n divided by new(n) is the number of necklaces of n beads in c colours (colourings of a circle up to rotation) modulo p; if p divides n the division panics. gcd(a, b) + 1 is the number of points with integer coordinates on the segment from (0, 0) to (a, b).",
  "all n < 2^64; all primes p < 2^31, all n >= 1 and c below 2^64, with and without the prime hint; all a, b below 2^63 not both 0","the number of colourings is exponential, and the equality is Burnside's lemma for every n, c and p",["src/math/number_theory.rs: gcd", "src/misc/modint.rs: pow, add_impl, div_impl"])
with open("/verif/properties.jsonl","w") as f:
    for x in P: f.write(json.dumps(x)+"\n")
