{
 "claims": [
  {
   "property": "C01",
   "status": "proved",
   "theorems": [
    "Verif.Props.C01_lg",
    "Verif.Props.C01_lg_zero",
    "Verif.Props.C01_ceil_lg"
   ],
   "note": ""
  },
  {
   "property": "C27",
   "status": "proved",
   "theorems": [
    "Verif.Props.C27_kmp"
   ],
   "note": ""
  },
  {
   "property": "C28",
   "status": "proved",
   "theorems": [
    "Verif.Props.C28_z"
   ],
   "note": ""
  },
  {
   "property": "C10",
   "status": "partial",
   "theorems": [
    "Verif.Props.C10_false",
    "Verif.Props.C10_connectivity_partial",
    "Verif.Props.C10_exact",
    "Verif.Props.C10_join_effect",
    "Verif.Props.C10_join_result"
   ],
   "note": "The full statement is false of the code (join links the arguments, not their representatives): C10_false is the negation with a concrete history. Proved for all histories whose joins have a representative as first argument; C10_exact shows that these are exactly the histories for which the statement holds throughout, and C10_join_effect says what a join does in every history; the return-value half is proved for all histories."
  },
  {
   "property": "C11",
   "status": "proved",
   "theorems": [
    "Verif.Props.C11_find_representative",
    "Verif.Props.C11_is_same_equivalence",
    "Verif.Props.C11_queries_preserve",
    "Verif.Props.C11_same_after_join",
    "Verif.Props.C11_sound",
    "Verif.Props.C11_terminates",
    "Verif.Props.C11_out_of_range_panics",
    "Verif.Props.C11_overflow_witness"
   ],
   "note": "join may panic by overflow of a size counter (C11_overflow_witness); it never diverges."
  },
  {
   "property": "C12",
   "status": "partial",
   "theorems": [
    "Verif.Props.C12_false",
    "Verif.Props.C12_size_partial",
    "Verif.Props.C12_exact"
   ],
   "note": "The full statement is false of the code: C12_false is the negation with a concrete history. Proved, with absence of panics, for all histories that join representatives; C12_exact shows that these are exactly the histories in which all sizes stay right."
  },
  {
   "property": "C13",
   "status": "proved",
   "theorems": [
    "Verif.Props.C13_groups"
   ],
   "note": ""
  },
  {
   "property": "C02",
   "status": "proved",
   "theorems": [
    "Verif.Props.C02_history",
    "Verif.Props.C02_new",
    "Verif.Props.C02_from_eq_adds",
    "Verif.Props.C02_add_out_of_range"
   ],
   "note": ""
  },
  {
   "property": "C03",
   "status": "proved",
   "theorems": [
    "Verif.Props.C03_partition_point",
    "Verif.Props.C03_empty_panics",
    "Verif.Props.C03_search"
   ],
   "note": ""
  },
  {
   "property": "C09",
   "status": "proved",
   "theorems": [
    "Verif.Props.C09_range_fold",
    "Verif.Props.C09_panics",
    "Verif.Props.C09_out_of_range_not_rejected"
   ],
   "note": ""
  },
  {
   "property": "C04",
   "status": "proved",
   "theorems": [
    "Verif.Props.C04_history",
    "Verif.Props.C04_new"
   ],
   "note": ""
  },
  {
   "property": "C05",
   "status": "proved",
   "theorems": [
    "Verif.Props.C05_boundary",
    "Verif.Props.C05_maximum",
    "Verif.Props.C05_panics"
   ],
   "note": ""
  },
  {
   "property": "C06",
   "status": "proved",
   "theorems": [
    "Verif.Props.C06_boundary",
    "Verif.Props.C06_minimum",
    "Verif.Props.C06_panics"
   ],
   "note": ""
  },
  {
   "property": "C07",
   "status": "proved",
   "theorems": [
    "Verif.Props.C07_history",
    "Verif.Props.C07_new",
    "Verif.Props.C07_panics",
    "Verif.Props.C08_queries_transparent"
   ],
   "note": "User-supplied operations are total functions in the model (operations that may panic are in C64, predicates with a state in C68)."
  },
  {
   "property": "C08",
   "status": "proved",
   "theorems": [
    "Verif.Props.C08_max_right",
    "Verif.Props.C08_max_right_maximum",
    "Verif.Props.C08_min_left",
    "Verif.Props.C08_min_left_minimum",
    "Verif.Props.C08_plain_tree",
    "Verif.Props.C08_queries_transparent",
    "Verif.Props.C07_panics"
   ],
   "note": ""
  },
  {
   "property": "C14",
   "status": "proved",
   "theorems": [
    "Verif.Props.C14_history",
    "Verif.Props.C14_deterministic",
    "Verif.Props.C14_sorted_vec_descending"
   ],
   "note": "Proved over any implementation meeting the documented BinaryHeap contract (structure BinaryHeap); std's own heap code is not modelled."
  },
  {
   "property": "C15",
   "status": "proved",
   "theorems": [
    "Verif.Props.C15_shortest_paths",
    "Verif.Props.C15_source",
    "Verif.Props.C15_panics_iff"
   ],
   "note": "The hypotheses are exact: C15_panics_iff."
  },
  {
   "property": "C16",
   "status": "proved",
   "theorems": [
    "Verif.Props.C16_is_ancestor"
   ],
   "note": ""
  },
  {
   "property": "C17",
   "status": "proved",
   "theorems": [
    "Verif.Props.C17_lca",
    "Verif.Props.C17_lca_unique",
    "Verif.Props.C17_dis",
    "Verif.Props.C17_tables"
   ],
   "note": ""
  },
  {
   "property": "C23",
   "status": "proved",
   "theorems": [
    "Verif.Props.C23_new",
    "Verif.Props.C23_history",
    "Verif.Props.C23_new_history",
    "Verif.Props.C23_new_panics",
    "Verif.Props.C23_init_panics"
   ],
   "note": "n < 2^32 as for the lazy segment tree."
  },
  {
   "property": "C24",
   "status": "proved",
   "theorems": [
    "Verif.Props.C24_apply_subtree",
    "Verif.Props.C24_subtree_prod",
    "Verif.Props.C23_history"
   ],
   "note": ""
  },
  {
   "property": "C25",
   "status": "proved",
   "theorems": [
    "Verif.Props.C25_apply_path",
    "Verif.Props.C25_path_prod_perm",
    "Verif.Props.C25_path_prod",
    "Verif.Props.C23_history"
   ],
   "note": ""
  },
  {
   "property": "C26",
   "status": "partial",
   "theorems": [
    "Verif.Props.C26_not_path_order",
    "Verif.Props.C26_not_path_order_down",
    "Verif.Props.C26_in_order_partial",
    "Verif.Props.C26_exact",
    "Verif.Props.C26_same_chain_partial"
   ],
   "note": "The full statement is false of the code: two concrete witnesses with a non-commutative monoid. Proved when every edge climbed is light and every edge descended is heavy; C26_exact shows that these are exactly the pairs of nodes for which the statement holds."
  },
  {
   "property": "C53",
   "status": "proved",
   "theorems": [
    "Verif.Props.C53_light_edges",
    "Verif.Props.C53_path_rounds"
   ],
   "note": ""
  },
  {
   "property": "C18",
   "status": "proved",
   "theorems": [
    "Verif.Props.C18_history",
    "Verif.Props.C18_unique",
    "Verif.Props.C18_add_edge_panics",
    "Verif.Props.C18_right_out_of_range",
    "Verif.Props.C18_any_right",
    "Verif.Props.C18_right_panics"
   ],
   "note": ""
  },
  {
   "property": "C21",
   "status": "proved",
   "theorems": [
    "Verif.Props.C21_scc",
    "Verif.Props.C21_panics_iff"
   ],
   "note": "The hypotheses of C21_scc are exact: otherwise the call panics (C21_panics_iff)."
  },
  {
   "property": "C22",
   "status": "proved",
   "theorems": [
    "Verif.Props.C22_reverse_topological",
    "Verif.Props.C22_edges"
   ],
   "note": "Fewer than 2^31 vertices (the i32 counter)."
  },
  {
   "property": "C19",
   "status": "proved",
   "theorems": [
    "Verif.Props.C19_get_max_flow",
    "Verif.Props.C19_overflow_panics",
    "Verif.Props.C19_history",
    "Verif.Props.C19_incremental",
    "Verif.Props.C19_fresh",
    "Verif.Props.C19_terminals_panic"
   ],
   "note": "Fewer than 2^31 vertices (i32 levels), non-negative capacities. The representability hypothesis is exact (C19_overflow_panics)."
  },
  {
   "property": "C20",
   "status": "proved",
   "theorems": [
    "Verif.Props.C20_capacities",
    "Verif.Props.C20_conservation"
   ],
   "note": "Fewer than 2^31 vertices (i32 levels), non-negative capacities."
  },
  {
   "property": "C29",
   "status": "proved",
   "theorems": [
    "Verif.Props.C29_find_all",
    "Verif.Props.C29_inserts",
    "Verif.Props.C29_bad_pattern_panics",
    "Verif.Props.C29_bad_text_panics"
   ],
   "note": ""
  },
  {
   "property": "C30",
   "status": "proved",
   "theorems": [
    "Verif.Props.C30_find_cnt",
    "Verif.Props.C29_bad_text_panics"
   ],
   "note": ""
  },
  {
   "property": "C31",
   "status": "proved",
   "theorems": [
    "Verif.Props.C31_find",
    "Verif.Props.C31_unique",
    "Verif.Props.C31_sound",
    "Verif.Props.C31_misses_shorter",
    "Verif.Props.C29_bad_text_panics"
   ],
   "note": ""
  },
  {
   "property": "C32",
   "status": "proved",
   "theorems": [
    "Verif.Props.C32_gcd",
    "Verif.Props.C32_greatest",
    "Verif.Props.C32_min_panics"
   ],
   "note": ""
  },
  {
   "property": "C33",
   "status": "proved",
   "theorems": [
    "Verif.Props.C33_lcm",
    "Verif.Props.C33_panics",
    "Verif.Props.C33_overflow_witness"
   ],
   "note": ""
  },
  {
   "property": "C34",
   "status": "proved",
   "theorems": [
    "Verif.Props.C34_ex_gcd",
    "Verif.Props.C34_min_panics",
    "Verif.Props.C34_unsigned"
   ],
   "note": ""
  },
  {
   "property": "C36",
   "status": "proved",
   "theorems": [
    "Verif.Props.C36_safe_mod",
    "Verif.Props.C36_nonpositive_modulus"
   ],
   "note": ""
  },
  {
   "property": "C37",
   "status": "proved",
   "theorems": [
    "Verif.Props.C37_barrett_mul",
    "Verif.Props.C37_above_bound",
    "Verif.Props.C37_modulus_zero",
    "Verif.Props.C37_large_modulus_wrong"
   ],
   "note": ""
  },
  {
   "property": "C38",
   "status": "proved",
   "theorems": [
    "Verif.Props.C38_pow_mod",
    "Verif.Props.C38_negative_diverges",
    "Verif.Props.C38_modulus_one",
    "Verif.Props.C38_modulus_zero",
    "Verif.Props.C38_negative_modulus",
    "Verif.Props.C38_negative_both"
   ],
   "note": ""
  },
  {
   "property": "C39",
   "status": "proved",
   "theorems": [
    "Verif.Props.C39_is_prime",
    "Verif.Props.C39_strong_test",
    "Verif.Props.C39_nonpositive",
    "Verif.Props.C39_primes_accepted"
   ],
   "note": "That no composite below 2^31 passes is proved by a search evaluated in the kernel (Verif/Proof/Sprp)."
  },
  {
   "property": "C40",
   "status": "proved",
   "theorems": [
    "Verif.Props.C40_inv_gcd",
    "Verif.Props.C40_modulus_zero",
    "Verif.Props.C40_negative_modulus",
    "Verif.Props.C40_min_modulus"
   ],
   "note": ""
  },
  {
   "property": "C41",
   "status": "proved",
   "theorems": [
    "Verif.Props.C41_primitive_root",
    "Verif.Props.C41_composite",
    "Verif.Props.C41_no_root_diverges"
   ],
   "note": ""
  },
  {
   "property": "C35",
   "status": "proved",
   "theorems": [
    "Verif.Props.C35_ex_crt",
    "Verif.Props.C35_no_overflow",
    "Verif.Props.C35_negative_witness",
    "Verif.Props.C35_zero_witness"
   ],
   "note": "Stated for every input with a[i] >= 0 and m[i] > 0: the answer is exact or the run panics by overflow; a sufficient no-overflow bound is given."
  },
  {
   "property": "C42",
   "status": "proved",
   "theorems": [
    "Verif.Props.C42_new",
    "Verif.Props.C42_zero"
   ],
   "note": ""
  },
  {
   "property": "C43",
   "status": "proved",
   "theorems": [
    "Verif.Props.C43_ring_ops",
    "Verif.Props.C43_zmod",
    "Verif.Props.C43_any_modulus"
   ],
   "note": "Includes the exact outcome of + and - for moduli above 2^31 (panic, or a canonical but wrong value)."
  },
  {
   "property": "C44",
   "status": "partial",
   "theorems": [
    "Verif.Props.C44_false",
    "Verif.Props.C44_pow_partial"
   ],
   "note": "False of the code only for m = 1 with n = 0, where pow returns the non-canonical raw value 1 (C44_false); proved in every other case, and the outcome there is stated too."
  },
  {
   "property": "C45",
   "status": "proved",
   "theorems": [
    "Verif.Props.C45_inv",
    "Verif.Props.C45_inv_hint",
    "Verif.Props.C45_inv_all",
    "Verif.Props.C45_div"
   ],
   "note": ""
  },
  {
   "property": "C46",
   "status": "partial",
   "theorems": [
    "Verif.Props.C46_false",
    "Verif.Props.C46_sum",
    "Verif.Props.C46_product_partial"
   ],
   "note": "False of the code only for the empty product modulo 1 (C46_false); sum is proved in full, product in every other case."
  },
  {
   "property": "C47",
   "status": "partial",
   "theorems": [
    "Verif.Props.C47_false",
    "Verif.Props.C47_overlapping_sets",
    "Verif.Props.C47_sets_apart_partial",
    "Verif.Props.C47_set_then_multiply",
    "Verif.Props.C47_torn_read",
    "Verif.Props.C47_default",
    "Verif.Props.C47_alone"
   ],
   "note": "The statement is false if two set_modulus calls overlap each other (C47_false). Proved for every schedule in which set_modulus calls overlap neither one another nor a multiplication. Atomics are modelled as sequentially consistent, as they are in the code."
  },
  {
   "property": "C48",
   "status": "proved",
   "theorems": [
    "Verif.Props.C48_parse",
    "Verif.Props.C48_round_trip"
   ],
   "note": "i64::from_str of the standard library is modelled, not verified; formatting options of Display are not modelled."
  },
  {
   "property": "C49",
   "status": "proved",
   "theorems": [
    "Verif.Props.C49_factorial",
    "Verif.Props.C49_any_modulus",
    "Verif.Props.C49_too_large",
    "Verif.Props.C49_out_of_range"
   ],
   "note": "Allocation limits are not modelled."
  },
  {
   "property": "C50",
   "status": "proved",
   "theorems": [
    "Verif.Props.C50_max",
    "Verif.Props.C50_min",
    "Verif.Props.C50_additive",
    "Verif.Props.C50_additive_unsigned",
    "Verif.Props.C50_additive_signed",
    "Verif.Props.C50_multiplicative",
    "Verif.Props.C50_multiplicative_not_assoc",
    "Verif.Props.C50_segtree_max"
   ],
   "note": ""
  },
  {
   "property": "C51",
   "status": "proved",
   "theorems": [
    "Verif.Props.C51_history",
    "Verif.Props.C51_call",
    "Verif.Props.C51_tokens_unique",
    "Verif.Props.C51_checked_none",
    "Verif.Props.C51_vec"
   ],
   "note": "split_whitespace, char::is_whitespace and FromStr of the integer types are modelled after the standard library, not verified."
  },
  {
   "property": "C52",
   "status": "proved",
   "theorems": [
    "Verif.Props.C52_call",
    "Verif.Props.C52_sound",
    "Verif.Props.C52_deterministic",
    "Verif.Props.C52_panics",
    "Verif.Props.C52_equation",
    "Verif.Props.C52_terminates"
   ],
   "note": "The aliasing rules of Rust (two live &mut to the closure) are outside the model."
  },
  {
   "property": "C54",
   "status": "proved",
   "theorems": [
    "Verif.Props.C54_rebuild_diverges",
    "Verif.Props.C54_empty_rebuild"
   ],
   "note": "The memory growth of the endless run is not modelled."
  },
  {
   "property": "C55",
   "status": "proved",
   "theorems": [
    "Verif.Props.C55_debug_line",
    "Verif.Props.C55_debug_stops",
    "Verif.Props.C55_cases",
    "Verif.Props.C55_release",
    "Verif.Props.C55_profiles_agree_iff"
   ],
   "note": "Expressions that write to stderr themselves, and moves of non-Copy variables into the macro, are not modelled."
  },
  {
   "property": "C56",
   "status": "proved",
   "theorems": [
    "Verif.Props.C56_kmp_search",
    "Verif.Props.C56_z_search",
    "Verif.Props.C56_period",
    "Verif.Props.C56_kmp_of_z"
   ],
   "note": ""
  },
  {
   "property": "C57",
   "status": "proved",
   "theorems": [
    "Verif.Props.C57_kmp",
    "Verif.Props.C57_z",
    "Verif.Props.C57_attained"
   ],
   "note": "Rounds are counted by instrumented copies, proved equal to the functions when the count is forgotten."
  },
  {
   "property": "C58",
   "status": "proved",
   "theorems": [
    "Verif.Props.C58_gcd",
    "Verif.Props.C58_gcd_worst",
    "Verif.Props.C58_gcd_i64",
    "Verif.Props.C58_exGcd_depth",
    "Verif.Props.C58_attained"
   ],
   "note": "Rounds are counted by an instrumented copy, proved equal to gcd when the count is forgotten."
  },
  {
   "property": "C59",
   "status": "proved",
   "theorems": [
    "Verif.Props.C59_fenwick_pref",
    "Verif.Props.C59_fenwick_add",
    "Verif.Props.C59_segtree_prod"
   ],
   "note": "Rounds are counted by instrumented copies, proved equal to the functions when the count is forgotten."
  },
  {
   "property": "C60",
   "status": "proved",
   "theorems": [
    "Verif.Props.C60_flow_eq_matching",
    "Verif.Props.C60_spec",
    "Verif.Props.C60_certificate",
    "Verif.Props.C60_konig",
    "Verif.Props.C60_konig_spec"
   ],
   "note": "The fields of AugmentedPath are private; the certificate is a statement about the state, not about the interface."
  },
  {
   "property": "C61",
   "status": "proved",
   "theorems": [
    "Verif.Props.C61_mul",
    "Verif.Props.C61_mul_mod_one",
    "Verif.Props.C61_add",
    "Verif.Props.C61_sub",
    "Verif.Props.C61_neg",
    "Verif.Props.C61_pow",
    "Verif.Props.C61_inv",
    "Verif.Props.C61_inv_hint"
   ],
   "note": ""
  },
  {
   "property": "C62",
   "status": "proved",
   "theorems": [
    "Verif.Props.C62_expressions",
    "Verif.Props.C62_equal"
   ],
   "note": "m = 1 is left out because of C44_false."
  },
  {
   "property": "C63",
   "status": "proved",
   "theorems": [
    "Verif.Props.C63_debug"
   ],
   "note": "Formatter flags and errors of the writer are not modelled."
  },
  {
   "property": "C64",
   "status": "proved",
   "theorems": [
    "Verif.Props.C64_lazy",
    "Verif.Props.C64_hld"
   ],
   "note": "The predicates given to max_right and min_left do not panic here (see C68); a tree is not used again after a caught panic."
  },
  {
   "property": "C65",
   "status": "proved",
   "theorems": [
    "Verif.Props.C65_history"
   ],
   "note": "For measures under which the operation is bounded by the larger argument; sums are not covered. Example: u32 with maximum and range add."
  },
  {
   "property": "C66",
   "status": "proved",
   "theorems": [
    "Verif.Props.C66_counts",
    "Verif.Props.C66_history",
    "Verif.Props.C66_each_search",
    "Verif.Props.C66_attained",
    "Verif.Props.C66_counters"
   ],
   "note": "Rounds of loops are counted, not machine instructions."
  },
  {
   "property": "C67",
   "status": "proved",
   "theorems": [
    "Verif.Props.C67_kmp",
    "Verif.Props.C67_z",
    "Verif.Props.C67_total",
    "Verif.Props.C67_eq",
    "Verif.Props.C67_needed"
   ],
   "note": "The comparison is a total function; `!=` is the provided method."
  },
  {
   "property": "C68",
   "status": "proved",
   "theorems": [
    "Verif.Props.C68_max_right",
    "Verif.Props.C68_min_left",
    "Verif.Props.C68_lazy_max_right",
    "Verif.Props.C68_lazy_min_left",
    "Verif.Props.C68_partition_point",
    "Verif.Props.C68_any_answers",
    "Verif.Props.C68_trace",
    "Verif.Props.C68_panics",
    "Verif.Props.C68_pure",
    "Verif.Props.C68_needs_consistency"
   ],
   "note": "The closure does not itself use the tree (the borrow checker excludes it). A tree is not used again after a caught panic."
  },
  {
   "property": "C69",
   "status": "proved",
   "theorems": [
    "Verif.Props.C69_history",
    "Verif.Props.C69_sum_exact"
   ],
   "note": "Composition of maps is associative with the identity map as unit (LawfulComp); the predicates given to max_right and min_left do not panic."
  },
  {
   "property": "C70",
   "status": "proved",
   "theorems": [
    "Verif.Props.C70_work",
    "Verif.Props.C70_attained",
    "Verif.Props.C70_counters"
   ],
   "note": "Heap operations are counted, not the comparisons inside the standard library heap."
  },
  {
   "property": "C71",
   "status": "proved",
   "theorems": [
    "Verif.Props.C71_keys",
    "Verif.Props.C71_deterministic",
    "Verif.Props.C71_drain"
   ],
   "note": "Over the contract of the standard library heap. C14_history now also holds without antisymmetry."
  },
  {
   "property": "C72",
   "status": "proved",
   "theorems": [
    "Verif.Props.C72_find",
    "Verif.Props.C72_chain"
   ],
   "note": "The fuel of the model of the recursion is the number of nested calls; the size of the machine stack is not modelled."
  },
  {
   "property": "C73",
   "status": "proved",
   "theorems": [
    "Verif.Props.C73_from",
    "Verif.Props.C73_get",
    "Verif.Props.C73_beyond",
    "Verif.Props.C73_represents",
    "Verif.Props.C73_right_iff"
   ],
   "note": "full; operations without state"
  },
  {
   "property": "C74",
   "status": "proved",
   "theorems": [
    "Verif.Props.C74_from",
    "Verif.Props.C74_nodes",
    "Verif.Props.C74_add",
    "Verif.Props.C74_pref",
    "Verif.Props.C74_sum",
    "Verif.Props.C74_partition_point",
    "Verif.Props.C74_unsigned",
    "Verif.Props.C74_add_type"
   ],
   "note": "full; lists of less than 2^63 elements"
  },
  {
   "property": "C75",
   "status": "proved",
   "theorems": [
    "Verif.Props.C75_field",
    "Verif.Props.C75_eq_hash_debug",
    "Verif.Props.C75_ids",
    "Verif.Props.C75_barrett_new"
   ],
   "note": "full; moduli 2 <= m <= 2^31 (for others see C43, C44, C61); one thread (for several see C47)"
  },
  {
   "property": "C76",
   "status": "proved",
   "theorems": [
    "Verif.Props.C76_from",
    "Verif.Props.C76_too_long",
    "Verif.Props.C76_state",
    "Verif.Props.C76_default",
    "Verif.Props.C76_checked_from",
    "Verif.Props.C76_checked",
    "Verif.Props.C76_represents",
    "Verif.Props.C76_right_iff"
   ],
   "note": "operation without state"
  },
  {
   "property": "C77",
   "status": "proved",
   "theorems": [
    "Verif.Props.C77_clip",
    "Verif.Props.C77_history",
    "Verif.Props.C77_returns"
   ],
   "note": "fewer than 2^31 vertices for C77_history and C77_returns (i32 levels)"
  },
  {
   "property": "C78",
   "status": "proved",
   "theorems": [
    "Verif.Props.C78_any_sign",
    "Verif.Props.C78_no_overflow",
    "Verif.Props.C78_least",
    "Verif.Props.C78_zero_modulus",
    "Verif.Props.C78_short"
   ],
   "note": ""
  },
  {
   "property": "C79",
   "status": "proved",
   "theorems": [
    "Verif.Props.C79_recursion",
    "Verif.Props.C79_returns_iff",
    "Verif.Props.C79_component",
    "Verif.Props.C79_outside",
    "Verif.Props.C79_tree_iff"
   ],
   "note": "the size of the machine stack is not modelled"
  },
  {
   "property": "C80",
   "status": "proved",
   "theorems": [
    "Verif.Props.C80_recursion",
    "Verif.Props.C80_returns_iff",
    "Verif.Props.C80_history",
    "Verif.Props.C80_new_history",
    "Verif.Props.C80_outside",
    "Verif.Props.C80_apart"
   ],
   "note": "the size of the machine stack is not modelled"
  },
  {
   "property": "C81",
   "status": "proved",
   "theorems": [
    "Verif.Props.C81_fenwick",
    "Verif.Props.C81_sparse_table",
    "Verif.Props.C81_segtree",
    "Verif.Props.C81_lazy_segtree",
    "Verif.Props.C81_hld",
    "Verif.Props.C81_counting"
   ],
   "note": "identity elements and clone are values without effects; effects that change later values of the operations are not covered"
  },
  {
   "property": "C82",
   "status": "proved",
   "theorems": [
    "Verif.Props.C82_balanced",
    "Verif.Props.C82_fenwick",
    "Verif.Props.C82_sparse_table",
    "Verif.Props.C82_segtree",
    "Verif.Props.C82_lazy_segtree",
    "Verif.Props.C82_hld_new",
    "Verif.Props.C82_hld_calls",
    "Verif.Props.C82_hld_paths"
   ],
   "note": "the counts are those of the effectful copies in Model/Eff.lean, which C81 ties to the functions themselves"
  },
  {
   "property": "C83",
   "status": "proved",
   "theorems": [
    "Verif.Props.C83_insert_panics",
    "Verif.Props.C83_unbuilt",
    "Verif.Props.C83_find_cnt",
    "Verif.Props.C83_built",
    "Verif.Props.C83_insert_after_build",
    "Verif.Props.C83_insert_after_build_wrong"
   ],
   "note": "late insertions that create nodes are shown by a witness only"
  },
  {
   "property": "C84",
   "status": "proved",
   "theorems": [
    "Verif.Props.C84_nodes",
    "Verif.Props.C84_nodes_le",
    "Verif.Props.C84_build_rounds",
    "Verif.Props.C84_row"
   ],
   "note": ""
  },
  {
   "property": "C85",
   "status": "proved",
   "theorems": [
    "Verif.Props.C85_same",
    "Verif.Props.C85_work",
    "Verif.Props.C85_one_call"
   ],
   "note": ""
  },
  {
   "property": "C86",
   "status": "proved",
   "theorems": [
    "Verif.Props.C86_same",
    "Verif.Props.C86_work"
   ],
   "note": ""
  },
  {
   "property": "C87",
   "status": "proved",
   "theorems": [
    "Verif.Props.C87_numbers",
    "Verif.Props.C87_modint",
    "Verif.Props.C87_ranges",
    "Verif.Props.C87_graphs",
    "Verif.Props.C87_strings",
    "Verif.Props.C87_is_prime",
    "Verif.Props.C87_sparse",
    "Verif.Props.C87_aho_rotates",
    "Verif.Props.C87_aho_same",
    "Verif.Props.C87_aho_find_all"
   ],
   "note": ""
  },
  {
   "property": "C88",
   "status": "proved",
   "theorems": [
    "Verif.Props.C88_ex_gcd",
    "Verif.Props.C88_ex_gcd_signed",
    "Verif.Props.C88_lcm",
    "Verif.Props.C88_ex_crt_wrong"
   ],
   "note": ""
  },
  {
   "property": "C89",
   "status": "proved",
   "theorems": [
    "Verif.Props.C89_fenwick",
    "Verif.Props.C89_fenwick_empty",
    "Verif.Props.C89_segtree",
    "Verif.Props.C89_lazy",
    "Verif.Props.C89_hld",
    "Verif.Props.C89_additive",
    "Verif.Props.C89_multiplicative",
    "Verif.Props.C89_range_add"
   ],
   "note": ""
  },
  {
   "property": "C90",
   "status": "proved",
   "theorems": [
    "Verif.Props.C90_get_max_flow",
    "Verif.Props.C90_history",
    "Verif.Props.C90_dijkstra_wrong"
   ],
   "note": ""
  },
  {
   "property": "C91",
   "status": "proved",
   "theorems": [
    "Verif.Props.C91_add",
    "Verif.Props.C91_mul_pow",
    "Verif.Props.C91_inv_hint",
    "Verif.Props.C91_inv_false_hint",
    "Verif.Props.C91_factorial"
   ],
   "note": ""
  },
  {
   "property": "C92",
   "status": "proved",
   "theorems": [
    "Verif.Props.C92_64",
    "Verif.Props.C92_lg",
    "Verif.Props.C92_sparse",
    "Verif.Props.C92_sparse_release",
    "Verif.Props.C92_lifting",
    "Verif.Props.C92_fenwick",
    "Verif.Props.C92_fenwick_sharp",
    "Verif.Props.C92_dijkstra",
    "Verif.Props.C92_dijkstra_panics"
   ],
   "note": ""
  },
  {
   "property": "C93",
   "status": "proved",
   "theorems": [
    "Verif.Props.C93_models",
    "Verif.Props.C93_monotone",
    "Verif.Props.C93_scc",
    "Verif.Props.C93_scc_path",
    "Verif.Props.C93_longest",
    "Verif.Props.C93_lifting",
    "Verif.Props.C93_hld",
    "Verif.Props.C93_tree",
    "Verif.Props.C93_matching",
    "Verif.Props.C93_matching_kept",
    "Verif.Props.C93_matching_chain",
    "Verif.Props.C93_flow",
    "Verif.Props.C93_flow_kept",
    "Verif.Props.C93_flow_path"
   ],
   "note": ""
  },
  {
   "property": "C94",
   "status": "proved",
   "theorems": [
    "Verif.Props.C94_history",
    "Verif.Props.C94_new",
    "Verif.Props.C94_tree",
    "Verif.Props.C94_tree_new",
    "Verif.Props.C94_product_differs",
    "Verif.Props.C94_search_past_end"
   ],
   "note": ""
  },
  {
   "property": "C95",
   "status": "proved",
   "theorems": [
    "Verif.Props.C95_history",
    "Verif.Props.C95_new",
    "Verif.Props.C95_empty",
    "Verif.Props.C95_empty_differs"
   ],
   "note": ""
  },
  {
   "property": "C96",
   "status": "proved",
   "theorems": [
    "Verif.Props.C96_fenwick_segtree",
    "Verif.Props.C96_lazy_fenwick",
    "Verif.Props.C96_sparse_segtree",
    "Verif.Props.C96_lifting_dijkstra",
    "Verif.Props.C96_hld_lifting",
    "Verif.Props.C96_scc_dijkstra",
    "Verif.Props.C96_search",
    "Verif.Props.C96_inverse"
   ],
   "note": ""
  },
  {
   "property": "C97",
   "status": "proved",
   "theorems": [
    "Verif.Props.C97_sum_exact"
   ],
   "note": ""
  },
  {
   "property": "C98",
   "status": "proved",
   "theorems": [
    "Verif.Props.C98_min_cut",
    "Verif.Props.C98_packing_spec",
    "Verif.Props.C98_walks",
    "Verif.Props.C98_menger",
    "Verif.Props.C98_positive"
   ],
   "note": ""
  },
  {
   "property": "C99",
   "status": "proved",
   "theorems": [
    "Verif.Props.C99_deficiency",
    "Verif.Props.C99_hall",
    "Verif.Props.C99_independent",
    "Verif.Props.C99_edge_cover",
    "Verif.Props.C99_first_round"
   ],
   "note": ""
  },
  {
   "property": "C100",
   "status": "proved",
   "theorems": [
    "Verif.Props.C100_two_sat",
    "Verif.Props.C100_topological",
    "Verif.Props.C100_universal"
   ],
   "note": ""
  },
  {
   "property": "C101",
   "status": "proved",
   "theorems": [
    "Verif.Props.C101_root_free",
    "Verif.Props.C101_metric",
    "Verif.Props.C101_diameter",
    "Verif.Props.C101_reroot"
   ],
   "note": ""
  },
  {
   "property": "C102",
   "status": "proved",
   "theorems": [
    "Verif.Props.C102_potential",
    "Verif.Props.C102_triangle",
    "Verif.Props.C102_reverse",
    "Verif.Props.C102_symmetric",
    "Verif.Props.C102_reduced",
    "Verif.Props.C102_scaled",
    "Verif.Props.C102_sources",
    "Verif.Props.C102_add_edge"
   ],
   "note": ""
  },
  {
   "property": "C103",
   "status": "proved",
   "theorems": [
    "Verif.Props.C103_answers",
    "Verif.Props.C103_order",
    "Verif.Props.C103_reverse",
    "Verif.Props.C103_symmetric",
    "Verif.Props.C103_scaled",
    "Verif.Props.C103_union",
    "Verif.Props.C103_add_edge",
    "Verif.Props.C103_parallel",
    "Verif.Props.C103_irrelevant",
    "Verif.Props.C103_terminals",
    "Verif.Props.C103_between",
    "Verif.Props.C103_three"
   ],
   "note": ""
  },
  {
   "property": "C104",
   "status": "proved",
   "theorems": [
    "Verif.Props.C104_answers",
    "Verif.Props.C104_set",
    "Verif.Props.C104_mono",
    "Verif.Props.C104_relabel",
    "Verif.Props.C104_transposed",
    "Verif.Props.C104_union",
    "Verif.Props.C104_disjoint",
    "Verif.Props.C104_delete_left",
    "Verif.Props.C104_delete_right",
    "Verif.Props.C104_add_edge",
    "Verif.Props.C104_submodular",
    "Verif.Props.C104_exchange"
   ],
   "note": ""
  },
  {
   "property": "C105",
   "status": "proved",
   "theorems": [
    "Verif.Props.C105_reverse",
    "Verif.Props.C105_reach",
    "Verif.Props.C105_mono",
    "Verif.Props.C105_relabel",
    "Verif.Props.C105_add_edge",
    "Verif.Props.C105_add_edge_count",
    "Verif.Props.C105_condensed"
   ],
   "note": ""
  },
  {
   "property": "C106",
   "status": "proved",
   "theorems": [
    "Verif.Props.C106_gcd_monoid",
    "Verif.Props.C106_gcd_shift",
    "Verif.Props.C106_gcd_scaled",
    "Verif.Props.C106_product",
    "Verif.Props.C106_lcm_comm",
    "Verif.Props.C106_lcm_assoc",
    "Verif.Props.C106_distrib",
    "Verif.Props.C106_gcd_list",
    "Verif.Props.C106_gcd_list_set",
    "Verif.Props.C106_linear",
    "Verif.Props.C106_crt_same",
    "Verif.Props.C106_crt_set",
    "Verif.Props.C106_crt_parts"
   ],
   "note": ""
  },
  {
   "property": "C107",
   "status": "proved",
   "theorems": [
    "Verif.Props.C107_prefix",
    "Verif.Props.C107_z_prefix",
    "Verif.Props.C107_rename",
    "Verif.Props.C107_z_rename",
    "Verif.Props.C107_step",
    "Verif.Props.C107_borders",
    "Verif.Props.C107_reverse",
    "Verif.Props.C107_power",
    "Verif.Props.C107_count",
    "Verif.Props.C107_rotation",
    "Verif.Props.C107_palindrome"
   ],
   "note": ""
  },
  {
   "property": "C108",
   "status": "proved",
   "theorems": [
    "Verif.Props.C108_rank",
    "Verif.Props.C108_kth",
    "Verif.Props.C108_inversions",
    "Verif.Props.C108_range_add"
   ],
   "note": ""
  },
  {
   "property": "C109",
   "status": "proved",
   "theorems": [
    "Verif.Props.C109_pow_laws",
    "Verif.Props.C109_fermat",
    "Verif.Props.C109_euler",
    "Verif.Props.C109_log",
    "Verif.Props.C109_pascal",
    "Verif.Props.C109_perm",
    "Verif.Props.C109_row",
    "Verif.Props.C109_vandermonde",
    "Verif.Props.C109_wilson"
   ],
   "note": ""
  },
  {
   "property": "C110",
   "status": "proved",
   "theorems": [
    "Verif.Props.C110_answers",
    "Verif.Props.C110_prefix",
    "Verif.Props.C110_append",
    "Verif.Props.C110_set",
    "Verif.Props.C110_add",
    "Verif.Props.C110_rename",
    "Verif.Props.C110_cnt_append",
    "Verif.Props.C110_cnt_reverse"
   ],
   "note": ""
  },
  {
   "property": "C111",
   "status": "proved",
   "theorems": [
    "Verif.Props.C111_components",
    "Verif.Props.C111_join",
    "Verif.Props.C111_forest",
    "Verif.Props.C111_kruskal",
    "Verif.Props.C111_needs_roots"
   ],
   "note": ""
  },
  {
   "property": "C112",
   "status": "proved",
   "theorems": [
    "Verif.Props.C112_top_k",
    "Verif.Props.C112_merge",
    "Verif.Props.C112_huffman"
   ],
   "note": ""
  },
  {
   "property": "C113",
   "status": "proved",
   "theorems": [
    "Verif.Props.C113_laws",
    "Verif.Props.C113_answers",
    "Verif.Props.C113_galois",
    "Verif.Props.C113_lazy_galois",
    "Verif.Props.C113_mirror"
   ],
   "note": ""
  },
  {
   "property": "C114",
   "status": "proved",
   "theorems": [
    "Verif.Props.C114_reads",
    "Verif.Props.C114_laws",
    "Verif.Props.C114_paths",
    "Verif.Props.C114_subtrees",
    "Verif.Props.C114_iso"
   ],
   "note": ""
  },
  {
   "property": "C115",
   "status": "proved",
   "theorems": [
    "Verif.Props.C115_same_tokens",
    "Verif.Props.C115_append",
    "Verif.Props.C115_vec_split",
    "Verif.Props.C115_round_trip"
   ],
   "note": ""
  },
  {
   "property": "C116",
   "status": "proved",
   "theorems": [
    "Verif.Props.C116_fold",
    "Verif.Props.C116_slices",
    "Verif.Props.C116_join",
    "Verif.Props.C116_hom",
    "Verif.Props.C116_reverse",
    "Verif.Props.C116_below",
    "Verif.Props.C116_first_min",
    "Verif.Props.C116_gcd"
   ],
   "note": "for the gcd table the filler is assumed to be non-negative too"
  },
  {
   "property": "C117",
   "status": "proved",
   "theorems": [
    "Verif.Props.C117_describes",
    "Verif.Props.C117_subarray",
    "Verif.Props.C117_brackets",
    "Verif.Props.C117_lis",
    "Verif.Props.C117_overlaps"
   ],
   "note": "the users' monoids for sums, brackets and maxima compute in unbounded integers"
  },
  {
   "property": "C118",
   "status": "proved",
   "theorems": [
    "Verif.Props.C118_path_cover",
    "Verif.Props.C118_dilworth",
    "Verif.Props.C118_circle_false"
   ],
   "note": ""
  },
  {
   "property": "C119",
   "status": "proved",
   "theorems": [
    "Verif.Props.C119_closure",
    "Verif.Props.C119_labels",
    "Verif.Props.C119_vertex_cut",
    "Verif.Props.C119_vertex_menger"
   ],
   "note": ""
  },
  {
   "property": "C120",
   "status": "proved",
   "theorems": [
    "Verif.Props.C120_sums",
    "Verif.Props.C120_matching",
    "Verif.Props.C120_flow",
    "Verif.Props.C120_distances",
    "Verif.Props.C120_components",
    "Verif.Props.C120_texts"
   ],
   "note": "the programs themselves are the user's and are not part of the crate"
  },
  {
   "property": "C121",
   "status": "proved",
   "theorems": [
    "Verif.Props.C121_collect",
    "Verif.Props.C121_longest"
   ],
   "note": "the loops around scc are the user's and are not part of the crate; their sums are unbounded"
  },
  {
   "property": "C122",
   "status": "proved",
   "theorems": [
    "Verif.Props.C122_edge_uses",
    "Verif.Props.C122_jump",
    "Verif.Props.C122_along"
   ],
   "note": "the loops are the user's and are not part of the crate; their sums are unbounded"
  },
  {
   "property": "C123",
   "status": "proved",
   "theorems": [
    "Verif.Props.C123_distinct",
    "Verif.Props.C123_palindrome",
    "Verif.Props.C123_splits"
   ],
   "note": "the loops are the user's and are not part of the crate; their sums are unbounded"
  },
  {
   "property": "C124",
   "status": "proved",
   "theorems": [
    "Verif.Props.C124_route",
    "Verif.Props.C124_route_false",
    "Verif.Props.C124_free"
   ],
   "note": "the loops are the user's and are not part of the crate"
  },
  {
   "property": "C125",
   "status": "proved",
   "theorems": [
    "Verif.Props.C125_balanced",
    "Verif.Props.C125_multisets",
    "Verif.Props.C125_derangements"
   ],
   "note": "the programs are the user's and are not part of the crate"
  },
  {
   "property": "C126",
   "status": "proved",
   "theorems": [
    "Verif.Props.C126_coprime",
    "Verif.Props.C126_necklaces",
    "Verif.Props.C126_panics",
    "Verif.Props.C126_lattice"
   ],
   "note": "the programs are the user's and are not part of the crate"
  }
 ]
}