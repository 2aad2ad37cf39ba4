c("C01","proved","C01_lg C01_lg_zero C01_ceil_lg")
c("C27","proved","C27_kmp")
c("C28","proved","C28_z")
c("C10","partial","C10_false C10_connectivity_partial C10_exact C10_join_effect C10_join_result","The full statement is false of the code (join links the arguments, not their representatives): C10_false is the negation with a concrete history. Proved for all histories whose joins have a representative as first argument; C10_exact shows that these are exactly the histories for which the statement holds throughout, and C10_join_effect says what a join does in every history; the return-value half is proved for all histories.")
c("C11","proved","C11_find_representative C11_is_same_equivalence C11_queries_preserve C11_same_after_join C11_sound C11_terminates C11_out_of_range_panics C11_overflow_witness","join may panic by overflow of a size counter (C11_overflow_witness); it never diverges.")
c("C12","partial","C12_false C12_size_partial C12_exact","The full statement is false of the code: C12_false is the negation with a concrete history. Proved, with absence of panics, for all histories that join representatives; C12_exact shows that these are exactly the histories in which all sizes stay right.")
c("C13","proved","C13_groups")
c("C02","proved","C02_history C02_new C02_from_eq_adds C02_add_out_of_range")
c("C03","proved","C03_partition_point C03_empty_panics C03_search")
c("C09","proved","C09_range_fold C09_panics C09_out_of_range_not_rejected")
c("C04","proved","C04_history C04_new")
c("C05","proved","C05_boundary C05_maximum C05_panics")
c("C06","proved","C06_boundary C06_minimum C06_panics")
c("C07","proved","C07_history C07_new C07_panics C08_queries_transparent","User-supplied operations are total functions in the model (operations that may panic are in C64, predicates with a state in C68).")
c("C08","proved","C08_max_right C08_max_right_maximum C08_min_left C08_min_left_minimum C08_plain_tree C08_queries_transparent C07_panics")
c("C14","proved","C14_history C14_deterministic C14_sorted_vec_descending","Proved over any implementation meeting the documented BinaryHeap contract (structure BinaryHeap); std's own heap code is not modelled.")
c("C15","proved","C15_shortest_paths C15_source C15_panics_iff","The hypotheses are exact: C15_panics_iff.")
c("C16","proved","C16_is_ancestor")
c("C17","proved","C17_lca C17_lca_unique C17_dis C17_tables")
c("C23","proved","C23_new C23_history C23_new_history C23_new_panics C23_init_panics","n < 2^32 as for the lazy segment tree.")
c("C24","proved","C24_apply_subtree C24_subtree_prod C23_history")
c("C25","proved","C25_apply_path C25_path_prod_perm C25_path_prod C23_history")
c("C26","partial","C26_not_path_order C26_not_path_order_down C26_in_order_partial C26_exact C26_same_chain_partial","The full statement is false of the code: two concrete witnesses with a non-commutative monoid. Proved when every edge climbed is light and every edge descended is heavy; C26_exact shows that these are exactly the pairs of nodes for which the statement holds.")
c("C53","proved","C53_light_edges C53_path_rounds")
c("C18","proved","C18_history C18_unique C18_add_edge_panics C18_right_out_of_range C18_any_right C18_right_panics")
c("C21","proved","C21_scc C21_panics_iff","The hypotheses of C21_scc are exact: otherwise the call panics (C21_panics_iff).")
c("C22","proved","C22_reverse_topological C22_edges","Fewer than 2^31 vertices (the i32 counter).")
c("C19","proved","C19_get_max_flow C19_overflow_panics C19_history C19_incremental C19_fresh C19_terminals_panic","Fewer than 2^31 vertices (i32 levels), non-negative capacities. The representability hypothesis is exact (C19_overflow_panics).")
c("C20","proved","C20_capacities C20_conservation","Fewer than 2^31 vertices (i32 levels), non-negative capacities.")
c("C29","proved","C29_find_all C29_inserts C29_bad_pattern_panics C29_bad_text_panics")
c("C30","proved","C30_find_cnt C29_bad_text_panics")
c("C31","proved","C31_find C31_unique C31_sound C31_misses_shorter C29_bad_text_panics")
c("C32","proved","C32_gcd C32_greatest C32_min_panics")
c("C33","proved","C33_lcm C33_panics C33_overflow_witness")
c("C34","proved","C34_ex_gcd C34_min_panics C34_unsigned")
c("C36","proved","C36_safe_mod C36_nonpositive_modulus")
c("C37","proved","C37_barrett_mul C37_above_bound C37_modulus_zero C37_large_modulus_wrong")
c("C38","proved","C38_pow_mod C38_negative_diverges C38_modulus_one C38_modulus_zero C38_negative_modulus C38_negative_both")
c("C39","proved","C39_is_prime C39_strong_test C39_nonpositive C39_primes_accepted","That no composite below 2^31 passes is proved by a search evaluated in the kernel (Verif/Proof/Sprp).")
c("C40","proved","C40_inv_gcd C40_modulus_zero C40_negative_modulus C40_min_modulus")
c("C41","proved","C41_primitive_root C41_composite C41_no_root_diverges")
c("C35","proved","C35_ex_crt C35_no_overflow C35_negative_witness C35_zero_witness","Stated for every input with a[i] >= 0 and m[i] > 0: the answer is exact or the run panics by overflow; a sufficient no-overflow bound is given.")
c("C42","proved","C42_new C42_zero")
c("C43","proved","C43_ring_ops C43_zmod C43_any_modulus","Includes the exact outcome of + and - for moduli above 2^31 (panic, or a canonical but wrong value).")
c("C44","partial","C44_false C44_pow_partial","False of the code only for m = 1 with n = 0, where pow returns the non-canonical raw value 1 (C44_false); proved in every other case, and the outcome there is stated too.")
c("C45","proved","C45_inv C45_inv_hint C45_inv_all C45_div")
c("C46","partial","C46_false C46_sum C46_product_partial","False of the code only for the empty product modulo 1 (C46_false); sum is proved in full, product in every other case.")
c("C47","partial","C47_false C47_overlapping_sets C47_sets_apart_partial C47_set_then_multiply C47_torn_read C47_default C47_alone","The statement is false if two set_modulus calls overlap each other (C47_false). Proved for every schedule in which set_modulus calls overlap neither one another nor a multiplication. Atomics are modelled as sequentially consistent, as they are in the code.")
c("C48","proved","C48_parse C48_round_trip","i64::from_str of the standard library is modelled, not verified; formatting options of Display are not modelled.")
c("C49","proved","C49_factorial C49_any_modulus C49_too_large C49_out_of_range","Allocation limits are not modelled.")
c("C50","proved","C50_max C50_min C50_additive C50_additive_unsigned C50_additive_signed C50_multiplicative C50_multiplicative_not_assoc C50_segtree_max")
c("C51","proved","C51_history C51_call C51_tokens_unique C51_checked_none C51_vec","split_whitespace, char::is_whitespace and FromStr of the integer types are modelled after the standard library, not verified.")
c("C52","proved","C52_call C52_sound C52_deterministic C52_panics C52_equation C52_terminates","The aliasing rules of Rust (two live &mut to the closure) are outside the model.")
c("C54","proved","C54_rebuild_diverges C54_empty_rebuild","The memory growth of the endless run is not modelled.")
c("C55","proved","C55_debug_line C55_debug_stops C55_cases C55_release C55_profiles_agree_iff","Expressions that write to stderr themselves, and moves of non-Copy variables into the macro, are not modelled.")
c("C56","proved","C56_kmp_search C56_z_search C56_period C56_kmp_of_z")
c("C57","proved","C57_kmp C57_z C57_attained","Rounds are counted by instrumented copies, proved equal to the functions when the count is forgotten.")
c("C58","proved","C58_gcd C58_gcd_worst C58_gcd_i64 C58_exGcd_depth C58_attained","Rounds are counted by an instrumented copy, proved equal to gcd when the count is forgotten.")
c("C59","proved","C59_fenwick_pref C59_fenwick_add C59_segtree_prod","Rounds are counted by instrumented copies, proved equal to the functions when the count is forgotten.")
c("C60","proved","C60_flow_eq_matching C60_spec C60_certificate C60_konig C60_konig_spec","The fields of AugmentedPath are private; the certificate is a statement about the state, not about the interface.")
c("C61","proved","C61_mul C61_mul_mod_one C61_add C61_sub C61_neg C61_pow C61_inv C61_inv_hint")
c("C62","proved","C62_expressions C62_equal","m = 1 is left out because of C44_false.")
c("C63","proved","C63_debug","Formatter flags and errors of the writer are not modelled.")
c("C64","proved","C64_lazy C64_hld","The predicates given to max_right and min_left do not panic here (see C68); a tree is not used again after a caught panic.")
c("C65","proved","C65_history","For measures under which the operation is bounded by the larger argument; sums are not covered. Example: u32 with maximum and range add.")
c("C66","proved","C66_counts C66_history C66_each_search C66_attained C66_counters","Rounds of loops are counted, not machine instructions.")
c("C67","proved","C67_kmp C67_z C67_total C67_eq C67_needed","The comparison is a total function; `!=` is the provided method.")
c("C68","proved","C68_max_right C68_min_left C68_lazy_max_right C68_lazy_min_left C68_partition_point C68_any_answers C68_trace C68_panics C68_pure C68_needs_consistency","The closure does not itself use the tree (the borrow checker excludes it). A tree is not used again after a caught panic.")
c("C69","proved","C69_history C69_sum_exact","Composition of maps is associative with the identity map as unit (LawfulComp); the predicates given to max_right and min_left do not panic.")
c("C70","proved","C70_work C70_attained C70_counters","Heap operations are counted, not the comparisons inside the standard library heap.")
c("C71","proved","C71_keys C71_deterministic C71_drain","Over the contract of the standard library heap. C14_history now also holds without antisymmetry.")
c("C72","proved","C72_find C72_chain","The fuel of the model of the recursion is the number of nested calls; the size of the machine stack is not modelled.")
c("C73","proved","C73_from C73_get C73_beyond C73_represents C73_right_iff","full; operations without state")
c("C74","proved","C74_from C74_nodes C74_add C74_pref C74_sum C74_partition_point C74_unsigned C74_add_type","full; lists of less than 2^63 elements")
c("C75","proved","C75_field C75_eq_hash_debug C75_ids C75_barrett_new","full; moduli 2 <= m <= 2^31 (for others see C43, C44, C61); one thread (for several see C47)")
c("C76","proved","C76_from C76_too_long C76_state C76_default C76_checked_from C76_checked C76_represents C76_right_iff","operation without state")
c("C77","proved","C77_clip C77_history C77_returns","fewer than 2^31 vertices for C77_history and C77_returns (i32 levels)")
c("C78","proved","C78_any_sign C78_no_overflow C78_least C78_zero_modulus C78_short","")
c("C79","proved","C79_recursion C79_returns_iff C79_component C79_outside C79_tree_iff","the size of the machine stack is not modelled")
c("C80","proved","C80_recursion C80_returns_iff C80_history C80_new_history C80_outside C80_apart","the size of the machine stack is not modelled")
c("C81","proved","C81_fenwick C81_sparse_table C81_segtree C81_lazy_segtree C81_hld C81_counting","identity elements and clone are values without effects; effects that change later values of the operations are not covered")
c("C82","proved","C82_balanced C82_fenwick C82_sparse_table C82_segtree C82_lazy_segtree C82_hld_new C82_hld_calls C82_hld_paths","the counts are those of the effectful copies in Model/Eff.lean, which C81 ties to the functions themselves")
c("C83","proved","C83_insert_panics C83_unbuilt C83_find_cnt C83_built C83_insert_after_build C83_insert_after_build_wrong","late insertions that create nodes are shown by a witness only")
c("C84","proved","C84_nodes C84_nodes_le C84_build_rounds C84_row","")
c("C85","proved","C85_same C85_work C85_one_call","")
c("C86","proved","C86_same C86_work","")
c("C87","proved","C87_numbers C87_modint C87_ranges C87_graphs C87_strings C87_is_prime C87_sparse C87_aho_rotates C87_aho_same C87_aho_find_all","")
c("C88","proved","C88_ex_gcd C88_ex_gcd_signed C88_lcm C88_ex_crt_wrong","")
c("C89","proved","C89_fenwick C89_fenwick_empty C89_segtree C89_lazy C89_hld C89_additive C89_multiplicative C89_range_add","")
c("C90","proved","C90_get_max_flow C90_history C90_dijkstra_wrong","")
c("C91","proved","C91_add C91_mul_pow C91_inv_hint C91_inv_false_hint C91_factorial","")
c("C92","proved","C92_64 C92_lg C92_sparse C92_sparse_release C92_lifting C92_fenwick C92_fenwick_sharp C92_dijkstra C92_dijkstra_panics","")
c("C93","proved","C93_models C93_monotone C93_scc C93_scc_path C93_longest C93_lifting C93_hld C93_tree C93_matching C93_matching_kept C93_matching_chain C93_flow C93_flow_kept C93_flow_path","")
c("C94","proved","C94_history C94_new C94_tree C94_tree_new C94_product_differs C94_search_past_end","")
c("C95","proved","C95_history C95_new C95_empty C95_empty_differs","")
c("C96","proved","C96_fenwick_segtree C96_lazy_fenwick C96_sparse_segtree C96_lifting_dijkstra C96_hld_lifting C96_scc_dijkstra C96_search C96_inverse","")
c("C97","proved","C97_sum_exact","")
c("C98","proved","C98_min_cut C98_packing_spec C98_walks C98_menger C98_positive","")
c("C99","proved","C99_deficiency C99_hall C99_independent C99_edge_cover C99_first_round","")
c("C100","proved","C100_two_sat C100_topological C100_universal","")
c("C101","proved","C101_root_free C101_metric C101_diameter C101_reroot","")
c("C102","proved","C102_potential C102_triangle C102_reverse C102_symmetric C102_reduced C102_scaled C102_sources C102_add_edge","")
c("C103","proved","C103_answers C103_order C103_reverse C103_symmetric C103_scaled C103_union C103_add_edge C103_parallel C103_irrelevant C103_terminals C103_between C103_three","")
c("C104","proved","C104_answers C104_set C104_mono C104_relabel C104_transposed C104_union C104_disjoint C104_delete_left C104_delete_right C104_add_edge C104_submodular C104_exchange","")
c("C105","proved","C105_reverse C105_reach C105_mono C105_relabel C105_add_edge C105_add_edge_count C105_condensed","")
c("C106","proved","C106_gcd_monoid C106_gcd_shift C106_gcd_scaled C106_product C106_lcm_comm C106_lcm_assoc C106_distrib C106_gcd_list C106_gcd_list_set C106_linear C106_crt_same C106_crt_set C106_crt_parts","")
c("C107","proved","C107_prefix C107_z_prefix C107_rename C107_z_rename C107_step C107_borders C107_reverse C107_power C107_count C107_rotation C107_palindrome","")
c("C108","proved","C108_rank C108_kth C108_inversions C108_range_add","")
c("C109","proved","C109_pow_laws C109_fermat C109_euler C109_log C109_pascal C109_perm C109_row C109_vandermonde C109_wilson","")
c("C110","proved","C110_answers C110_prefix C110_append C110_set C110_add C110_rename C110_cnt_append C110_cnt_reverse","")
c("C111","proved","C111_components C111_join C111_forest C111_kruskal C111_needs_roots","")
c("C112","proved","C112_top_k C112_merge C112_huffman","")
c("C113","proved","C113_laws C113_answers C113_galois C113_lazy_galois C113_mirror","")
c("C114","proved","C114_reads C114_laws C114_paths C114_subtrees C114_iso","")
c("C115","proved","C115_same_tokens C115_append C115_vec_split C115_round_trip","")
c("C116","proved","C116_fold C116_slices C116_join C116_hom C116_reverse C116_below C116_first_min C116_gcd","for the gcd table the filler is assumed to be non-negative too")
c("C117","proved","C117_describes C117_subarray C117_brackets C117_lis C117_overlaps","the users' monoids for sums, brackets and maxima compute in unbounded integers")
c("C118","proved","C118_path_cover C118_dilworth C118_circle_false","")
c("C119","proved","C119_closure C119_labels C119_vertex_cut C119_vertex_menger","")
c("C120","proved","C120_sums C120_matching C120_flow C120_distances C120_components C120_texts","the programs themselves are the user's and are not part of the crate")
c("C121","proved","C121_collect C121_longest","the loops around scc are the user's and are not part of the crate; their sums are unbounded")
c("C122","proved","C122_edge_uses C122_jump C122_along","the loops are the user's and are not part of the crate; their sums are unbounded")
c("C123","proved","C123_distinct C123_palindrome C123_splits","the loops are the user's and are not part of the crate; their sums are unbounded")
c("C124","proved","C124_route C124_route_false C124_free","the loops are the user's and are not part of the crate")
c("C125","proved","C125_balanced C125_multisets C125_derangements","the programs are the user's and are not part of the crate")
c("C126","proved","C126_coprime C126_necklaces C126_panics C126_lattice","the programs are the user's and are not part of the crate")
