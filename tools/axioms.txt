'Props.C01_bubble_sort' depends on axioms: [propext, Classical.choice, Quot.sound]
'Props.C02_selection_sort' depends on axioms: [propext, Classical.choice, Quot.sound]
'Props.C03_insertion_sort' depends on axioms: [propext, Classical.choice, Quot.sound]
'Props.C04_merge_sort' depends on axioms: [propext, Classical.choice, Quot.sound]
'Props.C04_merge_sort_rounds' depends on axioms: [propext, Classical.choice, Quot.sound]
'Props.C04_merge_sort_empty' depends on axioms: [propext]
'Props.C05_quick_sort' depends on axioms: [propext, Classical.choice, Quot.sound]
'Props.C05_quick_sort_empty' depends on axioms: [propext]
'Props.C06_heapsort' depends on axioms: [propext, Classical.choice, Quot.sound]
'Props.C07_shell_sort' depends on axioms: [propext, Classical.choice, Quot.sound]
'Props.C08_intro_sort' depends on axioms: [propext, Classical.choice, Quot.sound]
'Props.C09_cocktail_shaker_sort' depends on axioms: [propext, Classical.choice, Quot.sound]
'Props.C10_brick_sort_strict_partial' depends on axioms: [propext, Classical.choice, Quot.sound]
'Props.C10_brick_sort_distinct_partial' depends on axioms: [propext, Classical.choice, Quot.sound]
'Props.C10_brick_sort_diverges' depends on axioms: [propext, Classical.choice, Quot.sound]
'Props.C10_full_false' depends on axioms: [propext, Classical.choice, Quot.sound]
'Props.C10_exact' depends on axioms: [propext, Classical.choice, Quot.sound]
'Props.C11_brick_sort_parallel_strict_partial' depends on axioms: [propext, Classical.choice, Quot.sound]
'Props.C11_brick_sort_parallel_distinct_partial' depends on axioms: [propext, Classical.choice, Quot.sound]
'Props.C11_brick_sort_parallel_diverges' depends on axioms: [propext, Classical.choice, Quot.sound]
'Props.C11_exact' depends on axioms: [propext, Classical.choice, Quot.sound]
'Props.C12_counting_sort' depends on axioms: [propext, Classical.choice, Quot.sound]
'Props.C12_nothing_to_sort' depends on axioms: [propext]
'Props.C13_bucket_sort_partial' depends on axioms: [propext, Classical.choice, Quot.sound]
'Props.C13_full_false' depends on axioms: [propext, Quot.sound]
'Props.C13_other_failures' depends on axioms: [propext]
'Props.C13_exact' depends on axioms: [propext, Classical.choice, Quot.sound]
'Props.C13_sorts_iff' depends on axioms: [propext, Classical.choice, Quot.sound]
'Props.C14_radix_sort_partial' depends on axioms: [propext, Classical.choice, Quot.sound]
'Props.C14_full_false' depends on axioms: [propext]
'Props.C14_zeros_unsorted' depends on axioms: [propext]
'Props.C14_leading_none' depends on axioms: [propext]
'Props.C14_only_zeros' depends on axioms: [propext, Quot.sound]
'Props.C14_exact' depends on axioms: [propext, Classical.choice, Quot.sound]
'Props.C15_linear_search' depends on axioms: [propext, Quot.sound]
'Props.C16_binary_search' depends on axioms: [propext, Classical.choice, Quot.sound]
'Props.C17_jump_search_partial' depends on axioms: [propext, Classical.choice, Quot.sound]
'Props.C17_full_false' depends on axioms: [propext, Quot.sound]
'Props.C17_early_start_partial' depends on axioms: [propext, Classical.choice, Quot.sound]
'Props.C17_exact' depends on axioms: [propext, Classical.choice, Quot.sound]
'Props.C18_lower_bound' depends on axioms: [propext, Classical.choice, Quot.sound]
'Props.C18_C19_empty' depends on axioms: [propext]
'Props.C19_upper_bound' depends on axioms: [propext, Classical.choice, Quot.sound]
'Props.C20_is_ordered_partial' depends on axioms: [propext, Classical.choice, Quot.sound]
'Props.C20_full_false' depends on axioms: [propext]
'Props.C20_none_hides_disorder' depends on axioms: [propext]
'Props.C20_exact' depends on axioms: [propext, Quot.sound]
'Props.C20_default' depends on axioms: [propext, Quot.sound]
'Props.C21_longest_common_subsequence' depends on axioms: [propext, Quot.sound]
'Props.C22_longest_increasing_subsequence' depends on axioms: [propext, Classical.choice, Quot.sound]
'Props.C22_empty' depends on axioms: [propext]
'Props.C23_next_permutation' depends on axioms: [propext, Classical.choice, Quot.sound]
'Props.C24_prev_permutation_partial' depends on axioms: [propext, Classical.choice, Quot.sound]
'Props.C24_lex_flip' depends on axioms: [propext, Classical.choice, Quot.sound]
'Props.C24_full_false' depends on axioms: [propext, Classical.choice, Quot.sound]
'Props.C24_duplicates_wrong' depends on axioms: [propext]
'Props.C24_exact' depends on axioms: [propext, Classical.choice, Quot.sound]
'Props.C25_square_partial' depends on axioms: [propext, Quot.sound]
'Props.C25_exact' depends on axioms: [propext, Classical.choice, Quot.sound]
'Props.C25_product_iff' depends on axioms: [propext, Classical.choice, Quot.sound]
'Props.C25_mismatch' depends on axioms: [propext]
'Props.C25_full_false' depends on axioms: [propext, Quot.sound]
'Props.C25_wide_wrong' depends on axioms: [propext]
'Props.C25_tall_raises' depends on axioms: [propext]
'Props.C26_constructors' depends on axioms: [propext, Quot.sound]
'Props.C26_get' depends on axioms: [propext, Classical.choice, Quot.sound]
'Props.C26_set' depends on axioms: [propext, Quot.sound]
'Props.C26_fill' depends on axioms: [propext, Classical.choice, Quot.sound]
'Props.C26_negative_write_wraps' does not depend on any axioms
'Props.C26_set_outside' depends on axioms: [propext, Quot.sound]
'Props.C26_history' depends on axioms: [propext, Classical.choice, Quot.sound]
'Props.C26_from_list' depends on axioms: [propext, Quot.sound]
'Props.C26_from_tuple' depends on axioms: [propext, Quot.sound]
'Props.C26_from_list_size' depends on axioms: [propext, Quot.sound]
'Props.C26_argument_changed' does not depend on any axioms
'Props.C27_dynamic_array' depends on axioms: [propext, Classical.choice, Quot.sound]
'Props.C27_indexing' depends on axioms: [propext, Classical.choice, Quot.sound]
'Props.C27_last_position_not_exact' depends on axioms: [propext]
'Props.C28_cells_independent_partial' depends on axioms: [propext, Classical.choice, Quot.sound]
'Props.C28_wrong_arity' depends on axioms: [propext, Quot.sound]
'Props.C28_full_false' depends on axioms: [propext]
'Props.C28_aliasing' depends on axioms: [propext, Classical.choice, Quot.sound]
'Props.C28_exact' depends on axioms: [propext, Classical.choice, Quot.sound]
'Props.C29_array_stack' depends on axioms: [propext, Classical.choice, Quot.sound]
'Props.C30_linked_list_stack' depends on axioms: [propext, Classical.choice, Quot.sound]
'Props.C31_exact' depends on axioms: [propext, Classical.choice, Quot.sound]
'Props.C31_kept_partial' depends on axioms: [propext, Classical.choice, Quot.sound]
'Props.C31_array_queue_partial' depends on axioms: [propext, Classical.choice, Quot.sound]
'Props.C31_full_false' depends on axioms: [propext]
'Props.C31_lost_elements' depends on axioms: [propext]
'Props.C32_exact' depends on axioms: [propext, Classical.choice, Quot.sound]
'Props.C32_kept_partial' depends on axioms: [propext, Classical.choice, Quot.sound]
'Props.C32_deque_partial' depends on axioms: [propext, Classical.choice, Quot.sound]
'Props.C32_full_false' depends on axioms: [propext]
'Props.C32_pop_wrong' depends on axioms: [propext]
'Props.C33_linked_list_queue' depends on axioms: [propext, Classical.choice, Quot.sound]
'Props.C34_linked_list_priority_queue' depends on axioms: [propext, Classical.choice, Quot.sound]
'Props.C34_first_among_ties' depends on axioms: [propext, Classical.choice, Quot.sound]
'Props.C35_heap_priority_queue' depends on axioms: [propext, Classical.choice, Quot.sound]
'Props.C36_binomial_priority_queue' depends on axioms: [propext, Classical.choice, Quot.sound]
'Props.C37_dheap' depends on axioms: [propext, Classical.choice, Quot.sound]
'Props.C37_heap_order' depends on axioms: [propext, Classical.choice, Quot.sound]
'Props.C38_merge' depends on axioms: [propext, Classical.choice, Quot.sound]
'Props.C38_insert' depends on axioms: [propext, Classical.choice, Quot.sound]
'Props.C38_minimum' depends on axioms: [propext, Classical.choice, Quot.sound]
'Props.C38_is_empty' depends on axioms: [propext]
'Props.C38_history' depends on axioms: [propext, Classical.choice, Quot.sound]
'Props.C38_orders' depends on axioms: [propext, Quot.sound]
'Props.C39_singly_linked_list' depends on axioms: [propext, Classical.choice, Quot.sound]
'Props.C39_below_range' does not depend on any axioms
'Props.C40_doubly_linked_list' depends on axioms: [propext, Classical.choice, Quot.sound]
'Props.C41_all_indices_partial' depends on axioms: [propext, Classical.choice, Quot.sound]
'Props.C41_circular_list_partial' depends on axioms: [propext, Classical.choice, Quot.sound]
'Props.C41_full_false' depends on axioms: [propext]
'Props.C41_search_diverges' does not depend on any axioms
'Props.C41_open_insert_after' does not depend on any axioms
'Props.C42_both_directions_partial' depends on axioms: [propext, Classical.choice, Quot.sound]
'Props.C42_forward_partial' depends on axioms: [propext, Classical.choice, Quot.sound]
'Props.C42_full_false' depends on axioms: [propext]
'Props.C42_ring_open' does not depend on any axioms
'Props.C42_exact_partial' depends on axioms: [propext, Classical.choice, Quot.sound]
'Props.C43_skip_list' depends on axioms: [propext, Classical.choice, Quot.sound]
'Props.C43_random_bits' depends on axioms: [propext, Classical.choice, Quot.sound]
'Props.C43_missing' depends on axioms: [propext, Classical.choice, Quot.sound]
'Props.C43_sorted' depends on axioms: [propext, Classical.choice, Quot.sound]
'Props.C44_unknown' depends on axioms: [propext, Classical.choice, Quot.sound]
'Props.C44_find' depends on axioms: [propext, Classical.choice, Quot.sound]
'Props.C44_find_pure' depends on axioms: [propext, Classical.choice, Quot.sound]
'Props.C44_size' depends on axioms: [propext, Classical.choice, Quot.sound]
'Props.C44_make_root' depends on axioms: [propext, Classical.choice, Quot.sound]
'Props.C44_disjoint_sets' depends on axioms: [propext, Classical.choice, Quot.sound]
'Props.C44_disjoint_sets_sorted' depends on axioms: [propext, Classical.choice, Quot.sound]
'Props.C44_canonical' depends on axioms: [propext, Classical.choice, Quot.sound]
'Props.C45_sparse_table' depends on axioms: [propext, Classical.choice, Quot.sound]
'Props.C45_empty' depends on axioms: [propext]
'Props.C46_segment_tree' depends on axioms: [propext, Classical.choice, Quot.sound]
'Props.C47_static' depends on axioms: [propext, Classical.choice, Quot.sound]
'Props.C47_dynamic_array' depends on axioms: [propext, Classical.choice, Quot.sound]
'Props.C47_dynamic_partial' depends on axioms: [propext, Classical.choice, Quot.sound]
'Props.C47_dynamic_exact' depends on axioms: [propext, Classical.choice, Quot.sound]
'Props.C47_full_false' depends on axioms: [propext, Classical.choice, Quot.sound]
'Props.C47_negative_update' depends on axioms: [propext]
'Props.C48_fenwick' depends on axioms: [propext, Classical.choice, Quot.sound]
'Props.C49_counts_partial' depends on axioms: [propext, Classical.choice, Quot.sound]
'Props.C49_copies_partial' depends on axioms: [propext, Classical.choice, Quot.sound]
'Props.C49_fill_and_thin_partial' depends on axioms: [propext, Classical.choice, Quot.sound]
'Props.C49_unknown' depends on axioms: [propext, Quot.sound]
'Props.C49_full_false' depends on axioms: [propext, Quot.sound]
'Props.C50_kmp' depends on axioms: [propext, Classical.choice, Quot.sound]
'Props.C50_empty_query' depends on axioms: [propext]
'Props.C51_exact' depends on axioms: [propext, Classical.choice, Quot.sound]
'Props.C51_complete' depends on axioms: [propext, Classical.choice, Quot.sound]
'Props.C51_rabin_karp_partial' depends on axioms: [propext, Classical.choice, Quot.sound]
'Props.C51_full_false' depends on axioms: [propext]
'Props.C51_collision' depends on axioms: [propext]
'Props.C52_boyer_moore' depends on axioms: [propext, Classical.choice, Quot.sound]
'Props.C52_empty_query' depends on axioms: [propext]
'Props.C53_exact' depends on axioms: [propext, Classical.choice, Quot.sound]
'Props.C53_sound' depends on axioms: [propext, Classical.choice, Quot.sound]
'Props.C53_z_function_partial' depends on axioms: [propext, Classical.choice, Quot.sound]
'Props.C53_full_false' depends on axioms: [propext]
'Props.C53_separator_in_text' depends on axioms: [propext]
'Props.C54_trie' depends on axioms: [propext, Classical.choice, Quot.sound]
'Props.C55_exact' depends on axioms: [propext, Classical.choice, Quot.sound]
'Props.C55_strings_with_prefix_partial' depends on axioms: [propext, Classical.choice, Quot.sound]
'Props.C55_full_false' depends on axioms: [propext, Quot.sound]
'Props.C55_stored_prefix' depends on axioms: [propext]
'Props.C56_structure_partial' depends on axioms: [propext, Classical.choice, Quot.sound]
'Props.C56_labels_partial' depends on axioms: [propext, Classical.choice, Quot.sound]
'Props.C56_full_false' depends on axioms: [propext, Quot.sound]
'Props.C56_full_false_keys' depends on axioms: [propext, Quot.sound]
'Props.C56_reserved_name_false' depends on axioms: [propext]
'Props.C57_observations_partial' depends on axioms: [propext, Classical.choice, Quot.sound]
'Props.C57_add_only_partial' depends on axioms: [propext, Classical.choice, Quot.sound]
'Props.C57_num_edges_exact' depends on axioms: [propext, Classical.choice, Quot.sound]
'Props.C57_full_false' depends on axioms: [propext, Classical.choice, Quot.sound]
'Props.C58_bfs' depends on axioms: [propext, Classical.choice, Quot.sound]
'Props.AlRep.finGraph' depends on axioms: [propext, Quot.sound]
'Props.AmRep.finGraph' depends on axioms: [propext, Classical.choice, Quot.sound]
'Props.C59_dfs' depends on axioms: [propext, Classical.choice, Quot.sound]
'Props.C60_acyclic_partial' depends on axioms: [propext, Classical.choice, Quot.sound]
'Props.C60_exact' depends on axioms: [propext, Classical.choice, Quot.sound]
'Props.C60_sound' depends on axioms: [propext, Quot.sound]
'Props.C60_never_ends' depends on axioms: [propext, Classical.choice, Quot.sound]
'Props.C60_full_false' depends on axioms: [propext, Classical.choice, Quot.sound]
'Props.C61_kahn' depends on axioms: [propext, Classical.choice, Quot.sound]
'Props.al_history_rep' depends on axioms: [propext, Classical.choice, Quot.sound]
'Props.C62_kahn_parallel' depends on axioms: [propext, Classical.choice, Quot.sound]
'Props.C63_kruskal_list_partial' depends on axioms: [propext, Classical.choice, Quot.sound]
'Props.C63_kruskal_parallel_list_partial' depends on axioms: [propext, Classical.choice, Quot.sound]
'Props.C63_kruskal_parallel_no_edges' depends on axioms: [propext]
'Props.C63_kruskal_matrix' depends on axioms: [propext, Classical.choice, Quot.sound]
'Props.C63_kruskal_parallel_matrix' depends on axioms: [propext, Classical.choice, Quot.sound]
'Props.C63_full_false' depends on axioms: [propext, Classical.choice, Quot.sound]
'Props.C64_prim_partial' depends on axioms: [propext, Classical.choice, Quot.sound]
'Props.C64_prim_connected_partial' depends on axioms: [propext, Classical.choice, Quot.sound]
'Props.C64_prim_parallel_partial' depends on axioms: [propext, Classical.choice, Quot.sound]
'Props.C64_no_cost' depends on axioms: [propext, Quot.sound]
'Props.C64_full_false' depends on axioms: [propext, Classical.choice, Quot.sound]
'Props.C65_bellman_ford' depends on axioms: [propext, Classical.choice, Quot.sound]
'Props.C65_target' depends on axioms: [propext]
'Props.AlRep.wgraph' depends on axioms: [propext, Quot.sound]
'Props.AmRep.wgraph' depends on axioms: [propext, Classical.choice, Quot.sound]
'Props.C66_sound_partial' depends on axioms: [propext, Classical.choice, Quot.sound]
'Props.C66_few_edges_partial' depends on axioms: [propext, Classical.choice, Quot.sound]
'Props.C66_by_target_partial' depends on axioms: [propext, Classical.choice, Quot.sound]
'Props.C66_equal_weights_partial' depends on axioms: [propext, Classical.choice, Quot.sound]
'Props.C66_full_false' depends on axioms: [propext, Classical.choice, Quot.sound]
'Props.C67_floyd_warshall' depends on axioms: [propext, Quot.sound]
'Props.C68_edmonds_karp_partial' depends on axioms: [propext, Classical.choice, Quot.sound]
'Props.C68_edmonds_karp_antiparallel_partial' depends on axioms: [propext, Classical.choice, Quot.sound]
'Props.C68_dinic_partial' depends on axioms: [propext, Classical.choice, Quot.sound]
'Props.C68_dinic_antiparallel_partial' depends on axioms: [propext, Classical.choice, Quot.sound]
'Props.C68_full_false_edmonds_karp' depends on axioms: [propext, Classical.choice, Quot.sound]
'Props.C68_full_false_dinic' depends on axioms: [propext, Classical.choice, Quot.sound]
'Props.C68_dinic_never_ends' depends on axioms: [propext, Classical.choice, Quot.sound]
'Props.C69_tarjan' depends on axioms: [propext, Classical.choice, Quot.sound]
'Props.C70_coarse_partial' depends on axioms: [propext, Classical.choice, Quot.sound]
'Props.C70_symmetric_partial' depends on axioms: [propext, Classical.choice, Quot.sound]
'Props.C70_full_false' depends on axioms: [propext, Classical.choice, Quot.sound]
'Props.C70_full_incoming_false' depends on axioms: [propext, Classical.choice, Quot.sound]
'Props.C71_bridges' depends on axioms: [propext, Classical.choice, Quot.sound]
'Props.C71_one_way_false' depends on axioms: [propext, Classical.choice, Quot.sound]
'Props.C72_search' depends on axioms: [propext, Classical.choice, Quot.sound]
'Props.C72_in_order' depends on axioms: [propext, Classical.choice, Quot.sound]
'Props.C73_fill_and_thin_partial' depends on axioms: [propext, Classical.choice, Quot.sound]
'Props.C73_copes_partial' depends on axioms: [propext, Classical.choice, Quot.sound]
'Props.C73_delete_on_empty' depends on axioms: [propext]
'Props.C73_insert_after_delete' depends on axioms: [propext, Quot.sound]
'Props.C73_contraction' depends on axioms: [propext, Quot.sound]
'Props.C73_full_false' depends on axioms: [propext, Quot.sound]
'Props.C73_last_first_partial' depends on axioms: [propext, Classical.choice, Quot.sound]
'Props.C74_pre_order' depends on axioms: [propext, Quot.sound]
'Props.C74_in_order' depends on axioms: [propext, Quot.sound]
'Props.C74_out_order' depends on axioms: [propext, Quot.sound]
'Props.C74_post_order' depends on axioms: [propext, Classical.choice, Quot.sound]
'Props.C74_level_order' depends on axioms: [propext, Classical.choice, Quot.sound]
'Props.C74_every_node_once' depends on axioms: [propext, Quot.sound]
'Props.C75_bounds' depends on axioms: [propext, Classical.choice, Quot.sound]
'Props.C75_select_rank' depends on axioms: [propext, Classical.choice, Quot.sound]
'Props.C76_lca1' depends on axioms: [propext, Classical.choice, Quot.sound]
'Props.C76_lca2_partial' depends on axioms: [propext, Classical.choice, Quot.sound]
'Props.C76_lca2_full_false' depends on axioms: [propext, Quot.sound]
'Props.IsLca.unique' depends on axioms: [propext, Quot.sound]
'Props.C76_lca2_exact' depends on axioms: [propext, Classical.choice, Quot.sound]
'Props.C76_empty' depends on axioms: [propext, Quot.sound]
'Props.C77_search' depends on axioms: [propext, Classical.choice, Quot.sound]
'Props.C77_balanced' depends on axioms: [propext, Classical.choice, Quot.sound]
'Props.C77_bounds' depends on axioms: [propext, Classical.choice, Quot.sound]
'Props.C77_select_rank' depends on axioms: [propext, Classical.choice, Quot.sound]
'Props.C78_search' depends on axioms: [propext, Classical.choice, Quot.sound]
'Props.C78_bounds' depends on axioms: [propext, Classical.choice, Quot.sound]
'Props.C78_tree' depends on axioms: [propext, Classical.choice, Quot.sound]
'Props.C78_colouring_partial' depends on axioms: [propext, Classical.choice, Quot.sound]
'Props.C78_exact' depends on axioms: [propext, Classical.choice, Quot.sound]
'Props.C78_full_false' depends on axioms: [propext, Quot.sound]
'Props.C79_tree_partial' depends on axioms: [propext, Classical.choice, Quot.sound]
'Props.C79_distinct_partial' depends on axioms: [propext, Classical.choice, Quot.sound]
'Props.C79_bounds_partial' depends on axioms: [propext, Classical.choice, Quot.sound]
'Props.C79_exact' depends on axioms: [propext, Classical.choice, Quot.sound]
'Props.C79_full_false' depends on axioms: [propext, Classical.choice, Quot.sound]
'Props.C80_search' depends on axioms: [propext, Classical.choice, Quot.sound]
'Props.C80_tree' depends on axioms: [propext, Classical.choice, Quot.sound]
'Props.C80_heap_order_partial' depends on axioms: [propext, Classical.choice, Quot.sound]
'Props.C80_treap_partial' depends on axioms: [propext, Classical.choice, Quot.sound]
'Props.C80_exact' depends on axioms: [propext, Classical.choice, Quot.sound]
'Props.C80_full_false' depends on axioms: [propext, Quot.sound]
'Props.C81_query' depends on axioms: [propext, Classical.choice, Quot.sound]
'Props.C81_length' depends on axioms: [propext]
'Props.C81_empty' depends on axioms: [propext]
'Props.C82_decrease_key' depends on axioms: [propext, Quot.sound]
'Props.C82_decrease_key_error' depends on axioms: [propext]
'Props.C82_delete' depends on axioms: [propext, Classical.choice, Quot.sound]
'Props.C82_handle_moves' depends on axioms: [propext]
'Props.C83_sound_partial' depends on axioms: [propext, Classical.choice, Quot.sound]
'Props.C83_exact_partial' depends on axioms: [propext, Classical.choice, Quot.sound]
'Props.C83_input' depends on axioms: [propext, Classical.choice, Quot.sound]
'Props.C83_full_false' depends on axioms: [propext, Classical.choice, Quot.sound]
'Props.C84_copes_partial' depends on axioms: [propext, Classical.choice, Quot.sound]
'Props.C84_fill_and_thin_partial' depends on axioms: [propext, Classical.choice, Quot.sound]
'Props.C84_insert_after_delete' depends on axioms: [propext, Quot.sound]
'Props.C84_contraction' depends on axioms: [propext, Quot.sound]
'Props.C84_full_false' depends on axioms: [propext, Quot.sound]
'Props.C85_copes_partial' depends on axioms: [propext, Classical.choice, Quot.sound]
'Props.C85_fill_and_thin_partial' depends on axioms: [propext, Classical.choice, Quot.sound]
'Props.C85_absent' depends on axioms: [propext, Quot.sound]
'Props.C85_delete_empty' depends on axioms: [propext]
'Props.C85_insert_after_delete' depends on axioms: [propext, Quot.sound]
'Props.C85_stale_height' depends on axioms: [propext]
'Props.C85_full_false' depends on axioms: [propext, Quot.sound]
'Props.C86_copes_partial' depends on axioms: [propext, Classical.choice, Quot.sound]
'Props.C86_fill_and_delete_partial' depends on axioms: [propext, Classical.choice, Quot.sound]
'Props.C86_insert_after_delete' depends on axioms: [propext, Quot.sound]
'Props.C86_unmarked_root' depends on axioms: [propext, Quot.sound]
'Props.C86_full_false' depends on axioms: [propext, Quot.sound]
'Props.C87_any_comparator_partial' depends on axioms: [propext, Classical.choice, Quot.sound]
'Props.C87_bounds' depends on axioms: [propext, Classical.choice, Quot.sound]
'Props.C87_default' depends on axioms: [propext, Classical.choice, Quot.sound]
'Props.C87_full_false' depends on axioms: [propext, Classical.choice, Quot.sound]
'Props.C88_copes_partial' depends on axioms: [propext, Classical.choice, Quot.sound]
'Props.C88_fill_and_thin_partial' depends on axioms: [propext, Classical.choice, Quot.sound]
'Props.C88_stale_parent' depends on axioms: [propext, Quot.sound]
'Props.C88_delete_empty' depends on axioms: [propext]
'Props.C88_full_false' depends on axioms: [propext, Quot.sound]
'Props.C89_copes_partial' depends on axioms: [propext, Classical.choice, Quot.sound]
'Props.C89_inserts_partial' depends on axioms: [propext, Classical.choice, Quot.sound]
'Props.C89_absent' depends on axioms: [propext, Classical.choice, Quot.sound]
'Props.C89_empty' depends on axioms: [propext]
'Props.C89_full_false' depends on axioms: [propext, Classical.choice, Quot.sound]
'Props.C90_full_array_partial' depends on axioms: [propext, Classical.choice, Quot.sound]
'Props.C90_refuses' depends on axioms: [propext, Classical.choice, Quot.sound]
'Props.C90_empty' depends on axioms: [propext, Classical.choice, Quot.sound]
'Props.C90_gap' depends on axioms: [propext, Quot.sound]
'Props.C90_insert_after' depends on axioms: [propext, Quot.sound]
'Props.C90_full_false' depends on axioms: [propext, Quot.sound]
'Props.C91_bubble_sort' depends on axioms: [propext, Classical.choice, Quot.sound]
'Props.C91_insertion_sort' depends on axioms: [propext, Classical.choice, Quot.sound]
'Props.C91_cocktail_shaker_sort' depends on axioms: [propext, Classical.choice, Quot.sound]
'Props.C91_merge_sort' depends on axioms: [propext, Classical.choice, Quot.sound]
'Props.C91_brick_sort_parallel' depends on axioms: [propext, Classical.choice, Quot.sound]
'Props.C91_brick_sort' depends on axioms: [propext, Classical.choice, Quot.sound]
'Props.C91_selection_unstable' depends on axioms: [propext, Quot.sound]
'Props.C91_quick_unstable' depends on axioms: [propext, Quot.sound]
'Props.C91_shell_unstable' depends on axioms: [propext, Quot.sound]
'Props.C91_strict_unstable' depends on axioms: [propext, Classical.choice, Quot.sound]
'Props.C92_any_pivot_partial' depends on axioms: [propext, Classical.choice, Quot.sound]
'Props.C92_last_pivot_partial' depends on axioms: [propext, Classical.choice, Quot.sound]
'Props.C92_separating_pivot_partial' depends on axioms: [propext, Classical.choice, Quot.sound]
'Props.C92_exact' depends on axioms: [propext, Classical.choice, Quot.sound]
'Props.C92_unsorted' depends on axioms: [propext, Quot.sound]
'Props.C92_full_false' depends on axioms: [propext, Quot.sound]
'Props.C93_sort_all_partial' depends on axioms: [propext, Classical.choice, Quot.sound]
'Props.C93_all_sorts_partial' depends on axioms: [propext, Classical.choice, Quot.sound]
'Props.C93_sort_range_partial' depends on axioms: [propext, Classical.choice, Quot.sound]
'Props.C93_exact' depends on axioms: [propext, Classical.choice, Quot.sound]
'Props.C93_history' depends on axioms: [propext, Classical.choice, Quot.sound]
'Props.C93_reversed' depends on axioms: [propext, Classical.choice, Quot.sound]
'Props.C93_nothing_alive' depends on axioms: [propext, Quot.sound]
'Props.C93_full_false' depends on axioms: [propext]
'Props.C94_bubble_sort' depends on axioms: [propext, Classical.choice, Quot.sound]
'Props.C94_verify' depends on axioms: [propext, Classical.choice, Quot.sound]
'Props.C94_overflow' depends on axioms: [propext, Classical.choice, Quot.sound]
'Props.C94_comparator' depends on axioms: [propext, Classical.choice, Quot.sound]
'Props.C94_nothing_to_do' depends on axioms: [propext, Classical.choice, Quot.sound]
'Props.C95_selection_sort_partial' depends on axioms: [propext, Classical.choice, Quot.sound]
'Props.C95_raises' depends on axioms: [propext, Classical.choice, Quot.sound]
'Props.C95_never_compiles' depends on axioms: [propext, Classical.choice, Quot.sound]
'Props.C95_after_bubble_sort' depends on axioms: [propext, Classical.choice, Quot.sound]
'Props.C95_exact' depends on axioms: [propext, Classical.choice, Quot.sound]
'Props.C95_full_false' depends on axioms: [propext, Classical.choice, Quot.sound]
'Props.C96_bubble_sort_partial' depends on axioms: [propext, Classical.choice, Quot.sound]
'Props.C96_selection_sort' depends on axioms: [propext, Classical.choice, Quot.sound]
'Props.C96_insertion_sort' depends on axioms: [propext, Classical.choice, Quot.sound]
'Props.C96_empty' depends on axioms: [propext, Quot.sound]
'Props.C96_bubble_empty' depends on axioms: [propext, Quot.sound]
'Props.C96_exact' depends on axioms: [propext, Classical.choice, Quot.sound]
'Props.C96_full_false' depends on axioms: [propext, Quot.sound]
'Props.C97_exact' depends on axioms: [propext, Classical.choice, Quot.sound]
'Props.C97_exact_any' depends on axioms: [propext, Classical.choice, Quot.sound]
'Props.C97_later_start_partial' depends on axioms: [propext, Classical.choice, Quot.sound]
'Props.C97_least_first_partial' depends on axioms: [propext, Classical.choice, Quot.sound]
'Props.C97_sorts_or_never_ends' depends on axioms: [propext, Classical.choice, Quot.sound]
'Props.C97_never_ends' depends on axioms: [propext, Classical.choice, Quot.sound]
'Props.C97_empty' depends on axioms: [propext, Quot.sound]
'Props.C97_full_false' depends on axioms: [propext, Classical.choice, Quot.sound]
'Props.C98_linear_search' depends on axioms: [propext, Quot.sound]
'Props.C98_binary_search' depends on axioms: [propext, Classical.choice, Quot.sound]
'Props.C98_jump_search' depends on axioms: [propext, Classical.choice, Quot.sound]
'Props.C98_empty' depends on axioms: [propext]
'Props.C98_jump_empty' depends on axioms: [propext, Quot.sound]
'Props.C99_exact' depends on axioms: [propext, Quot.sound]
'Props.C99_is_ordered_partial' depends on axioms: [propext, Classical.choice, Quot.sound]
'Props.C99_none_hides_disorder' depends on axioms: [propext]
'Props.C99_full_false' depends on axioms: [propext, Quot.sound]
'Props.C100_labels_partial' depends on axioms: [propext, Classical.choice, Quot.sound]
'Props.C100_full_false' depends on axioms: [propext, Classical.choice, Quot.sound]
'Props.C100_full_false_remove' depends on axioms: [propext, Classical.choice, Quot.sound]
'Props.C100_full_false_kept' depends on axioms: [propext, Classical.choice, Quot.sound]
'Props.C101_exact_partial' depends on axioms: [propext, Classical.choice, Quot.sound]
'Props.C101_target_partial' depends on axioms: [propext, Classical.choice, Quot.sound]
'Props.C101_exact_iff_no_gap' depends on axioms: [propext, Classical.choice, Quot.sound]
'Props.C101_gap_partial' depends on axioms: [propext, Classical.choice, Quot.sound]
'Props.C101_full_false' depends on axioms: [propext, Classical.choice, Quot.sound]
'Props.C101_removed_undefined' depends on axioms: [propext, Classical.choice, Quot.sound]
'Props.C101_unknown_source' depends on axioms: [propext, Classical.choice, Quot.sound]
'Props.C102_list_partial' depends on axioms: [propext, Classical.choice, Quot.sound]
'Props.C102_matrix_partial' depends on axioms: [propext, Classical.choice, Quot.sound]
'Props.C102_unknown_source' depends on axioms: [propext, Classical.choice, Quot.sound]
'Props.C102_full_false' depends on axioms: [propext, Classical.choice, Quot.sound]
'Props.C103_structure_partial' depends on axioms: [propext, Classical.choice, Quot.sound]
'Props.C103_get_once_partial' depends on axioms: [propext, Classical.choice, Quot.sound]
'Props.C103_exact' depends on axioms: [propext, Classical.choice, Quot.sound]
'Props.C103_full_false' depends on axioms: [propext, Classical.choice, Quot.sound]
'Props.C103_raise_adds' depends on axioms: [propext, Classical.choice, Quot.sound]
'Props.C103_collision' depends on axioms: [propext, Classical.choice, Quot.sound]
'Props.C104_tree_partial' depends on axioms: [propext, Classical.choice, Quot.sound]
'Props.C104_ints_partial' depends on axioms: [propext, Classical.choice, Quot.sound]
'Props.C104_full_false' depends on axioms: [propext, Classical.choice, Quot.sound]
'Props.C104_full_false_add' depends on axioms: [propext, Classical.choice, Quot.sound]
'Props.C104_empty' depends on axioms: [propext, Quot.sound]
'Props.C104_changes_directed' depends on axioms: [propext, Classical.choice, Quot.sound]
'Props.C105_array_partial' depends on axioms: [propext, Classical.choice, Quot.sound]
'Props.C105_stack_partial' depends on axioms: [propext, Classical.choice, Quot.sound]
'Props.C105_full_false' depends on axioms: [propext]
'Props.C105_force' depends on axioms: [propext, Quot.sound]
'Props.C105_force_undefined' depends on axioms: [propext, Quot.sound]
'Props.C106_search_partial' depends on axioms: [propext, Classical.choice, Quot.sound]
'Props.C106_in_order_partial' depends on axioms: [propext, Classical.choice, Quot.sound]
'Props.C106_bounds_partial' depends on axioms: [propext, Classical.choice, Quot.sound]
'Props.C106_select_rank_partial' depends on axioms: [propext, Classical.choice, Quot.sound]
'Props.C106_full_false' depends on axioms: [propext, Quot.sound]
'Props.C106_other_object' depends on axioms: [propext, Quot.sound]
'Props.C106_twice' depends on axioms: [propext, Quot.sound]
'Props.C106_truthy_comparator' depends on axioms: [propext, Quot.sound]
'Props.C106_truthy_bound' depends on axioms: [propext, Quot.sound]
'Props.C107_copes_partial' depends on axioms: [propext, Classical.choice, Quot.sound]
'Props.C107_fill_and_thin_partial' depends on axioms: [propext, Classical.choice, Quot.sound]
'Props.C107_full_false' depends on axioms: [propext, Quot.sound]
'Props.C107_delete_on_empty' depends on axioms: [propext]
'Props.C107_insert_after_delete' depends on axioms: [propext, Quot.sound]
'Props.C107_contraction' depends on axioms: [propext, Quot.sound]
'Props.C107_stale_size' depends on axioms: [propext, Quot.sound]
'Props.C107_last_first_partial' depends on axioms: [propext, Classical.choice, Quot.sound]
'Props.C108_lca1_partial' depends on axioms: [propext, Classical.choice, Quot.sound]
'Props.C108_lca2_partial' depends on axioms: [propext, Classical.choice, Quot.sound]
'Props.C108_lca2_exact' depends on axioms: [propext, Classical.choice, Quot.sound]
'Props.C108_lca2_absent' depends on axioms: [propext, Classical.choice, Quot.sound]
'Props.C108_full_false' depends on axioms: [propext, Quot.sound]
'Props.C108_ancestor_first' depends on axioms: [propext, Quot.sound]
'Props.C108_big_key' depends on axioms: [propext, Quot.sound]
'Props.C108_big_key_either' depends on axioms: [propext, Quot.sound]
'Props.C109_pre_order' depends on axioms: [propext, Quot.sound]
'Props.C109_in_order' depends on axioms: [propext, Quot.sound]
'Props.C109_out_order' depends on axioms: [propext, Quot.sound]
'Props.C109_post_order' depends on axioms: [propext, Classical.choice, Quot.sound]
'Props.C109_level_order' depends on axioms: [propext, Classical.choice, Quot.sound]
'Props.C109_inserted' depends on axioms: [propext, Classical.choice, Quot.sound]
'Props.C110_fenwick_partial' depends on axioms: [propext, Classical.choice, Quot.sound]
'Props.C110_full_false' depends on axioms: [propext, Quot.sound]
'Props.C110_large_element' depends on axioms: [propext, Classical.choice, Quot.sound]
'Props.C110_sum_overflow' depends on axioms: [propext, Classical.choice, Quot.sound]
'Props.C110_update_outside' depends on axioms: [propext, Quot.sound]
'Props.C110_failed_update_stores' depends on axioms: [propext, Classical.choice, Quot.sound]
'Props.C110_sum_large' depends on axioms: [propext, Classical.choice, Quot.sound]
'Props.C110_sum_far_outside' depends on axioms: [propext]
'Props.C111_search_partial' depends on axioms: [propext, Classical.choice, Quot.sound]
'Props.C111_in_order_partial' depends on axioms: [propext, Classical.choice, Quot.sound]
'Props.C111_bounds_partial' depends on axioms: [propext, Classical.choice, Quot.sound]
'Props.C111_select_rank_partial' depends on axioms: [propext, Classical.choice, Quot.sound]
'Props.C111_balanced_partial' depends on axioms: [propext, Classical.choice, Quot.sound]
'Props.C111_long_run' depends on axioms: [propext, Quot.sound]
'Props.C111_full_false' depends on axioms: [propext, Classical.choice, Quot.sound]
'Props.C111_other_object' depends on axioms: [propext, Quot.sound]
'Props.C112_copes_partial' depends on axioms: [propext, Classical.choice, Quot.sound]
'Props.C112_fill_and_thin_partial' depends on axioms: [propext, Classical.choice, Quot.sound]
'Props.C112_full_false' depends on axioms: [propext, Quot.sound]
'Props.C112_absent' depends on axioms: [propext, Quot.sound]
'Props.C112_insert_after_delete' depends on axioms: [propext, Quot.sound]
'Props.C112_stale_height' depends on axioms: [propext]
'Props.C113_search_partial' depends on axioms: [propext, Classical.choice, Quot.sound]
'Props.C113_bounds_partial' depends on axioms: [propext, Classical.choice, Quot.sound]
'Props.C113_tree_partial' depends on axioms: [propext, Classical.choice, Quot.sound]
'Props.C113_full_false' depends on axioms: [propext, Quot.sound]
'Props.C113_other_object' depends on axioms: [propext, Quot.sound]
'Props.C113_exact' depends on axioms: [propext, Classical.choice, Quot.sound]
'Props.C114_copes_partial' depends on axioms: [propext, Classical.choice, Quot.sound]
'Props.C114_fill_and_thin_partial' depends on axioms: [propext, Classical.choice, Quot.sound]
'Props.C114_full_false' depends on axioms: [propext, Quot.sound]
'Props.C114_insert_after_delete' depends on axioms: [propext, Quot.sound]
'Props.C114_contraction' depends on axioms: [propext, Quot.sound]
'Props.C115_tree_partial' depends on axioms: [propext, Classical.choice, Quot.sound]
'Props.C115_distinct_partial' depends on axioms: [propext, Classical.choice, Quot.sound]
'Props.C115_bounds_partial' depends on axioms: [propext, Classical.choice, Quot.sound]
'Props.C115_full_false' depends on axioms: [propext, Quot.sound]
'Props.C115_again' depends on axioms: [propext, Quot.sound]
'Props.C115_other_object' depends on axioms: [propext, Quot.sound]
'Props.C116_copes_partial' depends on axioms: [propext, Classical.choice, Quot.sound]
'Props.C116_fill_and_thin_partial' depends on axioms: [propext, Classical.choice, Quot.sound]
'Props.C116_full_false' depends on axioms: [propext, Quot.sound]
'Props.C116_stale_parent' depends on axioms: [propext, Quot.sound]
'Props.C116_delete_empty' depends on axioms: [propext]
'Props.C117_copes_partial' depends on axioms: [propext, Classical.choice, Quot.sound]
'Props.C117_inserts_partial' depends on axioms: [propext, Classical.choice, Quot.sound]
'Props.C117_absent' depends on axioms: [propext, Classical.choice, Quot.sound]
'Props.C117_empty' depends on axioms: [propext]
'Props.C117_full_false' depends on axioms: [propext, Classical.choice, Quot.sound]
'Props.C118_refuses' depends on axioms: [propext, Classical.choice, Quot.sound]
'Props.C118_full_array_partial' depends on axioms: [propext, Classical.choice, Quot.sound]
'Props.C118_gap' depends on axioms: [propext, Quot.sound]
'Props.C118_empty' depends on axioms: [propext, Quot.sound]
'Props.C118_insert_after' depends on axioms: [propext, Quot.sound]
'Props.C118_full_false' depends on axioms: [propext, Quot.sound]
'Props.C119_search' depends on axioms: [propext, Classical.choice, Quot.sound]
'Props.C119_stored_partial' depends on axioms: [propext, Classical.choice, Quot.sound]
'Props.C119_heap_order_partial' depends on axioms: [propext, Classical.choice, Quot.sound]
'Props.C119_treap_partial' depends on axioms: [propext, Classical.choice, Quot.sound]
'Props.C119_rounded' depends on axioms: [propext, Classical.choice, Quot.sound]
'Props.C119_again' depends on axioms: [propext, Classical.choice, Quot.sound]
'Props.C119_overflow' depends on axioms: [propext]
'Props.C119_full_false' depends on axioms: [propext, Classical.choice, Quot.sound]
'Props.C119_exact' depends on axioms: [propext, Classical.choice, Quot.sound]
'Props.C119_constructed_root' depends on axioms: [propext, Classical.choice, Quot.sound]
'Props.C120_copes_partial' depends on axioms: [propext, Classical.choice, Quot.sound]
'Props.C120_fill_and_delete_partial' depends on axioms: [propext, Classical.choice, Quot.sound]
'Props.C120_insert_after_delete' depends on axioms: [propext, Classical.choice, Quot.sound]
'Props.C120_unmarked_root' depends on axioms: [propext, Classical.choice, Quot.sound]
'Props.C120_full_false' depends on axioms: [propext, Classical.choice, Quot.sound]
'Props.C121_delete' depends on axioms: [propext, Classical.choice, Quot.sound]
'Props.C121_cpp_delete' depends on axioms: [propext, Classical.choice, Quot.sound]
'Props.C121_delete_nothing' depends on axioms: [propext, Quot.sound]
'Props.cutOff_of_stored' depends on axioms: [propext, Classical.choice, Quot.sound]
'Props.C122_documented_partial' depends on axioms: [propext, Classical.choice, Quot.sound]
'Props.C122_names_served_partial' depends on axioms: [propext, Classical.choice, Quot.sound]
'Props.C122_searches' depends on axioms: [propext, Quot.sound]
'Props.C122_cpp' depends on axioms: [propext]
'Props.C122_cpp_searches' depends on axioms: [propext]
'Props.C122_mst_list' depends on axioms: [propext, Classical.choice, Quot.sound]
'Props.C122_mst_matrix' depends on axioms: [propext, Classical.choice, Quot.sound]
'Props.C122_mst_parallel_list' depends on axioms: [propext, Classical.choice, Quot.sound]
'Props.C122_mst_parallel_matrix' depends on axioms: [propext, Classical.choice, Quot.sound]
'Props.C122_scc_list' depends on axioms: [propext, Classical.choice, Quot.sound]
'Props.C122_scc_matrix' depends on axioms: [propext, Classical.choice, Quot.sound]
'Props.C122_shortest_paths_list' depends on axioms: [propext, Classical.choice, Quot.sound]
'Props.C122_shortest_paths_matrix' depends on axioms: [propext, Classical.choice, Quot.sound]
'Props.C122_all_pairs_list' depends on axioms: [propext, Classical.choice, Quot.sound]
'Props.C122_all_pairs_matrix' depends on axioms: [propext, Classical.choice, Quot.sound]
'Props.C122_topological_sort_list' depends on axioms: [propext, Classical.choice, Quot.sound]
'Props.C122_topological_sort_matrix' depends on axioms: [propext, Classical.choice, Quot.sound]
'Props.C122_topological_sort_parallel_list' depends on axioms: [propext, Classical.choice, Quot.sound]
'Props.C122_topological_sort_parallel_matrix' depends on axioms: [propext, Classical.choice, Quot.sound]
'Props.C122_max_flow' depends on axioms: [propext, Classical.choice, Quot.sound]
'Props.C122_full_false' depends on axioms: [propext, Classical.choice, Quot.sound]
'Props.C123_find_pick' depends on axioms: [propext, Classical.choice, Quot.sound]
'Props.C123_find_partial' depends on axioms: [propext, Classical.choice, Quot.sound]
'Props.C123_z_vector' depends on axioms: [propext, Classical.choice, Quot.sound]
'Props.C123_full_false' depends on axioms: [propext, Classical.choice, Quot.sound]
'Props.C124_binary_search' depends on axioms: [propext, Quot.sound]
'Props.C124_lower_bound' depends on axioms: [propext, Quot.sound]
'Props.C124_upper_bound' depends on axioms: [propext, Quot.sound]
'Props.C124_heap_insert' depends on axioms: [propext, Quot.sound]
'Props.C124_heap_extract' depends on axioms: [propext, Quot.sound]
'Props.C124_binomial_trees' depends on axioms: [propext, Classical.choice, Quot.sound]
'Props.C124_prefix_sum' depends on axioms: [propext, Classical.choice, Quot.sound]
'Props.C124_fenwick_update' depends on axioms: [propext, Classical.choice, Quot.sound]
'Props.C124_find_root' depends on axioms: [propext, Classical.choice, Quot.sound]
'Props.C124_make_root_chain' depends on axioms: [propext, Classical.choice, Quot.sound]
'Props.C125_bubble_sort_partial' depends on axioms: [propext, Classical.choice, Quot.sound]
'Props.C125_selection_sort_partial' depends on axioms: [propext, Classical.choice, Quot.sound]
'Props.C125_insertion_sort_partial' depends on axioms: [propext, Classical.choice, Quot.sound]
'Props.C125_quick_sort_partial' depends on axioms: [propext, Classical.choice, Quot.sound]
'Props.C125_linear_search_partial' depends on axioms: [propext, Quot.sound]
'Props.C125_binary_search_partial' depends on axioms: [propext, Classical.choice, Quot.sound]
'Props.C125_is_ordered_partial' depends on axioms: [propext, Quot.sound]
'Props.C125_stack_partial' depends on axioms: [propext, Classical.choice, Quot.sound]
'Props.C125_fenwick_partial' depends on axioms: [propext, Classical.choice, Quot.sound]
'Props.C125_bst_partial' depends on axioms: [propext, Classical.choice, Quot.sound]
'Props.C125_bst_inserts_partial' depends on axioms: [propext, Classical.choice, Quot.sound]
'Props.C125_avl_partial' depends on axioms: [propext, Classical.choice, Quot.sound]
'Props.C125_red_black_partial' depends on axioms: [propext, Classical.choice, Quot.sound]
'Props.C125_splay_partial' depends on axioms: [propext, Classical.choice, Quot.sound]
'Props.C125_cartesian_partial' depends on axioms: [propext, Classical.choice, Quot.sound]
'Props.C125_bst_fill_and_thin_partial' depends on axioms: [propext, Classical.choice, Quot.sound]
'Props.C125_avl_fill_and_thin_partial' depends on axioms: [propext, Classical.choice, Quot.sound]
'Props.C125_red_black_fill_and_thin_partial' depends on axioms: [propext, Classical.choice, Quot.sound]
'Props.C125_splay_inserts_partial' depends on axioms: [propext, Classical.choice, Quot.sound]
'Props.C125_cartesian_fill_and_delete_partial' depends on axioms: [propext, Classical.choice, Quot.sound]
'Props.C125_graph_partial' depends on axioms: [propext, Classical.choice, Quot.sound]
'Props.C125_graph_costs_partial' depends on axioms: [propext, Classical.choice, Quot.sound]
'Props.C125_full_false' depends on axioms: [propext, Quot.sound]
'Props.C125_empty_delete' depends on axioms: [propext]
'Props.C125_graph_twice' depends on axioms: [propext, Classical.choice, Quot.sound]
'Props.C125_graph_no_cost' depends on axioms: [propext, Classical.choice, Quot.sound]
'Props.C125_bst_last_first_partial' depends on axioms: [propext, Classical.choice, Quot.sound]
'Props.C125_lca2_partial' depends on axioms: [propext, Classical.choice, Quot.sound]
'Props.C125_matrix_partial' depends on axioms: [propext, Classical.choice, Quot.sound]
'Props.C125_matrix_count' depends on axioms: [propext]
'Props.C125_dijkstra_partial' depends on axioms: [propext, Classical.choice, Quot.sound]
'Props.C125_dijkstra_detour' depends on axioms: [propext, Classical.choice, Quot.sound]
'Props.C126_avl' depends on axioms: [propext, Classical.choice, Quot.sound]
'Props.C126_red_black' depends on axioms: [propext, Classical.choice, Quot.sound]
'Props.C126_avl_deletes' depends on axioms: [propext, Classical.choice, Quot.sound]
'Props.C126_red_black_deletes' depends on axioms: [propext, Classical.choice, Quot.sound]
'Props.C126_cpp_red_black' depends on axioms: [propext, Classical.choice, Quot.sound]
'Props.C127_comparison_sorts' depends on axioms: [propext, Classical.choice, Quot.sound]
'Props.C127_stable_sorts' depends on axioms: [propext, Classical.choice, Quot.sound]
'Props.C127_again' depends on axioms: [propext, Classical.choice, Quot.sound]
'Props.C127_any_arrangement' depends on axioms: [propext, Classical.choice, Quot.sound]
'Props.C127_counting_sort' depends on axioms: [propext, Classical.choice, Quot.sound]
'Props.C127_radix_sort' depends on axioms: [propext, Classical.choice, Quot.sound]
'Props.C127_ties_needed' depends on axioms: [propext]
'Props.C128_from' depends on axioms: [propext, Classical.choice, Quot.sound]
'Props.C128_all' depends on axioms: [propext, Classical.choice, Quot.sound]
'Props.C128_factorial' depends on axioms: [propext, Classical.choice, Quot.sound]
'Props.C128_back' depends on axioms: [propext, Classical.choice, Quot.sound]
'Props.C129_bellman_ford_floyd' depends on axioms: [propext, Classical.choice, Quot.sound]
'Props.C129_dijkstra_never_less' depends on axioms: [propext, Classical.choice, Quot.sound]
'Props.C129_dijkstra_partial' depends on axioms: [propext, Classical.choice, Quot.sound]
'Props.C129_johnson' depends on axioms: [propext, Classical.choice, Quot.sound]
'Props.C129_full_false' depends on axioms: [propext, Classical.choice, Quot.sound]
'Props.C130_trees' depends on axioms: [propext, Classical.choice, Quot.sound]
'Props.C131_agree' depends on axioms: [propext, Classical.choice, Quot.sound]
'Props.C131_sorts' depends on axioms: [propext, Classical.choice, Quot.sound]
'Props.C131_ties' depends on axioms: [propext]
'Props.C132_kmp_boyer_moore' depends on axioms: [propext, Classical.choice, Quot.sound]
'Props.C132_order' depends on axioms: [propext, Classical.choice, Quot.sound]
'Props.C132_exact' depends on axioms: [propext, Classical.choice, Quot.sound]
'Props.C132_full_false' depends on axioms: [propext]
'Props.C133_constructors' depends on axioms: [propext]
'Props.C133_array' depends on axioms: [propext, Classical.choice, Quot.sound]
'Props.C133_overflow' depends on axioms: [propext]
'Props.C133_same_as_python' depends on axioms: [propext, Classical.choice, Quot.sound]
'Props.C133_negative_write' depends on axioms: [propext]
'Props.C134_balanced_partial' depends on axioms: [propext, Quot.sound]
'Props.C134_failed' depends on axioms: [propext, Quot.sound]
'Props.C134_init' depends on axioms: [propext, Quot.sound]
'Props.C134_init_exact' depends on axioms: [propext, Classical.choice, Quot.sound]
'Props.C134_dealloc' depends on axioms: [propext, Quot.sound]
'Props.C134_dynamic_partial' depends on axioms: [propext, Quot.sound]
'Props.C134_stack_keeps' depends on axioms: [propext, Quot.sound]
'Props.C134_stack_leaks' depends on axioms: [propext]
'Props.C134_full_false' depends on axioms: [propext, Classical.choice, Quot.sound]
'Props.C135_same_total' depends on axioms: [propext, Classical.choice, Quot.sound]
'Props.C135_least_total' depends on axioms: [propext, Classical.choice, Quot.sound]
'Props.C135_same_tree' depends on axioms: [propext, Classical.choice, Quot.sound]
'Props.C136_agree_partial' depends on axioms: [propext, Classical.choice, Quot.sound]
'Props.C136_full_false' depends on axioms: [propext, Classical.choice, Quot.sound]
'Props.C137_coarser_partial' depends on axioms: [propext, Classical.choice, Quot.sound]
'Props.C137_symmetric_partial' depends on axioms: [propext, Classical.choice, Quot.sound]
'Props.C137_exact' depends on axioms: [propext, Classical.choice, Quot.sound]
'Props.C137_full_false' depends on axioms: [propext, Classical.choice, Quot.sound]
'Props.C138_static' depends on axioms: [propext, Classical.choice, Quot.sound]
'Props.C138_dynamic' depends on axioms: [propext, Classical.choice, Quot.sound]
'Props.C138_caller' depends on axioms: [propext, Classical.choice, Quot.sound]
'Props.C139_partial' depends on axioms: [propext, Classical.choice, Quot.sound]
'Props.C139_dimensions' does not depend on any axioms
'Props.C139_exact' depends on axioms: [propext, Classical.choice, Quot.sound]
'Props.C139_full_false' depends on axioms: [propext, Classical.choice, Quot.sound]
'Props.C140_shape' depends on axioms: [propext, Quot.sound]
'Props.C140_cells' depends on axioms: [propext, Quot.sound]
'Props.C140_refused_exact' depends on axioms: [propext, Quot.sound]
'Props.C140_as_C28' depends on axioms: [propext, Quot.sound]
'Props.C140_fill' depends on axioms: [propext, Classical.choice, Quot.sound]
'Props.C140_full_false' depends on axioms: [propext]
'Props.C141_levels' depends on axioms: [propext, Classical.choice, Quot.sound]
'Props.C141_distinct_partial' depends on axioms: [propext, Classical.choice, Quot.sound]
'Props.C141_exact' depends on axioms: [propext, Classical.choice, Quot.sound]
'Props.C141_full_false' depends on axioms: [propext, Classical.choice, Quot.sound]
'Props.C142_sort_then_search' depends on axioms: [propext, Classical.choice, Quot.sound]
'Props.C142_search' depends on axioms: [propext, Classical.choice, Quot.sound]
'Props.C142_lower_bound' depends on axioms: [propext, Classical.choice, Quot.sound]
'Props.C142_upper_bound' depends on axioms: [propext, Classical.choice, Quot.sound]
'Props.C142_occurrences' depends on axioms: [propext, Classical.choice, Quot.sound]
'Props.C143_stack' depends on axioms: [propext, Classical.choice, Quot.sound]
'Props.C143_stack_exact' depends on axioms: [propext, Classical.choice, Quot.sound]
'Props.C143_queue_names' depends on axioms: [propext, Classical.choice, Quot.sound]
'Props.C143_queue_partial' depends on axioms: [propext, Classical.choice, Quot.sound]
'Props.C143_queue_exact' depends on axioms: [propext, Classical.choice, Quot.sound]
'Props.C143_deque_partial' depends on axioms: [propext, Classical.choice, Quot.sound]
'Props.C143_deque_exact' depends on axioms: [propext, Classical.choice, Quot.sound]
'Props.C143_priority' depends on axioms: [propext, Classical.choice, Quot.sound]
'Props.C143_full_false' depends on axioms: [propext, Classical.choice, Quot.sound]
'Props.C143_comparator_ignored' depends on axioms: [propext]
'Props.C144_topological_sort' depends on axioms: [propext, Classical.choice, Quot.sound]
'Props.C144_searches' depends on axioms: [propext, Classical.choice, Quot.sound]
'Props.C145_reachable' depends on axioms: [propext, Classical.choice, Quot.sound]
'Props.C145_levels' depends on axioms: [propext, Classical.choice, Quot.sound]
'Props.C146_updates' depends on axioms: [propext, Classical.choice, Quot.sound]
'Props.C146_static' depends on axioms: [propext, Classical.choice, Quot.sound]
'Props.C146_cpp' depends on axioms: [propext, Classical.choice, Quot.sound]
'Props.C147_sorted' depends on axioms: [propext, Classical.choice, Quot.sound]
'Props.C148_front_rear_partial' depends on axioms: [propext, Classical.choice, Quot.sound]
'Props.C148_full_false' depends on axioms: [propext]
'Props.C148_emptied_shows_none' depends on axioms: [propext]
'Props.C149_reverse_topological' depends on axioms: [propext, Classical.choice, Quot.sound]
'Props.C149_topological' depends on axioms: [propext, Classical.choice, Quot.sound]
'Props.C150_in_every_forest' depends on axioms: [propext, Classical.choice, Quot.sound]
'Props.C150_in_every_result' depends on axioms: [propext, Classical.choice, Quot.sound]
'Props.C151_lcs_with_sorted' depends on axioms: [propext, Classical.choice, Quot.sound]
'Props.C151_lis_is_lcs' depends on axioms: [propext, Classical.choice, Quot.sound]
'Props.C151_lcs_symmetric' depends on axioms: [propext, Quot.sound]
'Props.C152_keeps_data_partial' depends on axioms: [propext, Classical.choice, Quot.sound]
'Props.C152_assignment_exact' depends on axioms: [propext, Quot.sound]
'Props.C152_constructor_exact' depends on axioms: [propext, Quot.sound]
'Props.C152_full_false' depends on axioms: [propext, Classical.choice, Quot.sound]
'Props.C152_failed_assignment_frees' depends on axioms: [propext]
'Props.C152_large_int_becomes_minus_one' depends on axioms: [propext, Quot.sound]
'Props.C153_neighbours_partial' depends on axioms: [propext, Classical.choice, Quot.sound]
'Props.C153_neighbours_exact' depends on axioms: [propext, Classical.choice, Quot.sound]
'Props.C153_full_false' depends on axioms: [propext]
'Props.C153_cpp_neighbours_partial' depends on axioms: [propext, Classical.choice, Quot.sound]
'Props.C153_cpp_second_add' depends on axioms: [propext, Classical.choice, Quot.sound]
'Props.C153_cpp_full_false' depends on axioms: [propext, Classical.choice, Quot.sound]
'Props.C154_new_graph_partial' depends on axioms: [propext, Quot.sound]
'Props.C154_unknown_implementation' depends on axioms: [propext]
'Props.C154_no_vertices' depends on axioms: [propext, Quot.sound]
'Props.C154_default_for_cpp_matrix' depends on axioms: [propext]
'Props.C154_full_false' depends on axioms: [propext]
'Props.C154_constructor_adds_exact' depends on axioms: [propext, Quot.sound]
'Props.C154_cpp_twice' depends on axioms: [propext]
'Props.C155_rooted_partial' depends on axioms: [propext, Quot.sound]
'Props.C155_rooted_exact' depends on axioms: [propext, Quot.sound]
'Props.C155_key_dropped' depends on axioms: [propext]
'Props.C155_full_false' depends on axioms: [propext, Quot.sound]
'Props.C155_key_required' does not depend on any axioms
'Props.C155_cpp_rooted' depends on axioms: [propext, Quot.sound]
'Props.C155_backends_differ' depends on axioms: [propext, Quot.sound]
'Props.C155_red_black' depends on axioms: [propext, Quot.sound]
'Props.C155_cartesian' depends on axioms: [propext, Quot.sound]
'Props.C156_serves_partial' depends on axioms: [propext, Quot.sound]
'Props.C156_serves_exact' depends on axioms: [propext, Quot.sound]
'Props.C156_merge' depends on axioms: [propext, Quot.sound]
'Props.C156_list_calls' depends on axioms: [propext, Quot.sound]
'Props.C156_tuple' depends on axioms: [propext, Quot.sound]
'Props.C156_full_false' depends on axioms: [propext, Quot.sound]
'Props.C156_order_needed' does not depend on any axioms
'Props.C157_list_kept_partial' depends on axioms: [propext, Quot.sound]
'Props.C157_list_kept_exact' depends on axioms: [propext, Quot.sound]
'Props.C157_full_false' depends on axioms: [propext, Quot.sound]
'Props.C158_first_partial' depends on axioms: [propext, Classical.choice, Quot.sound]
'Props.C158_second' depends on axioms: [propext, Classical.choice, Quot.sound]
'Props.C158_same_cells' depends on axioms: [propext, Classical.choice, Quot.sound]
'Props.C158_full_false' depends on axioms: [propext, Quot.sound] 