c("C01", "proved", ["C01_kruskal_spanning_forest"], "every in-range edge list; labels equal iff connected")
c("C02", "proved", ["C02_kruskal_minimum", "C02_kruskal_total_weight"], "any linear order of weights; sums for ordered additive monoids")
c("C03", "proved", ["C03_pairwise_never_connected", "C03_groups_never_connected", "C03_asymmetric_not_enforced"], "symmetry is needed: the last theorem shows a one-sided entry is not enforced without validation")
c("C04", "proved", ["C04_pairwise_greedy", "C04_groups_greedy"], "")
c("C05", "proved", ["C05_groups_eq_pairwise"], "64-bit words modelled as BitVec 64, any number of words")
c("C06", "proved", ["C06_diagonal_constraints", "C06_no_groups"], "")
c("C07", "partial", ["C07_every_entry_enforced_partial", "C07_cancelling_entries_not_enforced", "C07_overflowing_entries_not_enforced"], "false as stated: symmetrisation by addition drops cancelling or overflowing entries (two witnesses); proved when the entry and its transpose do not sum to zero")
c("C08", "proved", ["C08_bridging", "C08_unbridging", "C08_finish_spanning_tree"], "")
c("C09", "partial", ["C09_numbering_by_smallest_false", "C09_numbering_partial"], "false as stated (witness); proved: dense numbering in the order of a representative of each component")
c("C10", "proved", ["C10_rank_closure", "C10_size_closure"], "")
c("C11", "proved", ["C11_find_depth", "C11_concurrent_finds", "C11_concurrent_finds_finish"], "interleaving semantics with one step per array read or write")
c("C12", "proved", ["C12_linkage_is_dendrogram", "C12_below_connected"], "any additive sample weights; unweighted is the constant weight one")
c("C13", "proved", ["C13_sorted_tree_order_independent", "C13_order_independent"], "ties included; through the whole clustering pipeline without semi-supervised selection")
c("C14", "proved", ["C14_cut_is_dbscan_star", "C14_kruskal_dbscan_star"], "for any minimum spanning forest of the graph completed by +inf edges, and end to end through the Kruskal entry point; about get_cluster_labelling_at_cut, to which HDBSCAN.dbscan_clustering passes the stored linkage tree; that wrapper is not modelled")
c("C15", "proved", ["C15_cut_labels_dense", "C15_cut_monotone"], "any linkage table whose rows refer to earlier nodes")
c("C16", "partial", ["C16_no_sample_twice", "C16_sample_exactly_once_partial", "C16_heavy_sample_lost"], "never listed twice for all inputs; exactly once when every sample is lighter than min_cluster_size; false otherwise (witness min_cluster_size=1)")
c("C17", "proved", ["C17_condensed_clusters_real", "C17_cluster_is_component", "C17_cluster_separated"], "samples lighter than min_cluster_size (unit weights: min_cluster_size >= 2); clusters related back to the spanning tree and to the graph")
c("C18", "proved", ["C18_lambda_monotone", "C18_hdbscan_plscan_lambda"], "no assumption on weights or size limits; exact arithmetic")
c("C19", "proved", ["C19_buffers_suffice"], "no assumption on weights or size limits; bound attained by an example")
c("C20", "proved", ["C20_leaf_selection", "C20_extract_leaves"], "both leaf extraction functions")
c("C21", "proved", ["C21_eom_not_nested"], "arbitrary score arithmetic, so NaN and infinities included")
c("C22", "partial", ["C22_scores_are_stabilities", "C22_eom_optimal_partial", "C57_no_split_no_cluster"], "exact arithmetic; proved for trees with at least one split; false without a split and with allow_single_cluster, where the top cluster is permitted and nothing is selected (last theorem)")
c("C23", "partial", ["C23_max_cluster_size_partial", "C23_root_off_by_one", "C23_semi_supervised_ignores_max"], "false for the top cluster, whose recorded size is n-1 (witness), and in semi-supervised mode, where the limit is not passed on (witness); proved for all other clusters of the ordinary mode")
c("C24", "proved", ["C24_root_not_selected", "C24_leaves_covered","C24_leaves_covered_max"], "")
c("C25", "partial", ["C25_epsilon_merges_partial", "C25_epsilon_drops_cluster"], "false as stated: segments_in_branch runs on from a leaf to the next larger splitting cluster, so clusters elsewhere are dropped (witness); proved: no nesting, minimal merging, and coverage under an explicit condition on the id layout")
c("C26", "partial", ["C26_label_is_selected_ancestor_partial", "C26_top_cluster", "C26_key_error", "C26_max_cluster_size_crash"], "the labelling fails with KeyError when exactly one cluster other than the top one is selected and a sample outside it leaves last; reachable with max_cluster_size (witness); proved otherwise")
c("C27", "partial", ["C27_labels_dense_partial", "C27_labels_dense_connected_partial", "C27_label_gap"], "false for disconnected inputs (witness: selected cluster all of whose samples leave at lambda 0); proved when each selected cluster has a sample leaving at positive lambda")
c("C28", "proved", ["C28_strengths"], "exact arithmetic, infinite lambdas included; any labelling into the selected clusters")
c("C29", "partial", ["C29_pairwise_never_share_partial", "C29_groups_never_share_partial", "C29_persistence_joins_pair", "C29_semi_supervised_joins_pair"], "false with persistence_threshold > 0 (witness) and in semi-supervised mode (witness); proved without it for both constraint encodings")
c("C30", "partial", ["C30_disconnected_never_share_partial", "C30_persistence_joins_components", "C30_weighted_root_joins_components", "C30_semi_supervised_joins_components"], "false with persistence_threshold > 0, in semi-supervised mode, and with sample weights, max_cluster_size and allow_single_cluster together (witnesses); proved otherwise")
c("C33", "partial", ["C33_any_order", "C33_core_graph_boruvka_partial", "C33_empty_row_wrong"], "any order and any ties proved for the process; the code is proved to follow it when empty rows come last; with an empty row elsewhere it reads the next row (witness)")
c("C41", "proved", ["C41_symmetrize", "C41_validation"], "")
c("C42", "proved", ["C42_core_distance", "C42_neighbours"], "")
c("C43", "partial", ["C43_kruskal", "C43_boruvka_partial", "C43_equal_weights_partial", "C43_equal_weights_exact_partial", "C43_isolated_sample_wrong", "C43_rounding_not_minimal"], "Kruskal routine proved for all graphs; Boruvka routine false with an isolated sample that is not last, and not minimal after rounding to single precision (witnesses); proved otherwise up to rounding")
c("C37", "partial", ["C37_knn_partial", "C56_push_hangs"], "proved for at most 32768 neighbours, for exact arithmetic and for any monotone rounding (roundedArith_lawful); beyond that the 16-bit heap push can loop for ever (witness)")
c("C38", "proved", ["C38_build", "C38_rejects"], "also: boxes tight, halves separated along an axis")
c("C56", "partial", ["C56_heap_partial", "C56_push_hangs"], "proved for at most 32768 entries; with 32769 the loop variables wrap around and the push never returns (witness)")
c("C58", "proved", ["C58_introselect"], "")
c("C59", "proved", ["C59_leaf_occupancy"], "")
c("C34", "proved", ["C34_exact", "C34_exact_reproducible", "C34_in_every_round", "C34_terminates", "ExactCandidates.lightest"], "reads may return any earlier value of the shared bound; every assignment of components and core distances")
c("C35", "partial", ["C35_minimum_spanning_tree_partial", "C35_agrees_with_kruskal_partial", "C35_gives_result"], "missing: 32768 and more neighbours (see C56) and squared distances that overflow to infinity; the comparison is on equal distances, while the code computes them in single precision for one routine and in double precision for the other (for the leaf clusters this is settled by C120_algorithms_partial, for dbscan_clustering by C121_algorithms_partial)")
c("C36", "partial", ["C36_schedule_dependent", "C36_weights_partial"], "false: threads of one block share the bound of their component, so that with ties the tree depends on the schedule (witness with six points); weights and connectivity at every threshold are proved independent of it")
c("C39", "partial", ["C39_endpoints_partial", "C39_missing_endpoint"], "false for min_samples >= n: the tree contains the index -1 (witness); proved for min_samples < n and every schedule")
c("C40", "partial", ["C40_unit_weights_core_partial", "C40_unit_weights_differ"], "false: with sample weights true distances are used where squared ones are expected, and the count includes the sample itself (witness); proved: what the core distances are instead")
c("C60", "proved", ["C60_brute_force"], "")
c("C46","partial",["C46_refines_partial","C46_gap_collides","C46_empty_cluster"],"false when cluster-local labels have a gap or a cluster id has no samples (witnesses); proved for labels without gaps")
c("C47","partial",["C47_propagation_partial","C47_majority","C47_zero_weight"],"a weight of 0 next to a noise sample raises ZeroDivisionError (witness); proved when every weight can be inverted")
c("C48","partial",["C48_propagated_partial","C48_all_noise_collides"],"false when a cluster is all noise: it takes the last label of the cluster before (witness); proved when every cluster has a labelled sample")
c("C49","partial",["C49_branch_threshold_partial","C49_disconnected_cluster"],"clusters whose samples are not connected inside the cluster are exempt (witness); proved for labels without gaps")
c("C50","partial",["C50_never_returns","C50_detector_partial"],"false: the call lacks an argument and always raises TypeError; BranchDetector.fit passes it")
c("C31","partial",["C31_nonfinite_rows_partial","C31_returns","C31_one_finite_row"],"Whenever fit returns, labels and strengths are as claimed; fit returns when clustering at least two finite rows does. With one finite row fit raises IndexError.")
c("C32","partial",["C32_stored_trees_partial","C32_two_finite_rows","C32_two_finite_rows_witness","C31_one_finite_row"],"Proved for three or more finite rows, or two including the last row; false for two finite rows when the last row is not finite. Samples lighter than min_cluster_size.")
c("C44","partial",["C44_constraints_enforced_partial","C44_kruskal_validated","C44_knn_graph_drops_constraints","C44_nan_rows_misalign"],"Proved for precomputed graphs and euclidean data that is narrow or weighted; other metrics and wide data silently drop the constraints, and NaN rows misalign an unvalidated matrix.")
c("C45","partial",["C45_first_violation_partial","C45_nan_accepted","C45_single_row_unchecked"],"Exact characterisation with first violation in order for two or more rows and no NaN parameter; false otherwise.")
c("C51","proved",["C51_peaks"],"the loop follows scipy's local_maxima_1d; no NaN")
c("C52","proved",["C52_diverse_peaks"],"any order among equal persistences; the Jaccard index as an exact fraction")
c("C53","partial",["C53_layer_tree_partial","C53_dictionary","C53_gap"],"proved for layers whose labels have no gap, with the exact parent; false for a layer with a gap and noise samples (witness)")
c("C54","partial",["C54_simplify_partial","C54_unchanged","C54_applies","C54_undefined","C54_undefined_reachable"],"proved for trees with a split and without max_cluster_size, with an exact description of which clusters remain; false without a split: the code reads the last entry of an empty array")
c("C61","partial",["C61_split_last_partial","C61_simplified_not_last"],"proved for condensed trees without max_cluster_size; false after simplification (witness)")
c("C55", "proved", ["C55_bcubed_selection", "C55_any_arithmetic", "C55_applies"], "every condensed tree and label assignment; non-nesting for arbitrary scores and arithmetic; the function never fails on such trees")
c("C62", "proved", ["C62_bcubed_optimal"], "exact arithmetic; scores are shown to be the B-cubed F-measure and the stability")
c("C63","partial",["C63_clustering_total_partial","C63_fails_iff","C63_returned","C63_persistence_fails","C63_max_cluster_size_fails"],"C63_fails_iff: exactly when clustering raises, for all options; C63_returned: what holds whenever it returns; success proved for every method, epsilon and allow_single_cluster, with the full meaning of the labels; false with persistence > 0 and no split (IndexError) and with a max_cluster_size below the size of a leaf cluster (KeyError); both witnessed")
c("C64","proved",["C64_leaf_count","C64_fewer_clusters","C64_selection_bound"],"weights in any ordered commutative monoid; without max_cluster_size")
c("C65","proved",["C65_search_closest"],"every sample counts 1, as in the code, which ignores sample weights here; for fewer than four samples the range 2 ... n // 2 of sizes is empty or the code uses min_cluster_size 1")
c("C66","proved",["C66_barcode","C66_layers"],"exact arithmetic instead of single precision")
c("C67","proved",["C67_layer_is_leaf_clustering"],"every sample counts 1, as in the code, which ignores sample weights here")
c("C68","proved",["C68_total_persistence","C68_positive"],"exact arithmetic instead of single precision")
c("C69","partial",["C69_layers","C69_layers_by_count_partial","C69_zero_layers","C69_gap"],"from the linkage tree on; proved in full for base_min_cluster_size; for base_n_clusters when every label up to the largest is used at least twice: with an unused label the tree is condensed with min_cluster_size 1 (C69_gap), without infinite edges there is none (C84_by_count_partial); max_layers = 0 raises when there is a peak (C69_zero_layers)")
c("C70","proved",["C70_core_graph","C70_apply_lens","C70_edge_list"],"lens values and distances from linear orders instead of floats; the sort is any rearrangement by weight")
c("C71","partial",["C71_lens_forest_partial","C71_symmetric_minimum","C71_not_minimal","C71_self_neighbour","C71_empty_row"],"a spanning forest with the right components if no point is its own neighbour and no row is empty; minimum if every edge is stored both ways, refuted otherwise (C71_not_minimal: four points in the plane); refuted for self-neighbours and for empty rows")
c("C72","partial",["C72_components","C72_connected_partial","C72_connected_returned"],"under the hypotheses of C71; the connected case succeeds without max_cluster_size and with persistence at most 0, and has its meaning with any options whenever it returns")
c("C73","partial",["C73_neighbours_partial","C73_tree","C73_spanning","C73_connected","C73_missing_neighbour"],"a missing neighbour (index -1) is taken for the last sample of the data set (C73_missing_neighbour); everything else in full")
c("C74","partial",["C74_clusters_connected_partial","C74_tree_inside_partial","C74_top_cluster_apart"],"whenever clustering returns, with any options, for trees without infinite edges or without a positive persistence; refuted when the top cluster is selected alone with an epsilon (C74_top_cluster_apart)")
c("C75","partial",["C75_cluster_weight_partial","C75_cluster_count_partial","C75_used_labels_partial","C75_top_cluster_unused","C75_infinite_edges"],"whenever clustering returns, with any options: proved for trees without infinite edges when the top cluster is not selected; otherwise every label in use weighs enough (no persistence), but a selected cluster may be given to no sample (C75_top_cluster_unused, C75_infinite_edges)")
c("C76","proved",["C76_first_violation"],"_check_sample_weight is not modelled")
c("C77","partial",["C77_recover_partial","C77_recover_fit_partial","C77_remap","C77_infinite_distance"],"proved when all lambdas of the finite rows' tree are positive; refuted for infinite distances between finite rows (C77_infinite_distance)")
c("C78","partial",["C78_sub_clusters_partial","C78_all_rows_partial","C78_single_sample","C78_unused_label","C78_no_cluster"],"succeeds without max_cluster_size and persistence, and holds with any options whenever it returns; without propagation, for finite lens values and arrays as in SubInput; raises for given labels with a cluster of one sample, an unused number, or only on rows with NaN (C78_single_sample, C78_unused_label, C78_no_cluster)")
c("C79","proved",["C79_knn_kruskal","C79_knn_pairwise","C79_knn_groups","C79_knn_weights","C79_nndescent","C79_refused"],"for neighbour lists whose indices are in range; NNDescent itself is not modelled: the theorem is for whatever rows it returns")
c("C80","proved",["C80_knn_clusters","C80_all_neighbours","C80_small_k","C80_own_neighbour"],"for rounding as in Arith.Lawful, at most 32767 neighbours; the converse and C80_all_neighbours assume that samples at distance 0 have equal coordinates; C80_small_k shows that the assumption on neighbours is needed, C80_own_neighbour that the returned neighbours may contain the sample itself")
c("C81","partial",["C81_core_distance_partial","C81_too_small","C81_no_neighbours"],"never too large; exact if k * (smallest weight) >= min_samples; too small otherwise (C81_too_small), and undefined when the mean weight exceeds 2 * min_samples (C81_no_neighbours)")
c("C82","proved",["C82_after_missing_values","C82_not_fitted","C82_min_samples_one"],"with min_samples=1 rows of NaN are clusters of their own (C82_min_samples_one)")
c("C83","partial",["C83_core_samples_partial","C83_kruskal","C83_not_dbscan_star"],"core samples joined to fewer than min_samples core samples (themselves included) are noise, so it is DBSCAN* only if there are none (C83_not_dbscan_star); everything else holds")
c("C84","partial",["C84_fit","C84_arguments","C84_input","C84_code_functions","C84_size_one","C84_by_count_partial"],"base_min_cluster_size=1 is accepted but loses samples (C84_size_one); from 2 on it holds; with base_n_clusters for spanning trees without infinite edges (C84_by_count_partial), otherwise see C69")
c("C85","partial",["C85_scale_partial","C85_equal_core_distances"],"false when all finite core distances are equal (C85_equal_core_distances); proved otherwise")
c("C86","partial",["C86_layer_tree_partial","C86_by_count_partial","C86_infinite_edges"],"false for spanning trees with infinite edges (C86_infinite_edges); proved without them for either base layer")
c("C87","partial",["C87_branches_partial","C87_propagation_partial","C87_centre_collides","C87_propagated_collides"],"false if a sample has infinite centrality (C87_centre_collides), and for the labels of SubClusterDetector with propagation if a cluster does not split (C87_propagated_collides); proved for lens values with positive lambda (success without persistence and max_cluster_size, labels with any options whenever the fit succeeds)")
c("C88","proved",["C88_propagated_labels","C88_same_labels","C88_idempotent","C88_branches"],"equality of results including errors, for all inputs of the model")
c("C89","proved",["C89_approximation_graph"],"for every successful fit; edges of the spanning tree and neighbour lists as in C78 (every sample linked to another of its cluster)")
c("C90","partial",["C90_centrality","C90_order","C90_rigid","C90_scale","C90_branches_partial","C87_centre_collides"],"all but the last sentence proved in full; success proved without persistence and max_cluster_size, labels with any options whenever the fit succeeds; false if a sample lies in the centre of its cluster (C87_centre_collides)")
c("C91","partial",["C91_any_tree_partial","C91_algorithms_partial","C91_plscan_partial","C91_leaf_ties_partial","C91_leaf_algorithms_partial","C91_ties"],"proved if the edges of the spanning tree have pairwise different lengths; false otherwise (C91_ties); for the leaf method also with ties that do not join two heavy parts; C91_algorithms_partial under the conditions of C35")
c("C92","partial",["C92_renamed_partial","C92_kruskal_partial","C92_boruvka_partial","C92_leaf_ties_partial","C92_leaf_rows_partial","C92_ties","C92_general_position"],"proved if the edges of the spanning tree have pairwise different lengths; false otherwise (C92_ties), also for data with pairwise different distances (C92_general_position); for the leaf method also with ties that do not join two heavy parts; C92_boruvka_partial under the conditions of C35")
c("C93","partial",["C93_scaled","C93_kruskal","C93_dbscan","C93_dbscan_kruskal","C93_boruvka_partial","C93_leaf_order","C93_conditions"],"proved for every spanning tree and for algorithm='kruskal'; for algorithm='boruvka' if the edges of the spanning tree have pairwise different lengths and under the conditions of C35")
c("C94","partial",["C94_inside_not_longer","C94_cluster_is_dbscan_star_partial","C94_dbscan_clustering_partial","C94_ties"],"proved, with any options, if no tree edge inside the cluster is as long as one leaving it, the top cluster is not selected, and there are no infinite edges together with a positive persistence; the minimum size of dbscan_clustering (min_samples if given) must not exceed min_cluster_size; refuted with ties (C94_ties)")
c("C95","partial",["C95_leaf_refines_eom_partial","C95_epsilon"],"proved without cluster_selection_epsilon, under the hypotheses of C63 (the top cluster selected alone only without positive persistence); refuted with an epsilon and allow_single_cluster (C95_epsilon)")
c("C96","partial",["C96_top_cluster_partial","C96_no_epsilon","C96_only_below_epsilon","C96_epsilon"],"proved without cluster_selection_epsilon; with an epsilon the exact condition is proved (necessary with any options: C96_only_below_epsilon), and the claim is refuted (C96_epsilon): allow_single_cluster=False is ignored")
c("C97","partial",["C97_fit_any_tree_partial","C97_fit_kruskal_partial","C97_fit_boruvka_partial","C97_fit_options_partial","C97_fit_weights_partial"],"default selection options, at least two finite rows; Boruvka under the conditions of C35; with other options (C97_fit_options_partial) and sample weights (C97_fit_weights_partial) whenever fit returns, unless the whole data set is selected or there are infinite edges and a positive persistence")
c("C98","partial",["C98_stored_tree_partial","C98_missing_row_first"],"Kruskal; true if no row with missing values comes before a finite row, in general only after renumbering; refuted with NaN in the first row (C98_missing_row_first)")
c("C99","partial",["C99_neighbours_partial","C99_own_neighbour"],"number, distances and order of the neighbours in full; nearest other samples if the sample has no duplicate; with a duplicate row a sample can be its own neighbour (C99_own_neighbour)")
c("C100","partial",["C100_check","C100_fit_partial","C100_negative","C100_scalar_nan"],"exact characterisation; negative weights are accepted (C100_negative); where weights are checked once only, the number NaN is accepted (C100_scalar_nan)")
c("C101","partial",["C101_labels_partial","C101_precomputed_partial","C101_below","C101_missing_row"],"exact characterisation; the check accepts labels below -1 and labels of rows with missing values, which are not used (C101_below, C101_missing_row)")
c("C102","partial",["C102_fails_iff","C102_returned","C102_total_partial","C102_not_all","C102_clusters_partial","C102_used_labels_partial","C102_fit_partial","C102_fit_kruskal_partial","C102_stored_trees_partial","C102_weights_fail"],"exactly when it fails, and everything that holds when it returns, for all options; it always returns with weights of at most 1 and no persistence; with weights above 1 it can raise KeyError (C102_weights_fail); connectedness needs finite edges (C30)")
c("C103","partial",["C103_kruskal_partial","C103_kruskal_ss_partial","C103_apart_partial","C103_same_label_partial","C103_core_distances","C103_other_tree"],"proved for brute force Kruskal with min_samples at most 1, all options and weights; false with larger min_samples (C103_core_distances) and for other minimum spanning trees (C103_other_tree), where copies can only be separated if the cluster of one of them consists of copies (C103_same_label_partial)")
c("C104","partial",["C104_returned_partial","C104_clusters_partial","C104_returns","C104_exact","C104_fit_partial","C104_fit_returns","C104_duplicates_partial","C104_fastmath_decides"],"lambdas in WithTop, operations on scores unspecified; C104_exact ties this model to the other one; missing: positive persistence, infinite edges; what the arithmetic does can change the labels (C104_fastmath_decides)")
c("C105","partial",["C105_layers_partial","C105_kruskal_partial","C105_by_count_partial","C105_kruskal_by_count_partial"],"proved for spanning trees without infinite edges, for base_min_cluster_size and base_n_clusters; missing: infinite edges, where labels can be unused (C86_infinite_edges) and with base_n_clusters a layer has clusters of one sample (C107_by_count_infinite_edges)")
c("C106","partial",["C106_groups_partial","C106_exact_partial","C106_fit_partial","C106_fit_kruskal_partial","C106_found_partial","C106_fit_found_partial","C106_epsilon","C106_persistence","C106_max_cluster_size","C106_single_cluster"],"false with cluster_selection_epsilon, a positive persistence or max_cluster_size (witnesses); without them no group is missed, also with allow_single_cluster (C106_found_partial, C106_fit_found_partial), where there may be one cluster only (C106_single_cluster)")
c("C107","partial",["C107_nested_partial","C107_by_count_partial","C107_infinite_edges","C107_by_count_infinite_edges"],"false for spanning trees with infinite edges (C107_infinite_edges, C107_by_count_infinite_edges); proved without them for base_min_cluster_size and base_n_clusters")
c("C108","partial",["C108_leaf_partial","C108_eom"],"proved for the leaf method; false for excess of mass (C108_eom); missing: cluster_selection_epsilon and positive persistence")
c("C109","partial",["C109_same_tree","C109_boruvka_partial","C109_zeros_not_stored"],"full for algorithm='kruskal'; for 'boruvka', needs distinct tree weights and a rounding that keeps distances apart; zeros must be stored explicitly (C109_zeros_not_stored)")
c("C110","partial",["C110_far_sample_partial","C110_min_tree","C110_kruskal_partial","C110_single_cluster"],"without persistence_threshold; min_cluster_size is at most the total weight of the other samples; from the data, for algorithm='kruskal' with distinct tree weights; false for allow_single_cluster with excess of mass (C110_single_cluster)")
c("C111","partial",["C111_sub_clusters_partial","C111_kruskal_partial","C111_given_labels_partial","C111_empty_row"],"every clustered row needs a stored neighbour in its cluster or a tree edge stored from it into its cluster, which C111_kruskal_partial derives for algorithm='kruskal', min_samples at most 1 and data without ties, and which fails in general (C111_empty_row); the clusterer has no persistence_threshold; without propagate_labels")
c("C112","partial",["C112_not_divided_partial","C112_fit_partial","C112_whole_data_set","C112_cluster_lost"],"proved in full for cluster_selection_epsilon > 0 in the first run, for the leaf method, and without allow_single_cluster; otherwise the other row is in that cluster or noise, and noise is possible (C112_whole_data_set). A cluster can become noise as a whole (C112_cluster_lost)")
c("C113","partial",["C113_not_divided_partial","C113_fit_partial","C113_eom"],"proved for the leaf method without cluster_selection_epsilon and infinite edges; false for excess of mass (C113_eom)")
c("C114","partial",["C114_apart_partial","C114_fit_partial","C114_fit_kruskal_partial","C114_persistence","C114_persistence_infinite"],"proved if there is no positive persistence, or no infinite edges and two labels used; false with persistence for a single cluster (C114_persistence) and with infinite edges (C114_persistence_infinite)")
c("C115","partial",["C115_leaf_exact_partial","C115_leaf_sets_partial","C115_leaf_groups_partial"],"an exact description in both directions, with infinite edges in C115_leaf_exact_partial; missing: cluster_selection_epsilon, cluster_selection_persistence, rows that alone weigh min_cluster_size; the description by distances needs that no edge that joins two heavy parts has the weight of another edge")
c("C116","partial",["C116_local_partial","C116_share_partial","C116_eom"],"proved for the leaf method without epsilon and persistence, for finite distances and trees in which no edge that joins two heavy parts has the length of another edge; false for the excess of mass method (C116_eom)")
c("C117","partial",["C117_copies_partial","C117_heavy_row","C117_eom"],"proved for the leaf method without epsilon and persistence, for given mutual reachability distances, finite edges, rows lighter than min_cluster_size, and trees in which no edge that joins two heavy parts has the length of another edge; false for a row that alone weighs min_cluster_size (C117_heavy_row) and for the excess of mass method (C117_eom)")
c("C118","partial",["C118_dbscan","C118_dbscan_tree","C118_number_partial","C118_number_persistence_partial","C118_fit_partial","C118_plscan_partial"],"proved for every method, epsilon and limit without persistence, for the layers of PLSCAN, with persistence if the top cluster is not selected and no edge is infinite, for fit with the exact Kruskal routine, and for dbscan_clustering with any spanning tree and any weights; rows have to be lighter than min_cluster_size")
c("C119","partial",["C119_noise_removed_partial","C119_noise_removed_data_partial","C119_eom"],"proved for the leaf method without epsilon and persistence, finite edges, and joins of heavy parts at different lengths, for distances that do not change with the rows (min_samples at most 1, or mutual reachability distances given); false for the excess of mass method (C119_eom)")
c("C120","partial",["C120_errors_partial","C120_errors_data_partial","C120_algorithms_partial","C120_eom"],"proved for the leaf method without epsilon and persistence and for finite distances, with any minimum spanning trees of both data sets, and from the distances for the brute force Kruskal routine with min_samples below the number of rows; also for Kruskal in double precision against any run of Boruvka in single precision; rows have to be lighter than min_cluster_size; false for the excess of mass method (C120_eom)")
c("C121","proved",["C121_cut","C121_kruskal","C121_algorithms_partial","C121_near"],"for any minimum spanning trees of both data sets (C121_cut) and from the distances for the brute force Kruskal routine (C121_kruskal); C121_algorithms_partial compares Kruskal with Boruvka under the conditions of C35; C121_near shows that the gap around eps is needed")
c("C122","proved",["C122_cut","C122_kruskal","C122_fit_row","C122_fit_min_samples"],"for any minimum spanning trees of the mutual reachability distances (C122_cut) and from the distances for the brute force Kruskal routine (C122_kruskal); the labels of fit do not have this property (C122_fit_row, C122_fit_min_samples)")
c("C123","partial",["C123_cut","C123_kruskal_partial","C123_core_distances"],"proved for given mutual reachability distances and any minimum spanning trees, and from the distances for the brute force Kruskal routine with min_samples at most 1; false with larger min_samples, where noise can make other rows core samples (C123_core_distances)")
c("C124","proved",["C124_cut","C124_kruskal","C124_algorithms_partial"],"for any minimum spanning trees of the mutual reachability distances (C124_cut) and for brute force Kruskal (C124_kruskal); C124_algorithms_partial compares it with any run of Boruvka under the conditions of C35")
c("C125","proved",["C125_cut","C125_kruskal","C125_size_one"],"dbscan_clustering passes min_samples (or min_cluster_size, then used for both) as the minimum size, so it is at least 2 or min_samples is at most 1; for other combinations, possible only by calling the cut routine directly, it is false (C125_size_one)")
c("C126","proved",["C126_cut","C126_kruskal"],"for any minimum spanning trees of the mutual reachability distances (C126_cut) and from the distances for brute force Kruskal (C126_kruskal), with any min_samples and any ties")
c("C127","partial",["C127_ignored","C127_copies"],"false: the weights are ignored, for every spanning tree (C127_ignored), so that clusters of fit can be noise (C127_copies)")
c("C57", "partial", ["C57_single_cluster_partial", "C57_no_split_no_cluster"], "false when the data never split: then nothing is selected; proved when there is a split")
