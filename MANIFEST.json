{
 "claims": [
  {
   "property": "C01",
   "status": "proved",
   "theorems": [
    "Verif.C01_kruskal_spanning_forest"
   ],
   "note": "every in-range edge list; labels equal iff connected"
  },
  {
   "property": "C02",
   "status": "proved",
   "theorems": [
    "Verif.C02_kruskal_minimum",
    "Verif.C02_kruskal_total_weight"
   ],
   "note": "any linear order of weights; sums for ordered additive monoids"
  },
  {
   "property": "C03",
   "status": "proved",
   "theorems": [
    "Verif.C03_pairwise_never_connected",
    "Verif.C03_groups_never_connected",
    "Verif.C03_asymmetric_not_enforced"
   ],
   "note": "symmetry is needed: the last theorem shows a one-sided entry is not enforced without validation"
  },
  {
   "property": "C04",
   "status": "proved",
   "theorems": [
    "Verif.C04_pairwise_greedy",
    "Verif.C04_groups_greedy"
   ],
   "note": ""
  },
  {
   "property": "C05",
   "status": "proved",
   "theorems": [
    "Verif.C05_groups_eq_pairwise"
   ],
   "note": "64-bit words modelled as BitVec 64, any number of words"
  },
  {
   "property": "C06",
   "status": "proved",
   "theorems": [
    "Verif.C06_diagonal_constraints",
    "Verif.C06_no_groups"
   ],
   "note": ""
  },
  {
   "property": "C07",
   "status": "partial",
   "theorems": [
    "Verif.C07_every_entry_enforced_partial",
    "Verif.C07_cancelling_entries_not_enforced",
    "Verif.C07_overflowing_entries_not_enforced"
   ],
   "note": "false as stated: symmetrisation by addition drops cancelling or overflowing entries (two witnesses); proved when the entry and its transpose do not sum to zero"
  },
  {
   "property": "C08",
   "status": "proved",
   "theorems": [
    "Verif.C08_bridging",
    "Verif.C08_unbridging",
    "Verif.C08_finish_spanning_tree"
   ],
   "note": ""
  },
  {
   "property": "C09",
   "status": "partial",
   "theorems": [
    "Verif.C09_numbering_by_smallest_false",
    "Verif.C09_numbering_partial"
   ],
   "note": "false as stated (witness); proved: dense numbering in the order of a representative of each component"
  },
  {
   "property": "C10",
   "status": "proved",
   "theorems": [
    "Verif.C10_rank_closure",
    "Verif.C10_size_closure"
   ],
   "note": ""
  },
  {
   "property": "C11",
   "status": "proved",
   "theorems": [
    "Verif.C11_find_depth",
    "Verif.C11_concurrent_finds",
    "Verif.C11_concurrent_finds_finish"
   ],
   "note": "interleaving semantics with one step per array read or write"
  },
  {
   "property": "C12",
   "status": "proved",
   "theorems": [
    "Verif.C12_linkage_is_dendrogram",
    "Verif.C12_below_connected"
   ],
   "note": "any additive sample weights; unweighted is the constant weight one"
  },
  {
   "property": "C13",
   "status": "proved",
   "theorems": [
    "Verif.C13_sorted_tree_order_independent",
    "Verif.C13_order_independent"
   ],
   "note": "ties included; through the whole clustering pipeline without semi-supervised selection"
  },
  {
   "property": "C14",
   "status": "proved",
   "theorems": [
    "Verif.C14_cut_is_dbscan_star",
    "Verif.C14_kruskal_dbscan_star"
   ],
   "note": "for any minimum spanning forest of the graph completed by +inf edges, and end to end through the Kruskal entry point; about get_cluster_labelling_at_cut, to which HDBSCAN.dbscan_clustering passes the stored linkage tree; that wrapper is not modelled"
  },
  {
   "property": "C15",
   "status": "proved",
   "theorems": [
    "Verif.C15_cut_labels_dense",
    "Verif.C15_cut_monotone"
   ],
   "note": "any linkage table whose rows refer to earlier nodes"
  },
  {
   "property": "C16",
   "status": "partial",
   "theorems": [
    "Verif.C16_no_sample_twice",
    "Verif.C16_sample_exactly_once_partial",
    "Verif.C16_heavy_sample_lost"
   ],
   "note": "never listed twice for all inputs; exactly once when every sample is lighter than min_cluster_size; false otherwise (witness min_cluster_size=1)"
  },
  {
   "property": "C17",
   "status": "proved",
   "theorems": [
    "Verif.C17_condensed_clusters_real",
    "Verif.C17_cluster_is_component",
    "Verif.C17_cluster_separated"
   ],
   "note": "samples lighter than min_cluster_size (unit weights: min_cluster_size >= 2); clusters related back to the spanning tree and to the graph"
  },
  {
   "property": "C18",
   "status": "proved",
   "theorems": [
    "Verif.C18_lambda_monotone",
    "Verif.C18_hdbscan_plscan_lambda"
   ],
   "note": "no assumption on weights or size limits; exact arithmetic"
  },
  {
   "property": "C19",
   "status": "proved",
   "theorems": [
    "Verif.C19_buffers_suffice"
   ],
   "note": "no assumption on weights or size limits; bound attained by an example"
  },
  {
   "property": "C20",
   "status": "proved",
   "theorems": [
    "Verif.C20_leaf_selection",
    "Verif.C20_extract_leaves"
   ],
   "note": "both leaf extraction functions"
  },
  {
   "property": "C21",
   "status": "proved",
   "theorems": [
    "Verif.C21_eom_not_nested"
   ],
   "note": "arbitrary score arithmetic, so NaN and infinities included"
  },
  {
   "property": "C22",
   "status": "partial",
   "theorems": [
    "Verif.C22_scores_are_stabilities",
    "Verif.C22_eom_optimal_partial",
    "Verif.C57_no_split_no_cluster"
   ],
   "note": "exact arithmetic; proved for trees with at least one split; false without a split and with allow_single_cluster, where the top cluster is permitted and nothing is selected (last theorem)"
  },
  {
   "property": "C23",
   "status": "partial",
   "theorems": [
    "Verif.C23_max_cluster_size_partial",
    "Verif.C23_root_off_by_one",
    "Verif.C23_semi_supervised_ignores_max"
   ],
   "note": "false for the top cluster, whose recorded size is n-1 (witness), and in semi-supervised mode, where the limit is not passed on (witness); proved for all other clusters of the ordinary mode"
  },
  {
   "property": "C24",
   "status": "proved",
   "theorems": [
    "Verif.C24_root_not_selected",
    "Verif.C24_leaves_covered",
    "Verif.C24_leaves_covered_max"
   ],
   "note": ""
  },
  {
   "property": "C25",
   "status": "partial",
   "theorems": [
    "Verif.C25_epsilon_merges_partial",
    "Verif.C25_epsilon_drops_cluster"
   ],
   "note": "false as stated: segments_in_branch runs on from a leaf to the next larger splitting cluster, so clusters elsewhere are dropped (witness); proved: no nesting, minimal merging, and coverage under an explicit condition on the id layout"
  },
  {
   "property": "C26",
   "status": "partial",
   "theorems": [
    "Verif.C26_label_is_selected_ancestor_partial",
    "Verif.C26_top_cluster",
    "Verif.C26_key_error",
    "Verif.C26_max_cluster_size_crash"
   ],
   "note": "the labelling fails with KeyError when exactly one cluster other than the top one is selected and a sample outside it leaves last; reachable with max_cluster_size (witness); proved otherwise"
  },
  {
   "property": "C27",
   "status": "partial",
   "theorems": [
    "Verif.C27_labels_dense_partial",
    "Verif.C27_labels_dense_connected_partial",
    "Verif.C27_label_gap"
   ],
   "note": "false for disconnected inputs (witness: selected cluster all of whose samples leave at lambda 0); proved when each selected cluster has a sample leaving at positive lambda"
  },
  {
   "property": "C28",
   "status": "proved",
   "theorems": [
    "Verif.C28_strengths"
   ],
   "note": "exact arithmetic, infinite lambdas included; any labelling into the selected clusters"
  },
  {
   "property": "C29",
   "status": "partial",
   "theorems": [
    "Verif.C29_pairwise_never_share_partial",
    "Verif.C29_groups_never_share_partial",
    "Verif.C29_persistence_joins_pair",
    "Verif.C29_semi_supervised_joins_pair"
   ],
   "note": "false with persistence_threshold > 0 (witness) and in semi-supervised mode (witness); proved without it for both constraint encodings"
  },
  {
   "property": "C30",
   "status": "partial",
   "theorems": [
    "Verif.C30_disconnected_never_share_partial",
    "Verif.C30_persistence_joins_components",
    "Verif.C30_weighted_root_joins_components",
    "Verif.C30_semi_supervised_joins_components"
   ],
   "note": "false with persistence_threshold > 0, in semi-supervised mode, and with sample weights, max_cluster_size and allow_single_cluster together (witnesses); proved otherwise"
  },
  {
   "property": "C33",
   "status": "partial",
   "theorems": [
    "Verif.C33_any_order",
    "Verif.C33_core_graph_boruvka_partial",
    "Verif.C33_empty_row_wrong"
   ],
   "note": "any order and any ties proved for the process; the code is proved to follow it when empty rows come last; with an empty row elsewhere it reads the next row (witness)"
  },
  {
   "property": "C41",
   "status": "proved",
   "theorems": [
    "Verif.C41_symmetrize",
    "Verif.C41_validation"
   ],
   "note": ""
  },
  {
   "property": "C42",
   "status": "proved",
   "theorems": [
    "Verif.C42_core_distance",
    "Verif.C42_neighbours"
   ],
   "note": ""
  },
  {
   "property": "C43",
   "status": "partial",
   "theorems": [
    "Verif.C43_kruskal",
    "Verif.C43_boruvka_partial",
    "Verif.C43_equal_weights_partial",
    "Verif.C43_equal_weights_exact_partial",
    "Verif.C43_isolated_sample_wrong",
    "Verif.C43_rounding_not_minimal"
   ],
   "note": "Kruskal routine proved for all graphs; Boruvka routine false with an isolated sample that is not last, and not minimal after rounding to single precision (witnesses); proved otherwise up to rounding"
  },
  {
   "property": "C37",
   "status": "partial",
   "theorems": [
    "Verif.C37_knn_partial",
    "Verif.C56_push_hangs"
   ],
   "note": "proved for at most 32768 neighbours, for exact arithmetic and for any monotone rounding (roundedArith_lawful); beyond that the 16-bit heap push can loop for ever (witness)"
  },
  {
   "property": "C38",
   "status": "proved",
   "theorems": [
    "Verif.C38_build",
    "Verif.C38_rejects"
   ],
   "note": "also: boxes tight, halves separated along an axis"
  },
  {
   "property": "C56",
   "status": "partial",
   "theorems": [
    "Verif.C56_heap_partial",
    "Verif.C56_push_hangs"
   ],
   "note": "proved for at most 32768 entries; with 32769 the loop variables wrap around and the push never returns (witness)"
  },
  {
   "property": "C58",
   "status": "proved",
   "theorems": [
    "Verif.C58_introselect"
   ],
   "note": ""
  },
  {
   "property": "C59",
   "status": "proved",
   "theorems": [
    "Verif.C59_leaf_occupancy"
   ],
   "note": ""
  },
  {
   "property": "C34",
   "status": "proved",
   "theorems": [
    "Verif.C34_exact",
    "Verif.C34_exact_reproducible",
    "Verif.C34_in_every_round",
    "Verif.C34_terminates",
    "Verif.ExactCandidates.lightest"
   ],
   "note": "reads may return any earlier value of the shared bound; every assignment of components and core distances"
  },
  {
   "property": "C35",
   "status": "partial",
   "theorems": [
    "Verif.C35_minimum_spanning_tree_partial",
    "Verif.C35_agrees_with_kruskal_partial",
    "Verif.C35_gives_result"
   ],
   "note": "missing: 32768 and more neighbours (see C56) and squared distances that overflow to infinity; the comparison is on equal distances, while the code computes them in single precision for one routine and in double precision for the other (for the leaf clusters this is settled by C120_algorithms_partial, for dbscan_clustering by C121_algorithms_partial)"
  },
  {
   "property": "C36",
   "status": "partial",
   "theorems": [
    "Verif.C36_schedule_dependent",
    "Verif.C36_weights_partial"
   ],
   "note": "false: threads of one block share the bound of their component, so that with ties the tree depends on the schedule (witness with six points); weights and connectivity at every threshold are proved independent of it"
  },
  {
   "property": "C39",
   "status": "partial",
   "theorems": [
    "Verif.C39_endpoints_partial",
    "Verif.C39_missing_endpoint"
   ],
   "note": "false for min_samples >= n: the tree contains the index -1 (witness); proved for min_samples < n and every schedule"
  },
  {
   "property": "C40",
   "status": "partial",
   "theorems": [
    "Verif.C40_unit_weights_core_partial",
    "Verif.C40_unit_weights_differ"
   ],
   "note": "false: with sample weights true distances are used where squared ones are expected, and the count includes the sample itself (witness); proved: what the core distances are instead"
  },
  {
   "property": "C60",
   "status": "proved",
   "theorems": [
    "Verif.C60_brute_force"
   ],
   "note": ""
  },
  {
   "property": "C46",
   "status": "partial",
   "theorems": [
    "Verif.C46_refines_partial",
    "Verif.C46_gap_collides",
    "Verif.C46_empty_cluster"
   ],
   "note": "false when cluster-local labels have a gap or a cluster id has no samples (witnesses); proved for labels without gaps"
  },
  {
   "property": "C47",
   "status": "partial",
   "theorems": [
    "Verif.C47_propagation_partial",
    "Verif.C47_majority",
    "Verif.C47_zero_weight"
   ],
   "note": "a weight of 0 next to a noise sample raises ZeroDivisionError (witness); proved when every weight can be inverted"
  },
  {
   "property": "C48",
   "status": "partial",
   "theorems": [
    "Verif.C48_propagated_partial",
    "Verif.C48_all_noise_collides"
   ],
   "note": "false when a cluster is all noise: it takes the last label of the cluster before (witness); proved when every cluster has a labelled sample"
  },
  {
   "property": "C49",
   "status": "partial",
   "theorems": [
    "Verif.C49_branch_threshold_partial",
    "Verif.C49_disconnected_cluster"
   ],
   "note": "clusters whose samples are not connected inside the cluster are exempt (witness); proved for labels without gaps"
  },
  {
   "property": "C50",
   "status": "partial",
   "theorems": [
    "Verif.C50_never_returns",
    "Verif.C50_detector_partial"
   ],
   "note": "false: the call lacks an argument and always raises TypeError; BranchDetector.fit passes it"
  },
  {
   "property": "C31",
   "status": "partial",
   "theorems": [
    "Verif.C31_nonfinite_rows_partial",
    "Verif.C31_returns",
    "Verif.C31_one_finite_row"
   ],
   "note": "Whenever fit returns, labels and strengths are as claimed; fit returns when clustering at least two finite rows does. With one finite row fit raises IndexError."
  },
  {
   "property": "C32",
   "status": "partial",
   "theorems": [
    "Verif.C32_stored_trees_partial",
    "Verif.C32_two_finite_rows",
    "Verif.C32_two_finite_rows_witness",
    "Verif.C31_one_finite_row"
   ],
   "note": "Proved for three or more finite rows, or two including the last row; false for two finite rows when the last row is not finite. Samples lighter than min_cluster_size."
  },
  {
   "property": "C44",
   "status": "partial",
   "theorems": [
    "Verif.C44_constraints_enforced_partial",
    "Verif.C44_kruskal_validated",
    "Verif.C44_knn_graph_drops_constraints",
    "Verif.C44_nan_rows_misalign"
   ],
   "note": "Proved for precomputed graphs and euclidean data that is narrow or weighted; other metrics and wide data silently drop the constraints, and NaN rows misalign an unvalidated matrix."
  },
  {
   "property": "C45",
   "status": "partial",
   "theorems": [
    "Verif.C45_first_violation_partial",
    "Verif.C45_nan_accepted",
    "Verif.C45_single_row_unchecked"
   ],
   "note": "Exact characterisation with first violation in order for two or more rows and no NaN parameter; false otherwise."
  },
  {
   "property": "C51",
   "status": "proved",
   "theorems": [
    "Verif.C51_peaks"
   ],
   "note": "the loop follows scipy's local_maxima_1d; no NaN"
  },
  {
   "property": "C52",
   "status": "proved",
   "theorems": [
    "Verif.C52_diverse_peaks"
   ],
   "note": "any order among equal persistences; the Jaccard index as an exact fraction"
  },
  {
   "property": "C53",
   "status": "partial",
   "theorems": [
    "Verif.C53_layer_tree_partial",
    "Verif.C53_dictionary",
    "Verif.C53_gap"
   ],
   "note": "proved for layers whose labels have no gap, with the exact parent; false for a layer with a gap and noise samples (witness)"
  },
  {
   "property": "C54",
   "status": "partial",
   "theorems": [
    "Verif.C54_simplify_partial",
    "Verif.C54_unchanged",
    "Verif.C54_applies",
    "Verif.C54_undefined",
    "Verif.C54_undefined_reachable"
   ],
   "note": "proved for trees with a split and without max_cluster_size, with an exact description of which clusters remain; false without a split: the code reads the last entry of an empty array"
  },
  {
   "property": "C61",
   "status": "partial",
   "theorems": [
    "Verif.C61_split_last_partial",
    "Verif.C61_simplified_not_last"
   ],
   "note": "proved for condensed trees without max_cluster_size; false after simplification (witness)"
  },
  {
   "property": "C55",
   "status": "proved",
   "theorems": [
    "Verif.C55_bcubed_selection",
    "Verif.C55_any_arithmetic",
    "Verif.C55_applies"
   ],
   "note": "every condensed tree and label assignment; non-nesting for arbitrary scores and arithmetic; the function never fails on such trees"
  },
  {
   "property": "C62",
   "status": "proved",
   "theorems": [
    "Verif.C62_bcubed_optimal"
   ],
   "note": "exact arithmetic; scores are shown to be the B-cubed F-measure and the stability"
  },
  {
   "property": "C63",
   "status": "partial",
   "theorems": [
    "Verif.C63_clustering_total_partial",
    "Verif.C63_fails_iff",
    "Verif.C63_returned",
    "Verif.C63_persistence_fails",
    "Verif.C63_max_cluster_size_fails"
   ],
   "note": "C63_fails_iff: exactly when clustering raises, for all options; C63_returned: what holds whenever it returns; success proved for every method, epsilon and allow_single_cluster, with the full meaning of the labels; false with persistence > 0 and no split (IndexError) and with a max_cluster_size below the size of a leaf cluster (KeyError); both witnessed"
  },
  {
   "property": "C64",
   "status": "proved",
   "theorems": [
    "Verif.C64_leaf_count",
    "Verif.C64_fewer_clusters",
    "Verif.C64_selection_bound"
   ],
   "note": "weights in any ordered commutative monoid; without max_cluster_size"
  },
  {
   "property": "C65",
   "status": "proved",
   "theorems": [
    "Verif.C65_search_closest"
   ],
   "note": "every sample counts 1, as in the code, which ignores sample weights here; for fewer than four samples the range 2 ... n // 2 of sizes is empty or the code uses min_cluster_size 1"
  },
  {
   "property": "C66",
   "status": "proved",
   "theorems": [
    "Verif.C66_barcode",
    "Verif.C66_layers"
   ],
   "note": "exact arithmetic instead of single precision"
  },
  {
   "property": "C67",
   "status": "proved",
   "theorems": [
    "Verif.C67_layer_is_leaf_clustering"
   ],
   "note": "every sample counts 1, as in the code, which ignores sample weights here"
  },
  {
   "property": "C68",
   "status": "proved",
   "theorems": [
    "Verif.C68_total_persistence",
    "Verif.C68_positive"
   ],
   "note": "exact arithmetic instead of single precision"
  },
  {
   "property": "C69",
   "status": "partial",
   "theorems": [
    "Verif.C69_layers",
    "Verif.C69_layers_by_count_partial",
    "Verif.C69_zero_layers",
    "Verif.C69_gap"
   ],
   "note": "from the linkage tree on; proved in full for base_min_cluster_size; for base_n_clusters when every label up to the largest is used at least twice: with an unused label the tree is condensed with min_cluster_size 1 (C69_gap), without infinite edges there is none (C84_by_count_partial); max_layers = 0 raises when there is a peak (C69_zero_layers)"
  },
  {
   "property": "C70",
   "status": "proved",
   "theorems": [
    "Verif.C70_core_graph",
    "Verif.C70_apply_lens",
    "Verif.C70_edge_list"
   ],
   "note": "lens values and distances from linear orders instead of floats; the sort is any rearrangement by weight"
  },
  {
   "property": "C71",
   "status": "partial",
   "theorems": [
    "Verif.C71_lens_forest_partial",
    "Verif.C71_symmetric_minimum",
    "Verif.C71_not_minimal",
    "Verif.C71_self_neighbour",
    "Verif.C71_empty_row"
   ],
   "note": "a spanning forest with the right components if no point is its own neighbour and no row is empty; minimum if every edge is stored both ways, refuted otherwise (C71_not_minimal: four points in the plane); refuted for self-neighbours and for empty rows"
  },
  {
   "property": "C72",
   "status": "partial",
   "theorems": [
    "Verif.C72_components",
    "Verif.C72_connected_partial",
    "Verif.C72_connected_returned"
   ],
   "note": "under the hypotheses of C71; the connected case succeeds without max_cluster_size and with persistence at most 0, and has its meaning with any options whenever it returns"
  },
  {
   "property": "C73",
   "status": "partial",
   "theorems": [
    "Verif.C73_neighbours_partial",
    "Verif.C73_tree",
    "Verif.C73_spanning",
    "Verif.C73_connected",
    "Verif.C73_missing_neighbour"
   ],
   "note": "a missing neighbour (index -1) is taken for the last sample of the data set (C73_missing_neighbour); everything else in full"
  },
  {
   "property": "C74",
   "status": "partial",
   "theorems": [
    "Verif.C74_clusters_connected_partial",
    "Verif.C74_tree_inside_partial",
    "Verif.C74_top_cluster_apart"
   ],
   "note": "whenever clustering returns, with any options, for trees without infinite edges or without a positive persistence; refuted when the top cluster is selected alone with an epsilon (C74_top_cluster_apart)"
  },
  {
   "property": "C75",
   "status": "partial",
   "theorems": [
    "Verif.C75_cluster_weight_partial",
    "Verif.C75_cluster_count_partial",
    "Verif.C75_used_labels_partial",
    "Verif.C75_top_cluster_unused",
    "Verif.C75_infinite_edges"
   ],
   "note": "whenever clustering returns, with any options: proved for trees without infinite edges when the top cluster is not selected; otherwise every label in use weighs enough (no persistence), but a selected cluster may be given to no sample (C75_top_cluster_unused, C75_infinite_edges)"
  },
  {
   "property": "C76",
   "status": "proved",
   "theorems": [
    "Verif.C76_first_violation"
   ],
   "note": "_check_sample_weight is not modelled"
  },
  {
   "property": "C77",
   "status": "partial",
   "theorems": [
    "Verif.C77_recover_partial",
    "Verif.C77_recover_fit_partial",
    "Verif.C77_remap",
    "Verif.C77_infinite_distance"
   ],
   "note": "proved when all lambdas of the finite rows' tree are positive; refuted for infinite distances between finite rows (C77_infinite_distance)"
  },
  {
   "property": "C78",
   "status": "partial",
   "theorems": [
    "Verif.C78_sub_clusters_partial",
    "Verif.C78_all_rows_partial",
    "Verif.C78_single_sample",
    "Verif.C78_unused_label",
    "Verif.C78_no_cluster"
   ],
   "note": "succeeds without max_cluster_size and persistence, and holds with any options whenever it returns; without propagation, for finite lens values and arrays as in SubInput; raises for given labels with a cluster of one sample, an unused number, or only on rows with NaN (C78_single_sample, C78_unused_label, C78_no_cluster)"
  },
  {
   "property": "C79",
   "status": "proved",
   "theorems": [
    "Verif.C79_knn_kruskal",
    "Verif.C79_knn_pairwise",
    "Verif.C79_knn_groups",
    "Verif.C79_knn_weights",
    "Verif.C79_nndescent",
    "Verif.C79_refused"
   ],
   "note": "for neighbour lists whose indices are in range; NNDescent itself is not modelled: the theorem is for whatever rows it returns"
  },
  {
   "property": "C80",
   "status": "proved",
   "theorems": [
    "Verif.C80_knn_clusters",
    "Verif.C80_all_neighbours",
    "Verif.C80_small_k",
    "Verif.C80_own_neighbour"
   ],
   "note": "for rounding as in Arith.Lawful, at most 32767 neighbours; the converse and C80_all_neighbours assume that samples at distance 0 have equal coordinates; C80_small_k shows that the assumption on neighbours is needed, C80_own_neighbour that the returned neighbours may contain the sample itself"
  },
  {
   "property": "C81",
   "status": "partial",
   "theorems": [
    "Verif.C81_core_distance_partial",
    "Verif.C81_too_small",
    "Verif.C81_no_neighbours"
   ],
   "note": "never too large; exact if k * (smallest weight) >= min_samples; too small otherwise (C81_too_small), and undefined when the mean weight exceeds 2 * min_samples (C81_no_neighbours)"
  },
  {
   "property": "C82",
   "status": "proved",
   "theorems": [
    "Verif.C82_after_missing_values",
    "Verif.C82_not_fitted",
    "Verif.C82_min_samples_one"
   ],
   "note": "with min_samples=1 rows of NaN are clusters of their own (C82_min_samples_one)"
  },
  {
   "property": "C83",
   "status": "partial",
   "theorems": [
    "Verif.C83_core_samples_partial",
    "Verif.C83_kruskal",
    "Verif.C83_not_dbscan_star"
   ],
   "note": "core samples joined to fewer than min_samples core samples (themselves included) are noise, so it is DBSCAN* only if there are none (C83_not_dbscan_star); everything else holds"
  },
  {
   "property": "C84",
   "status": "partial",
   "theorems": [
    "Verif.C84_fit",
    "Verif.C84_arguments",
    "Verif.C84_input",
    "Verif.C84_code_functions",
    "Verif.C84_size_one",
    "Verif.C84_by_count_partial"
   ],
   "note": "base_min_cluster_size=1 is accepted but loses samples (C84_size_one); from 2 on it holds; with base_n_clusters for spanning trees without infinite edges (C84_by_count_partial), otherwise see C69"
  },
  {
   "property": "C85",
   "status": "partial",
   "theorems": [
    "Verif.C85_scale_partial",
    "Verif.C85_equal_core_distances"
   ],
   "note": "false when all finite core distances are equal (C85_equal_core_distances); proved otherwise"
  },
  {
   "property": "C86",
   "status": "partial",
   "theorems": [
    "Verif.C86_layer_tree_partial",
    "Verif.C86_by_count_partial",
    "Verif.C86_infinite_edges"
   ],
   "note": "false for spanning trees with infinite edges (C86_infinite_edges); proved without them for either base layer"
  },
  {
   "property": "C87",
   "status": "partial",
   "theorems": [
    "Verif.C87_branches_partial",
    "Verif.C87_propagation_partial",
    "Verif.C87_centre_collides",
    "Verif.C87_propagated_collides"
   ],
   "note": "false if a sample has infinite centrality (C87_centre_collides), and for the labels of SubClusterDetector with propagation if a cluster does not split (C87_propagated_collides); proved for lens values with positive lambda (success without persistence and max_cluster_size, labels with any options whenever the fit succeeds)"
  },
  {
   "property": "C88",
   "status": "proved",
   "theorems": [
    "Verif.C88_propagated_labels",
    "Verif.C88_same_labels",
    "Verif.C88_idempotent",
    "Verif.C88_branches"
   ],
   "note": "equality of results including errors, for all inputs of the model"
  },
  {
   "property": "C89",
   "status": "proved",
   "theorems": [
    "Verif.C89_approximation_graph"
   ],
   "note": "for every successful fit; edges of the spanning tree and neighbour lists as in C78 (every sample linked to another of its cluster)"
  },
  {
   "property": "C90",
   "status": "partial",
   "theorems": [
    "Verif.C90_centrality",
    "Verif.C90_order",
    "Verif.C90_rigid",
    "Verif.C90_scale",
    "Verif.C90_branches_partial",
    "Verif.C87_centre_collides"
   ],
   "note": "all but the last sentence proved in full; success proved without persistence and max_cluster_size, labels with any options whenever the fit succeeds; false if a sample lies in the centre of its cluster (C87_centre_collides)"
  },
  {
   "property": "C91",
   "status": "partial",
   "theorems": [
    "Verif.C91_any_tree_partial",
    "Verif.C91_algorithms_partial",
    "Verif.C91_plscan_partial",
    "Verif.C91_leaf_ties_partial",
    "Verif.C91_leaf_algorithms_partial",
    "Verif.C91_ties"
   ],
   "note": "proved if the edges of the spanning tree have pairwise different lengths; false otherwise (C91_ties); for the leaf method also with ties that do not join two heavy parts; C91_algorithms_partial under the conditions of C35"
  },
  {
   "property": "C92",
   "status": "partial",
   "theorems": [
    "Verif.C92_renamed_partial",
    "Verif.C92_kruskal_partial",
    "Verif.C92_boruvka_partial",
    "Verif.C92_leaf_ties_partial",
    "Verif.C92_leaf_rows_partial",
    "Verif.C92_ties",
    "Verif.C92_general_position"
   ],
   "note": "proved if the edges of the spanning tree have pairwise different lengths; false otherwise (C92_ties), also for data with pairwise different distances (C92_general_position); for the leaf method also with ties that do not join two heavy parts; C92_boruvka_partial under the conditions of C35"
  },
  {
   "property": "C93",
   "status": "partial",
   "theorems": [
    "Verif.C93_scaled",
    "Verif.C93_kruskal",
    "Verif.C93_dbscan",
    "Verif.C93_dbscan_kruskal",
    "Verif.C93_boruvka_partial",
    "Verif.C93_leaf_order",
    "Verif.C93_conditions"
   ],
   "note": "proved for every spanning tree and for algorithm='kruskal'; for algorithm='boruvka' if the edges of the spanning tree have pairwise different lengths and under the conditions of C35"
  },
  {
   "property": "C94",
   "status": "partial",
   "theorems": [
    "Verif.C94_inside_not_longer",
    "Verif.C94_cluster_is_dbscan_star_partial",
    "Verif.C94_dbscan_clustering_partial",
    "Verif.C94_ties"
   ],
   "note": "proved, with any options, if no tree edge inside the cluster is as long as one leaving it, the top cluster is not selected, and there are no infinite edges together with a positive persistence; the minimum size of dbscan_clustering (min_samples if given) must not exceed min_cluster_size; refuted with ties (C94_ties)"
  },
  {
   "property": "C95",
   "status": "partial",
   "theorems": [
    "Verif.C95_leaf_refines_eom_partial",
    "Verif.C95_epsilon"
   ],
   "note": "proved without cluster_selection_epsilon, under the hypotheses of C63 (the top cluster selected alone only without positive persistence); refuted with an epsilon and allow_single_cluster (C95_epsilon)"
  },
  {
   "property": "C96",
   "status": "partial",
   "theorems": [
    "Verif.C96_top_cluster_partial",
    "Verif.C96_no_epsilon",
    "Verif.C96_only_below_epsilon",
    "Verif.C96_epsilon"
   ],
   "note": "proved without cluster_selection_epsilon; with an epsilon the exact condition is proved (necessary with any options: C96_only_below_epsilon), and the claim is refuted (C96_epsilon): allow_single_cluster=False is ignored"
  },
  {
   "property": "C97",
   "status": "partial",
   "theorems": [
    "Verif.C97_fit_any_tree_partial",
    "Verif.C97_fit_kruskal_partial",
    "Verif.C97_fit_boruvka_partial",
    "Verif.C97_fit_options_partial",
    "Verif.C97_fit_weights_partial"
   ],
   "note": "default selection options, at least two finite rows; Boruvka under the conditions of C35; with other options (C97_fit_options_partial) and sample weights (C97_fit_weights_partial) whenever fit returns, unless the whole data set is selected or there are infinite edges and a positive persistence"
  },
  {
   "property": "C98",
   "status": "partial",
   "theorems": [
    "Verif.C98_stored_tree_partial",
    "Verif.C98_missing_row_first"
   ],
   "note": "Kruskal; true if no row with missing values comes before a finite row, in general only after renumbering; refuted with NaN in the first row (C98_missing_row_first)"
  },
  {
   "property": "C99",
   "status": "partial",
   "theorems": [
    "Verif.C99_neighbours_partial",
    "Verif.C99_own_neighbour"
   ],
   "note": "number, distances and order of the neighbours in full; nearest other samples if the sample has no duplicate; with a duplicate row a sample can be its own neighbour (C99_own_neighbour)"
  },
  {
   "property": "C100",
   "status": "partial",
   "theorems": [
    "Verif.C100_check",
    "Verif.C100_fit_partial",
    "Verif.C100_negative",
    "Verif.C100_scalar_nan"
   ],
   "note": "exact characterisation; negative weights are accepted (C100_negative); where weights are checked once only, the number NaN is accepted (C100_scalar_nan)"
  },
  {
   "property": "C101",
   "status": "partial",
   "theorems": [
    "Verif.C101_labels_partial",
    "Verif.C101_precomputed_partial",
    "Verif.C101_below",
    "Verif.C101_missing_row"
   ],
   "note": "exact characterisation; the check accepts labels below -1 and labels of rows with missing values, which are not used (C101_below, C101_missing_row)"
  },
  {
   "property": "C102",
   "status": "partial",
   "theorems": [
    "Verif.C102_fails_iff",
    "Verif.C102_returned",
    "Verif.C102_total_partial",
    "Verif.C102_not_all",
    "Verif.C102_clusters_partial",
    "Verif.C102_used_labels_partial",
    "Verif.C102_fit_partial",
    "Verif.C102_fit_kruskal_partial",
    "Verif.C102_stored_trees_partial",
    "Verif.C102_weights_fail"
   ],
   "note": "exactly when it fails, and everything that holds when it returns, for all options; it always returns with weights of at most 1 and no persistence; with weights above 1 it can raise KeyError (C102_weights_fail); connectedness needs finite edges (C30)"
  },
  {
   "property": "C103",
   "status": "partial",
   "theorems": [
    "Verif.C103_kruskal_partial",
    "Verif.C103_kruskal_ss_partial",
    "Verif.C103_apart_partial",
    "Verif.C103_same_label_partial",
    "Verif.C103_core_distances",
    "Verif.C103_other_tree"
   ],
   "note": "proved for brute force Kruskal with min_samples at most 1, all options and weights; false with larger min_samples (C103_core_distances) and for other minimum spanning trees (C103_other_tree), where copies can only be separated if the cluster of one of them consists of copies (C103_same_label_partial)"
  },
  {
   "property": "C104",
   "status": "partial",
   "theorems": [
    "Verif.C104_returned_partial",
    "Verif.C104_clusters_partial",
    "Verif.C104_returns",
    "Verif.C104_exact",
    "Verif.C104_fit_partial",
    "Verif.C104_fit_returns",
    "Verif.C104_duplicates_partial",
    "Verif.C104_fastmath_decides"
   ],
   "note": "lambdas in WithTop, operations on scores unspecified; C104_exact ties this model to the other one; missing: positive persistence, infinite edges; what the arithmetic does can change the labels (C104_fastmath_decides)"
  },
  {
   "property": "C105",
   "status": "partial",
   "theorems": [
    "Verif.C105_layers_partial",
    "Verif.C105_kruskal_partial",
    "Verif.C105_by_count_partial",
    "Verif.C105_kruskal_by_count_partial"
   ],
   "note": "proved for spanning trees without infinite edges, for base_min_cluster_size and base_n_clusters; missing: infinite edges, where labels can be unused (C86_infinite_edges) and with base_n_clusters a layer has clusters of one sample (C107_by_count_infinite_edges)"
  },
  {
   "property": "C106",
   "status": "partial",
   "theorems": [
    "Verif.C106_groups_partial",
    "Verif.C106_exact_partial",
    "Verif.C106_fit_partial",
    "Verif.C106_fit_kruskal_partial",
    "Verif.C106_found_partial",
    "Verif.C106_fit_found_partial",
    "Verif.C106_epsilon",
    "Verif.C106_persistence",
    "Verif.C106_max_cluster_size",
    "Verif.C106_single_cluster"
   ],
   "note": "false with cluster_selection_epsilon, a positive persistence or max_cluster_size (witnesses); without them no group is missed, also with allow_single_cluster (C106_found_partial, C106_fit_found_partial), where there may be one cluster only (C106_single_cluster)"
  },
  {
   "property": "C107",
   "status": "partial",
   "theorems": [
    "Verif.C107_nested_partial",
    "Verif.C107_by_count_partial",
    "Verif.C107_infinite_edges",
    "Verif.C107_by_count_infinite_edges"
   ],
   "note": "false for spanning trees with infinite edges (C107_infinite_edges, C107_by_count_infinite_edges); proved without them for base_min_cluster_size and base_n_clusters"
  },
  {
   "property": "C108",
   "status": "partial",
   "theorems": [
    "Verif.C108_leaf_partial",
    "Verif.C108_eom"
   ],
   "note": "proved for the leaf method; false for excess of mass (C108_eom); missing: cluster_selection_epsilon and positive persistence"
  },
  {
   "property": "C109",
   "status": "partial",
   "theorems": [
    "Verif.C109_same_tree",
    "Verif.C109_boruvka_partial",
    "Verif.C109_zeros_not_stored"
   ],
   "note": "full for algorithm='kruskal'; for 'boruvka', needs distinct tree weights and a rounding that keeps distances apart; zeros must be stored explicitly (C109_zeros_not_stored)"
  },
  {
   "property": "C110",
   "status": "partial",
   "theorems": [
    "Verif.C110_far_sample_partial",
    "Verif.C110_min_tree",
    "Verif.C110_kruskal_partial",
    "Verif.C110_single_cluster"
   ],
   "note": "without persistence_threshold; min_cluster_size is at most the total weight of the other samples; from the data, for algorithm='kruskal' with distinct tree weights; false for allow_single_cluster with excess of mass (C110_single_cluster)"
  },
  {
   "property": "C111",
   "status": "partial",
   "theorems": [
    "Verif.C111_sub_clusters_partial",
    "Verif.C111_kruskal_partial",
    "Verif.C111_given_labels_partial",
    "Verif.C111_empty_row"
   ],
   "note": "every clustered row needs a stored neighbour in its cluster or a tree edge stored from it into its cluster, which C111_kruskal_partial derives for algorithm='kruskal', min_samples at most 1 and data without ties, and which fails in general (C111_empty_row); the clusterer has no persistence_threshold; without propagate_labels"
  },
  {
   "property": "C112",
   "status": "partial",
   "theorems": [
    "Verif.C112_not_divided_partial",
    "Verif.C112_fit_partial",
    "Verif.C112_whole_data_set",
    "Verif.C112_cluster_lost"
   ],
   "note": "proved in full for cluster_selection_epsilon > 0 in the first run, for the leaf method, and without allow_single_cluster; otherwise the other row is in that cluster or noise, and noise is possible (C112_whole_data_set). A cluster can become noise as a whole (C112_cluster_lost)"
  },
  {
   "property": "C113",
   "status": "partial",
   "theorems": [
    "Verif.C113_not_divided_partial",
    "Verif.C113_fit_partial",
    "Verif.C113_eom"
   ],
   "note": "proved for the leaf method without cluster_selection_epsilon and infinite edges; false for excess of mass (C113_eom)"
  },
  {
   "property": "C114",
   "status": "partial",
   "theorems": [
    "Verif.C114_apart_partial",
    "Verif.C114_fit_partial",
    "Verif.C114_fit_kruskal_partial",
    "Verif.C114_persistence",
    "Verif.C114_persistence_infinite"
   ],
   "note": "proved if there is no positive persistence, or no infinite edges and two labels used; false with persistence for a single cluster (C114_persistence) and with infinite edges (C114_persistence_infinite)"
  },
  {
   "property": "C115",
   "status": "partial",
   "theorems": [
    "Verif.C115_leaf_exact_partial",
    "Verif.C115_leaf_sets_partial",
    "Verif.C115_leaf_groups_partial"
   ],
   "note": "an exact description in both directions, with infinite edges in C115_leaf_exact_partial; missing: cluster_selection_epsilon, cluster_selection_persistence, rows that alone weigh min_cluster_size; the description by distances needs that no edge that joins two heavy parts has the weight of another edge"
  },
  {
   "property": "C116",
   "status": "partial",
   "theorems": [
    "Verif.C116_local_partial",
    "Verif.C116_share_partial",
    "Verif.C116_eom"
   ],
   "note": "proved for the leaf method without epsilon and persistence, for finite distances and trees in which no edge that joins two heavy parts has the length of another edge; false for the excess of mass method (C116_eom)"
  },
  {
   "property": "C117",
   "status": "partial",
   "theorems": [
    "Verif.C117_copies_partial",
    "Verif.C117_heavy_row",
    "Verif.C117_eom"
   ],
   "note": "proved for the leaf method without epsilon and persistence, for given mutual reachability distances, finite edges, rows lighter than min_cluster_size, and trees in which no edge that joins two heavy parts has the length of another edge; false for a row that alone weighs min_cluster_size (C117_heavy_row) and for the excess of mass method (C117_eom)"
  },
  {
   "property": "C118",
   "status": "partial",
   "theorems": [
    "Verif.C118_dbscan",
    "Verif.C118_dbscan_tree",
    "Verif.C118_number_partial",
    "Verif.C118_number_persistence_partial",
    "Verif.C118_fit_partial",
    "Verif.C118_plscan_partial"
   ],
   "note": "proved for every method, epsilon and limit without persistence, for the layers of PLSCAN, with persistence if the top cluster is not selected and no edge is infinite, for fit with the exact Kruskal routine, and for dbscan_clustering with any spanning tree and any weights; rows have to be lighter than min_cluster_size"
  },
  {
   "property": "C119",
   "status": "partial",
   "theorems": [
    "Verif.C119_noise_removed_partial",
    "Verif.C119_noise_removed_data_partial",
    "Verif.C119_eom"
   ],
   "note": "proved for the leaf method without epsilon and persistence, finite edges, and joins of heavy parts at different lengths, for distances that do not change with the rows (min_samples at most 1, or mutual reachability distances given); false for the excess of mass method (C119_eom)"
  },
  {
   "property": "C120",
   "status": "partial",
   "theorems": [
    "Verif.C120_errors_partial",
    "Verif.C120_errors_data_partial",
    "Verif.C120_algorithms_partial",
    "Verif.C120_eom"
   ],
   "note": "proved for the leaf method without epsilon and persistence and for finite distances, with any minimum spanning trees of both data sets, and from the distances for the brute force Kruskal routine with min_samples below the number of rows; also for Kruskal in double precision against any run of Boruvka in single precision; rows have to be lighter than min_cluster_size; false for the excess of mass method (C120_eom)"
  },
  {
   "property": "C121",
   "status": "proved",
   "theorems": [
    "Verif.C121_cut",
    "Verif.C121_kruskal",
    "Verif.C121_algorithms_partial",
    "Verif.C121_near"
   ],
   "note": "for any minimum spanning trees of both data sets (C121_cut) and from the distances for the brute force Kruskal routine (C121_kruskal); C121_algorithms_partial compares Kruskal with Boruvka under the conditions of C35; C121_near shows that the gap around eps is needed"
  },
  {
   "property": "C122",
   "status": "proved",
   "theorems": [
    "Verif.C122_cut",
    "Verif.C122_kruskal",
    "Verif.C122_fit_row",
    "Verif.C122_fit_min_samples"
   ],
   "note": "for any minimum spanning trees of the mutual reachability distances (C122_cut) and from the distances for the brute force Kruskal routine (C122_kruskal); the labels of fit do not have this property (C122_fit_row, C122_fit_min_samples)"
  },
  {
   "property": "C123",
   "status": "partial",
   "theorems": [
    "Verif.C123_cut",
    "Verif.C123_kruskal_partial",
    "Verif.C123_core_distances"
   ],
   "note": "proved for given mutual reachability distances and any minimum spanning trees, and from the distances for the brute force Kruskal routine with min_samples at most 1; false with larger min_samples, where noise can make other rows core samples (C123_core_distances)"
  },
  {
   "property": "C124",
   "status": "proved",
   "theorems": [
    "Verif.C124_cut",
    "Verif.C124_kruskal",
    "Verif.C124_algorithms_partial"
   ],
   "note": "for any minimum spanning trees of the mutual reachability distances (C124_cut) and for brute force Kruskal (C124_kruskal); C124_algorithms_partial compares it with any run of Boruvka under the conditions of C35"
  },
  {
   "property": "C125",
   "status": "proved",
   "theorems": [
    "Verif.C125_cut",
    "Verif.C125_kruskal",
    "Verif.C125_size_one"
   ],
   "note": "dbscan_clustering passes min_samples (or min_cluster_size, then used for both) as the minimum size, so it is at least 2 or min_samples is at most 1; for other combinations, possible only by calling the cut routine directly, it is false (C125_size_one)"
  },
  {
   "property": "C126",
   "status": "proved",
   "theorems": [
    "Verif.C126_cut",
    "Verif.C126_kruskal"
   ],
   "note": "for any minimum spanning trees of the mutual reachability distances (C126_cut) and from the distances for brute force Kruskal (C126_kruskal), with any min_samples and any ties"
  },
  {
   "property": "C127",
   "status": "partial",
   "theorems": [
    "Verif.C127_ignored",
    "Verif.C127_copies"
   ],
   "note": "false: the weights are ignored, for every spanning tree (C127_ignored), so that clusters of fit can be noise (C127_copies)"
  },
  {
   "property": "C57",
   "status": "partial",
   "theorems": [
    "Verif.C57_single_cluster_partial",
    "Verif.C57_no_split_no_cluster"
   ],
   "note": "false when the data never split: then nothing is selected; proved when there is a split"
  }
 ]
}