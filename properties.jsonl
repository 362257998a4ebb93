{"id": "C01", "title": "Kruskal returns a spanning forest of its input", "statement": "With algorithm='kruskal' and no constraints, the returned edges are edges of the input graph, contain no cycle, and connect two samples exactly when the input graph connects them; the number of edges plus the number of connected components equals the number of samples.", "quantifier": "every number of vertices, every finite weighted edge list over them (self loops, parallel edges, ties, disconnected graphs included)", "why_tests_cant": "graphs are unbounded; union-by-rank with path compression and the early exit interact in ways a sample of graphs does not exhaust", "anchors": ["fast_hdbscan/kruskal.py:_kruskal_core", "fast_hdbscan/kruskal.py:_get_component_labels_jit"]}
{"id": "C02", "title": "Kruskal's forest is minimum at every scale", "statement": "For every threshold t, two samples are joined by returned edges of weight <= t exactly when they are joined by input edges of weight <= t; consequently the total weight is minimal among all spanning forests of the input and the sorted weights are the same for every minimum spanning forest.", "quantifier": "every edge list, every threshold, every competing spanning forest", "why_tests_cant": "optimality is a statement about all competing trees and all thresholds", "anchors": ["fast_hdbscan/kruskal.py:_kruskal_core", "fast_hdbscan/kruskal.py:kruskal_mst_from_csr", "fast_hdbscan/kruskal.py:_kruskal_mst_from_feature_matrix_brute"]}
{"id": "C03", "title": "Cannot-link pairs never end up in one spanning-forest component", "statement": "If (i, j) is a cannot-link pair of a symmetric constraint matrix, the edges returned by constrained Kruskal never connect i and j, directly or transitively.", "quantifier": "every graph, every symmetric constraint set, every pair", "why_tests_cant": "the conflict lists are concatenated linked lists scanned only on the smaller side; transitivity makes the case space unbounded", "anchors": ["fast_hdbscan/kruskal.py:_kruskal_core_constrained"]}
{"id": "C04", "title": "Constraints only block what they must", "statement": "Whenever an input edge joins two different components of the constrained result, those two components really contain a cannot-link pair; each decision is the greedy one (an edge is refused only if its endpoints are already joined or joining them would join a cannot-link pair).", "quantifier": "every graph and every symmetric constraint set", "why_tests_cant": "needs every edge of every graph to be inspected, not a sample", "anchors": ["fast_hdbscan/kruskal.py:_kruskal_core_constrained", "fast_hdbscan/kruskal.py:_kruskal_core_group_constrained"]}
{"id": "C05", "title": "Group constraints are the block-diagonal pairwise constraints", "statement": "cannot_link_groups gives exactly the same edges as cannot_link with one entry for every pair of distinct samples sharing a non-negative group, for any number of groups (not only those fitting in one 64-bit word).", "quantifier": "every graph, every group labelling, any number of groups", "why_tests_cant": "equivalence of two algorithms with different data structures over all inputs", "anchors": ["fast_hdbscan/kruskal.py:_kruskal_core_group_constrained", "fast_hdbscan/kruskal.py:_kruskal_core_constrained"]}
{"id": "C06", "title": "Vacuous constraints change nothing", "statement": "Diagonal entries of cannot_link, an empty matrix, and a group array of all -1 give the same edges as running without constraints.", "quantifier": "every graph", "why_tests_cant": "equality of outputs over all inputs", "anchors": ["fast_hdbscan/kruskal.py:_validate_cannot_link", "fast_hdbscan/kruskal.py:_run_kruskal_core", "fast_hdbscan/kruskal.py:_kruskal_core_constrained"]}
{"id": "C07", "title": "Every non-zero cannot_link entry is enforced", "statement": "With validation on, a non-zero entry (i, j) in either triangle keeps i and j apart in the spanning forest.", "quantifier": "every constraint matrix accepted by validation", "why_tests_cant": "entries are combined by signed addition; cancellation depends on value combinations tests do not enumerate", "anchors": ["fast_hdbscan/kruskal.py:_validate_cannot_link", "fast_hdbscan/kruskal.py:_resolve_cl_params"]}
{"id": "C08", "title": "Bridging a forest gives a spanning tree and is undone by unbridging", "statement": "After bridging, the result has exactly n-1 edges, is acyclic and connects all samples; the original edges are a prefix with unchanged weights and all added edges weigh +inf. Stripping +inf edges of a bridged forest with finite weights returns the original edges and assigns two samples the same component exactly when the forest connects them.", "quantifier": "every forest over every n, in every component layout", "why_tests_cant": "component layouts and sizes are unbounded", "anchors": ["fast_hdbscan/precomputed.py:bridge_forest_with_inf", "fast_hdbscan/precomputed.py:unbridge_mst", "fast_hdbscan/kruskal.py:_finish_mst"]}
{"id": "C09", "title": "Components are numbered by smallest member", "statement": "unbridge_mst numbers components 0..k-1 in order of their smallest sample id, as its documentation says.", "quantifier": "every tree", "why_tests_cant": "numbering depends on the direction in which edges happen to be written", "anchors": ["fast_hdbscan/precomputed.py:unbridge_mst"]}
{"id": "C10", "title": "Disjoint sets represent exactly the closure of the unions performed", "statement": "After any sequence of unions (by rank or by size) two elements have the same representative exactly when they are linked by a chain of performed unions; every find stops at a representative; the size kept at a representative is the number of elements of its class.", "quantifier": "every number of elements, every sequence of union and find calls", "why_tests_cant": "operation histories are unbounded", "anchors": ["fast_hdbscan/disjoint_set.py:ds_find", "fast_hdbscan/disjoint_set.py:ds_union_by_rank", "fast_hdbscan/disjoint_set.py:ds_union_by_size"]}
{"id": "C11", "title": "Find is cheap and safe to run concurrently", "statement": "Although no path is ever shortened, a find after unions by rank takes at most log2(n) parent steps; finds running concurrently with each other under any interleaving of their individual reads and writes return the representative and leave the structure as it was.", "quantifier": "every history of unions, every set of concurrent finds, every interleaving", "why_tests_cant": "interleavings and histories are unbounded", "anchors": ["fast_hdbscan/disjoint_set.py:ds_find", "fast_hdbscan/disjoint_set.py:ds_union_by_rank", "fast_hdbscan/boruvka.py:update_component_vectors"]}
{"id": "C12", "title": "The single linkage tree is a valid dendrogram of the spanning tree", "statement": "For a spanning tree sorted by weight: row i merges two different, already existing, not yet merged nodes, the larger id first; its recorded size is the number (or total sample weight) of samples below it; heights never decrease; the samples below node n+i are exactly those connected by the first i+1 tree edges to an endpoint of edge i.", "quantifier": "every n and every spanning tree", "why_tests_cant": "structure of unbounded trees with path-compressed representatives", "anchors": ["fast_hdbscan/cluster_trees.py:mst_to_linkage_tree", "fast_hdbscan/cluster_trees.py:mst_to_linkage_tree_w_sample_weights", "fast_hdbscan/cluster_trees.py:linkage_merge_find", "fast_hdbscan/cluster_trees.py:linkage_merge_join"]}
{"id": "C13", "title": "Clustering does not depend on the order of spanning tree rows", "statement": "Permuting the rows of the spanning tree passed to clusters_from_spanning_tree does not change any result (labels, strengths, trees), also when weights tie.", "quantifier": "every spanning tree and every permutation of its rows", "why_tests_cant": "n! permutations", "anchors": ["fast_hdbscan/hdbscan.py:clusters_from_spanning_tree"]}
{"id": "C14", "title": "dbscan_clustering(eps) is DBSCAN* at eps", "statement": "Two samples with labels >= 0 from dbscan_clustering(eps) have the same label exactly when they are connected through mutual reachability edges of weight strictly below eps; a sample is noise exactly when fewer than the minimum size many samples (itself included) are so connected to it.", "quantifier": "every data set (distance graph), every eps, every minimum size", "why_tests_cant": "quantifies over all paths in all graphs", "anchors": ["fast_hdbscan/cluster_trees.py:get_cluster_labelling_at_cut", "fast_hdbscan/hdbscan.py:HDBSCAN.dbscan_clustering", "fast_hdbscan/kruskal.py:_kruskal_core"]}
{"id": "C15", "title": "Cut labels are dense and monotone in eps", "statement": "Labels at a cut are exactly -1 and 0..k-1 with each of 0..k-1 used; raising eps only merges: samples sharing a label at eps share a label at every larger eps.", "quantifier": "every linkage tree, every pair of cut values", "why_tests_cant": "unbounded trees and cuts", "anchors": ["fast_hdbscan/cluster_trees.py:get_cluster_labelling_at_cut"]}
{"id": "C16", "title": "The condensed tree contains every sample exactly once", "statement": "Each sample occurs exactly once as a child in the condensed tree.", "quantifier": "every dendrogram, every min_cluster_size >= 1, every sample weighting", "why_tests_cant": "unbounded trees; the failing inputs (a single sample at least as heavy as min_cluster_size) are unlike the fixtures", "anchors": ["fast_hdbscan/cluster_trees.py:condense_tree", "fast_hdbscan/cluster_trees.py:eliminate_branch"]}
{"id": "C17", "title": "Condensed clusters are real clusters", "statement": "Every cluster row's size equals the number of samples below that cluster in the condensed tree and is at least min_cluster_size; every cluster has zero or exactly two child clusters, both leaving at the same lambda; cluster ids are n, n+1, ... without gaps, a parent's id is below its children's, and a cluster's own row precedes every row below it.", "quantifier": "every dendrogram and every min_cluster_size >= 2", "why_tests_cant": "structural invariant over unbounded trees", "anchors": ["fast_hdbscan/cluster_trees.py:condense_tree", "fast_hdbscan/cluster_trees.py:bfs_from_hierarchy", "fast_hdbscan/cluster_trees.py:eliminate_branch"]}
{"id": "C18", "title": "Lambda never decreases towards the leaves", "statement": "In the condensed tree, everything leaving a cluster leaves at a lambda at least as large as the one at which the cluster appeared.", "quantifier": "every dendrogram with non-decreasing heights", "why_tests_cant": "path property over unbounded trees", "anchors": ["fast_hdbscan/cluster_trees.py:condense_tree"]}
{"id": "C19", "title": "The condensed tree fits its preallocated buffers", "statement": "Construction writes at most 2(n-1) rows, the size of the buffers it allocates, and uses no cluster id outside the range of its label tables.", "quantifier": "every dendrogram, every min_cluster_size, every max_cluster_size", "why_tests_cant": "out-of-bounds writes are silent in compiled code", "anchors": ["fast_hdbscan/cluster_trees.py:condense_tree"]}
{"id": "C20", "title": "Leaf selection returns exactly the childless clusters", "statement": "cluster_selection_method='leaf' selects exactly the clusters that have no child cluster; no selected cluster contains another; every cluster has a selected cluster below or equal to it.", "quantifier": "every condensed tree", "why_tests_cant": "unbounded trees", "anchors": ["fast_hdbscan/cluster_trees.py:extract_leaves", "fast_hdbscan/cluster_trees.py:cluster_tree_leaves"]}
{"id": "C21", "title": "Excess-of-mass selection never nests clusters", "statement": "No cluster selected by cluster_selection_method='eom' is an ancestor of another selected cluster, whatever the scores (including NaN), max_cluster_size and allow_single_cluster.", "quantifier": "every cluster tree, every score assignment, all parameters", "why_tests_cant": "scores can be NaN or infinite with duplicate samples; unbounded trees", "anchors": ["fast_hdbscan/cluster_trees.py:extract_eom_clusters", "fast_hdbscan/cluster_trees.py:eom_recursion", "fast_hdbscan/cluster_trees.py:unselect_below_node"]}
{"id": "C22", "title": "Excess-of-mass selection is optimal", "statement": "The total positive stability of the selected clusters is at least that of every other non-nested set of permitted clusters.", "quantifier": "every cluster tree with finite stabilities, every competing non-nested set", "why_tests_cant": "quantifies over all antichains", "anchors": ["fast_hdbscan/cluster_trees.py:extract_eom_clusters", "fast_hdbscan/cluster_trees.py:eom_recursion"]}
{"id": "C23", "title": "max_cluster_size is respected", "statement": "No cluster selected by 'eom' has more than max_cluster_size samples.", "quantifier": "every cluster tree and every max_cluster_size", "why_tests_cant": "the size of the top cluster is computed from an id and only wrong in one boundary case", "anchors": ["fast_hdbscan/cluster_trees.py:extract_eom_clusters"]}
{"id": "C24", "title": "The whole data set is not a cluster unless allowed", "statement": "Without allow_single_cluster, 'eom' never selects the top cluster; with at least one split and no max_cluster_size every cluster without child clusters lies in exactly one selected cluster.", "quantifier": "every cluster tree", "why_tests_cant": "unbounded trees", "anchors": ["fast_hdbscan/cluster_trees.py:extract_eom_clusters"]}
{"id": "C25", "title": "cluster_selection_epsilon merges, it does not drop", "statement": "Every cluster selected before applying cluster_selection_epsilon is contained in, or equal to, a cluster selected afterwards.", "quantifier": "every cluster tree, every epsilon, every non-nested selection", "why_tests_cant": "needs particular id layouts across distant branches of the tree", "anchors": ["fast_hdbscan/cluster_trees.py:cluster_epsilon_search", "fast_hdbscan/cluster_trees.py:segments_in_branch", "fast_hdbscan/cluster_trees.py:traverse_upwards"]}
{"id": "C26", "title": "A sample's label is its unique selected ancestor", "statement": "A sample gets label k exactly when the k-th selected cluster (ascending id) contains it in the condensed tree and the sample did not leave at lambda 0, otherwise -1; if only the top cluster is selected, exactly the samples leaving it last (or at lambda at least 1/epsilon when epsilon is positive) get label 0; labelling never fails.", "quantifier": "every condensed tree, every non-nested selection, every epsilon", "why_tests_cant": "representatives come from union by rank; failures need ties at the last lambda", "anchors": ["fast_hdbscan/cluster_trees.py:get_cluster_label_vector"]}
{"id": "C27", "title": "Labels are dense", "statement": "The labels used are exactly 0..k-1 (plus -1), where k is the number of selected clusters.", "quantifier": "every data set, every selection method", "why_tests_cant": "fails only for particular disconnected inputs", "anchors": ["fast_hdbscan/cluster_trees.py:get_cluster_label_vector", "fast_hdbscan/hdbscan.py:clusters_from_spanning_tree"]}
{"id": "C28", "title": "Membership strengths are proper", "statement": "Every membership strength lies in [0, 1]; noise has strength 0; a sample leaving last from its cluster has strength 1; within a cluster, a sample leaving later never has smaller strength.", "quantifier": "every condensed tree with arbitrary (also infinite) lambdas, every labelling", "why_tests_cant": "infinite lambdas and clusters without direct samples are special-cased", "anchors": ["fast_hdbscan/cluster_trees.py:get_point_membership_strength_vector", "fast_hdbscan/cluster_trees.py:max_lambdas"]}
{"id": "C29", "title": "Cannot-link pairs never share a label", "statement": "With algorithm='kruskal' and a symmetric cannot-link constraint, the labels of a cannot-link pair are never equal and non-negative.", "quantifier": "every data set, every constraint set, every selection method and epsilon", "why_tests_cant": "end-to-end through bridging, condensing, selection and labelling", "anchors": ["fast_hdbscan/hdbscan.py:fast_hdbscan", "fast_hdbscan/hdbscan.py:clusters_from_spanning_tree", "fast_hdbscan/kruskal.py:_kruskal_core_constrained", "fast_hdbscan/cluster_trees.py:condense_tree", "fast_hdbscan/cluster_trees.py:extract_eom_clusters", "fast_hdbscan/cluster_trees.py:get_cluster_label_vector"]}
{"id": "C30", "title": "Disconnected samples never share a label", "statement": "Samples of different connected components of a precomputed (or nearest neighbour) graph never share a non-negative label.", "quantifier": "every graph", "why_tests_cant": "end-to-end property of unbounded graphs", "anchors": ["fast_hdbscan/hdbscan.py:clusters_from_spanning_tree", "fast_hdbscan/precomputed.py:bridge_forest_with_inf"]}
{"id": "C31", "title": "Non-finite rows are noise and do not disturb the others", "statement": "fit on data with NaN/inf rows gives those rows label -1 and strength 0, and gives each remaining row the label and strength it gets when fitting the finite rows alone.", "quantifier": "every data set and every placement of non-finite rows", "why_tests_cant": "placements are exponential in number", "anchors": ["fast_hdbscan/hdbscan.py:HDBSCAN.fit", "fast_hdbscan/hdbscan.py:remap_condensed_tree", "fast_hdbscan/hdbscan.py:remap_single_linkage_tree"]}
{"id": "C32", "title": "Remapped trees are trees over the original rows", "statement": "With non-finite rows present the stored condensed tree contains every original row exactly once, and the stored single linkage tree is a valid dendrogram over all original rows.", "quantifier": "every data set with at least one non-finite row", "why_tests_cant": "index shifting errors only show for particular counts of finite rows", "anchors": ["fast_hdbscan/hdbscan.py:remap_condensed_tree", "fast_hdbscan/hdbscan.py:remap_single_linkage_tree"]}
{"id": "C33", "title": "Boruvka on a sparse graph gives a minimum spanning forest", "statement": "For a symmetric graph the edges chosen round by round form a minimum spanning forest of the graph, whichever order components are processed in and whichever of several equally light edges each picks.", "quantifier": "every symmetric sparse graph, every processing order, every tie resolution", "why_tests_cant": "ties and orders are unbounded; empty adjacency rows are special", "anchors": ["fast_hdbscan/core_graph.py:boruvka_mst", "fast_hdbscan/core_graph.py:select_components", "fast_hdbscan/core_graph.py:merge_components", "fast_hdbscan/precomputed.py:compute_mst_from_precomputed_sparse"]}
{"id": "C34", "title": "The parallel nearest-other-component search is exact for every schedule", "statement": "In one round of the tree-based Boruvka, for every interleaving of threads on the shared component bounds, the best candidate recorded for a component is a lightest mutual-reachability edge leaving it.", "quantifier": "every data set, every component assignment, every schedule", "why_tests_cant": "schedules are unbounded and racy", "anchors": ["fast_hdbscan/boruvka.py:boruvka_tree_query", "fast_hdbscan/boruvka.py:component_aware_query_recursion", "fast_hdbscan/boruvka.py:boruvka_tree_query_reproducible"]}
{"id": "C35", "title": "Tree-based Boruvka gives a minimum spanning tree for every schedule", "statement": "For unweighted data with min_samples below the number of samples, the returned edges form a minimum spanning tree of the complete mutual reachability graph for every schedule, so algorithm='boruvka' and algorithm='kruskal' agree on all edge weights (as multisets) and on connectivity at every threshold.", "quantifier": "every data set, every schedule", "why_tests_cant": "optimality and schedules", "anchors": ["fast_hdbscan/boruvka.py:parallel_boruvka", "fast_hdbscan/boruvka.py:initialize_boruvka_from_knn", "fast_hdbscan/boruvka.py:merge_components"]}
{"id": "C36", "title": "reproducible=True gives the same tree for every schedule", "statement": "The spanning tree computed with reproducible=True does not depend on thread scheduling.", "quantifier": "every data set, every pair of schedules", "why_tests_cant": "depends on ties together with particular interleavings", "anchors": ["fast_hdbscan/boruvka.py:boruvka_tree_query_reproducible"]}
{"id": "C37", "title": "Nearest neighbour queries are exact", "statement": "A k-nearest-neighbour query returns, in ascending order, the k smallest distances from the query point to the data with indices attaining them (padded with +inf / -1 if there are fewer than k points).", "quantifier": "every data set, every query point, every k", "why_tests_cant": "pruning correctness over all trees", "anchors": ["fast_hdbscan/numba_kdtree.py:tree_query_recursion", "fast_hdbscan/numba_kdtree.py:parallel_tree_query", "fast_hdbscan/numba_kdtree.py:simple_heap_push", "fast_hdbscan/numba_kdtree.py:deheap_sort", "fast_hdbscan/numba_kdtree.py:point_to_node_lower_bound_rdist"]}
{"id": "C38", "title": "KD-tree construction partitions the data", "statement": "The index array is a permutation of the points, the two children of a node split its index range, every leaf holds a contiguous range, and every node's bounds contain all its points.", "quantifier": "every data set and leaf size", "why_tests_cant": "in-place selection algorithm on unbounded arrays", "anchors": ["fast_hdbscan/numba_kdtree.py:build_kdtree", "fast_hdbscan/numba_kdtree.py:_recursive_build_tree", "fast_hdbscan/numba_kdtree.py:introselect", "fast_hdbscan/numba_kdtree.py:_init_node"]}
{"id": "C39", "title": "Spanning tree edges always name real samples", "statement": "Every endpoint in the returned spanning tree is a sample index between 0 and n-1.", "quantifier": "every data set and every min_samples", "why_tests_cant": "fails only when min_samples >= n with several nearest-neighbour groups", "anchors": ["fast_hdbscan/boruvka.py:parallel_boruvka", "fast_hdbscan/boruvka.py:merge_components"]}
{"id": "C40", "title": "Unit sample weights change nothing", "statement": "Passing sample_weights of all ones gives the same core distances and spanning tree weights as passing none.", "quantifier": "every data set", "why_tests_cant": "units (squared versus true distances) are mixed depending on the path", "anchors": ["fast_hdbscan/boruvka.py:parallel_boruvka", "fast_hdbscan/boruvka.py:sample_weight_core_distance", "fast_hdbscan/boruvka.py:initialize_boruvka_from_knn"]}
{"id": "C41", "title": "Precomputed graphs are symmetrised by minimum", "statement": "After preprocessing, the weight between i and j is the smaller of the stored entries in the two directions (the one present if only one is), explicit zeros stay edges, self distances are dropped, and the result is symmetric.", "quantifier": "every sparse matrix accepted by validation", "why_tests_cant": "all sparsity patterns", "anchors": ["fast_hdbscan/precomputed.py:_symmetrize_min_csr", "fast_hdbscan/precomputed.py:validate_precomputed_sparse_graph"]}
{"id": "C42", "title": "Precomputed core distances are exact", "statement": "A sample's core distance is its min_samples-th smallest stored distance, +inf if it has fewer, and 0 when min_samples is 1.", "quantifier": "every graph and every min_samples >= 1", "why_tests_cant": "order statistics over unbounded rows", "anchors": ["fast_hdbscan/precomputed.py:_core_distances_csr"]}
{"id": "C43", "title": "Precomputed spanning trees carry exact mutual reachability weights", "statement": "Each finite edge of the returned tree has weight max(core_i, core_j, distance_ij) of an edge of the input graph, and both algorithms return trees of equal weight.", "quantifier": "every graph", "why_tests_cant": "single-precision rounding inside one of the two algorithms", "anchors": ["fast_hdbscan/precomputed.py:_patch_mst_weights", "fast_hdbscan/precomputed.py:compute_mst_from_precomputed_sparse", "fast_hdbscan/precomputed.py:compute_mst_from_precomputed_sparse_kruskal"]}
{"id": "C44", "title": "Constraints are honoured or rejected, never ignored", "statement": "Every accepted call that passes cannot_link or cannot_link_groups enforces them; otherwise an error is raised.", "quantifier": "every combination of metric, algorithm, number of features, weights and constraints", "why_tests_cant": "combinatorial dispatch space", "anchors": ["fast_hdbscan/hdbscan.py:compute_minimum_spanning_tree", "fast_hdbscan/hdbscan.py:fast_hdbscan"]}
{"id": "C45", "title": "Parameter validation accepts exactly the documented values", "statement": "fast_hdbscan raises ValueError exactly when a parameter is outside its documented domain, and reports the first offending one in the documented order.", "quantifier": "every parameter combination", "why_tests_cant": "combination space", "anchors": ["fast_hdbscan/hdbscan.py:fast_hdbscan"]}
{"id": "C46", "title": "Sub-cluster labels refine the cluster labels", "statement": "Samples of different clusters never share a sub-cluster label, samples outside all clusters stay -1, and inside a cluster two samples share a label exactly when they share the cluster-local label.", "quantifier": "every assignment of cluster-local labels", "why_tests_cant": "running offsets over any number of clusters", "anchors": ["fast_hdbscan/sub_clusters.py:update_labels", "fast_hdbscan/sub_clusters.py:find_sub_clusters"]}
{"id": "C47", "title": "Label propagation terminates and fills every sample", "statement": "In a connected cluster graph with at least one labelled sample, propagation terminates, changes no given label, and gives every sample the label of some originally labelled sample.", "quantifier": "every connected graph, every partial labelling, all weights", "why_tests_cant": "termination over unbounded graphs", "anchors": ["fast_hdbscan/sub_clusters.py:propagate_labels_per_cluster"]}
{"id": "C48", "title": "Propagated labels still separate clusters", "statement": "With propagate_labels=True, samples of different clusters never share a propagated label.", "quantifier": "every set of clusters with every cluster-local labelling", "why_tests_cant": "needs a cluster whose local labelling is entirely noise next to another", "anchors": ["fast_hdbscan/sub_clusters.py:propagate_sub_cluster_labels"]}
{"id": "C49", "title": "Branch threshold relabels only two-sided clusters", "statement": "Without label_sides_as_branches, the samples of a cluster with at most two branches get one common label, clusters with more keep their branch labels, and no two clusters share a label.", "quantifier": "every set of clusters and branch labellings", "why_tests_cant": "running offsets over any number of clusters", "anchors": ["fast_hdbscan/branches.py:apply_branch_threshold"]}
{"id": "C50", "title": "find_branch_sub_clusters can be called", "statement": "find_branch_sub_clusters returns a result for every fitted clusterer.", "quantifier": "every fitted clusterer", "why_tests_cant": "no existing test calls the function", "anchors": ["fast_hdbscan/branches.py:find_branch_sub_clusters"]}
{"id": "C51", "title": "Peaks are exactly the local maxima", "statement": "find_peaks returns exactly the positions of local maxima of the profile, one per plateau, in ascending order.", "quantifier": "every profile", "why_tests_cant": "plateaus of any length at any place", "anchors": ["fast_hdbscan/layer_clusters.py:find_peaks"]}
{"id": "C52", "title": "Selected layers are few and mutually dissimilar", "statement": "At most the requested number of peaks is selected, each is one of the offered peaks, and no two selected ones have more than the given Jaccard similarity; a rejected peak, when room was left, was too similar to a selected one of at least its persistence.", "quantifier": "every list of peaks and every threshold", "why_tests_cant": "greedy choice over all inputs", "anchors": ["fast_hdbscan/layer_clusters.py:select_diverse_peaks", "fast_hdbscan/layer_clusters.py:jaccard_similarity", "fast_hdbscan/layer_clusters.py:estimate_cluster_similarity"]}
{"id": "C53", "title": "The layer tree is a forest ordered by layer", "statement": "Each cluster of each layer occurs exactly once as a child, its parent is in a strictly later layer and shares a sample with it (or is the artificial root), so following parents always ends at the root.", "quantifier": "every stack of layer labellings", "why_tests_cant": "unbounded number of layers and clusters", "anchors": ["fast_hdbscan/layer_clusters.py:_build_cluster_tree", "fast_hdbscan/layer_clusters.py:build_layer_cluster_tree"]}
{"id": "C54", "title": "Persistence simplification keeps a valid tree with persistent leaves", "statement": "After simplification with a threshold every sample still occurs exactly once, ids are consecutive, and two sibling clusters both persist at least as long as the threshold; simplification is defined for every condensed tree.", "quantifier": "every condensed tree and every threshold", "why_tests_cant": "bottom-up merging over unbounded trees; memory safety on trees without clusters", "anchors": ["fast_hdbscan/cluster_trees.py:simplify_hierarchy"]}
{"id": "C55", "title": "Semi-supervised selection never nests clusters", "statement": "Clusters selected in semi-supervised mode are never nested, and never artificial noise nodes.", "quantifier": "every cluster tree, every label assignment, every score", "why_tests_cant": "unbounded trees", "anchors": ["fast_hdbscan/cluster_trees.py:extract_clusters_bcubed", "fast_hdbscan/cluster_trees.py:eom_recursion_bcubed", "fast_hdbscan/cluster_trees.py:unselect_below_node_bcubed"]}
{"id": "C56", "title": "Bounded candidate heaps keep the k smallest", "statement": "Pushing any sequence of candidates into a full bounded heap leaves exactly the k smallest distances seen, in heap order, and draining it yields them in ascending order.", "quantifier": "every sequence of pushes, every k", "why_tests_cant": "heap shapes are unbounded", "anchors": ["fast_hdbscan/numba_kdtree.py:simple_heap_push", "fast_hdbscan/numba_kdtree.py:siftdown", "fast_hdbscan/numba_kdtree.py:deheap_sort"]}
{"id": "C57", "title": "allow_single_cluster can select the whole data set", "statement": "With allow_single_cluster=True and no max_cluster_size, 'eom' selects the top cluster exactly when its stability is at least that of every non-nested set of smaller clusters; in particular it is selected when the data never split.", "quantifier": "every condensed tree", "why_tests_cant": "compares one cluster with every competing selection", "anchors": ["fast_hdbscan/cluster_trees.py:extract_eom_clusters", "fast_hdbscan/cluster_trees.py:eom_recursion"]}
{"id": "C58", "title": "Selection puts the requested rank in place", "statement": "Introselect rearranges the index range and leaves at the requested position an index such that nothing before it compares larger and nothing after it compares smaller; entries outside the range do not move.", "quantifier": "every index array, range, rank, data and axis, including the fallback to heapsort", "why_tests_cant": "pivoting on adversarial data has unboundedly many paths, the fallback is hardly ever reached", "anchors": ["fast_hdbscan/numba_kdtree.py:_introselect", "fast_hdbscan/numba_kdtree.py:_introselect_impl", "fast_hdbscan/numba_kdtree.py:_partition_indices", "fast_hdbscan/numba_kdtree.py:_heapsort_indices", "fast_hdbscan/numba_kdtree.py:_compare_indices"]}
{"id": "C59", "title": "Leaves hold between leaf_size and twice leaf_size points", "statement": "With more samples than leaf_size, every leaf of the KD-tree holds at least leaf_size and at most 2 * leaf_size points, as the comment in build_kdtree says.", "quantifier": "every number of samples and leaf size", "why_tests_cant": "claim about a logarithm rounded down and repeated halving for all sizes", "anchors": ["fast_hdbscan/numba_kdtree.py:build_kdtree", "fast_hdbscan/numba_kdtree.py:_recursive_build_tree"]}
{"id": "C60", "title": "Brute-force Kruskal gives a minimum spanning tree of the mutual reachability graph", "statement": "algorithm='kruskal' without knn_k returns a minimum spanning tree of the complete graph of mutual reachability distances, for every symmetric distance matrix and every min_samples, including min_samples >= n.", "quantifier": "every symmetric distance matrix, every min_samples", "why_tests_cant": "optimality quantifies over all spanning trees", "anchors": ["fast_hdbscan/kruskal.py:_kruskal_mst_brute", "fast_hdbscan/kruskal.py:_run_kruskal_core"]}
{"id": "C61", "title": "A split is the last event of a cluster", "statement": "In the condensed tree the rows of a cluster are listed by lambda, and nothing leaves a cluster after it split into two.", "quantifier": "every spanning tree, sample weights, minimum cluster size, persistence threshold", "why_tests_cant": "a statement about every pair of rows of every tree; the stability score and the label threshold rely on it", "anchors": ["fast_hdbscan/cluster_trees.py:condense_tree", "fast_hdbscan/cluster_trees.py:simplify_hierarchy"]}
{"id": "C62", "title": "Semi-supervised selection maximises agreement with the labels", "statement": "The clusters selected in semi-supervised mode (with the labelled noise samples, if artificial nodes are allowed) have the largest total B-cubed F-measure among all non-nested sets of clusters, and the largest total stability among those with the largest F-measure.", "quantifier": "every condensed tree that splits, every assignment of labels", "why_tests_cant": "the number of non-nested sets is exponential in the number of clusters", "anchors": ["fast_hdbscan/cluster_trees.py:extract_clusters_bcubed", "fast_hdbscan/cluster_trees.py:eom_recursion_bcubed", "fast_hdbscan/cluster_trees.py:score_condensed_tree_nodes_bcubed", "fast_hdbscan/cluster_trees.py:get_condensed_tree_clusters_bcubed"]}
{"id": "C63", "title": "Clustering a spanning tree always returns, with labels that mean what they say", "statement": "For every spanning tree over at least two samples and every combination of selection method, allow_single_cluster, epsilon, persistence and max_cluster_size, clusters_from_spanning_tree returns without an exception; the labels mark exactly the samples of the selected clusters, strengths lie in [0, 1], and nothing is selected only if nothing splits.", "quantifier": "all spanning trees, weights and options", "why_tests_cant": "the failing combinations (an epsilon merge that leaves one cluster, a size limit that leaves one cluster, an empty cluster tree) depend on the shape of the tree; example data sets rarely have it", "anchors": ["fast_hdbscan/hdbscan.py:497-574", "fast_hdbscan/cluster_trees.py:834-903", "fast_hdbscan/cluster_trees.py:944-1031"]}
{"id": "C64", "title": "The number of leaf clusters is one more than the number of large merges", "statement": "Without max_cluster_size, the number of leaf clusters of the condensed tree is one plus the number of merges of the dendrogram whose two sides both weigh at least min_cluster_size. So raising min_cluster_size never gives more leaf clusters, and clusters selected without nesting (other than the top one) times min_cluster_size never exceed the total weight.", "quantifier": "every dendrogram, sample weights, min_cluster_size above 1 and above every weight", "why_tests_cant": "counts over all shapes of dendrograms; monotonicity compares all pairs of min_cluster_size", "anchors": ["fast_hdbscan/cluster_trees.py:condense_tree", "fast_hdbscan/cluster_trees.py:extract_leaves"]}
{"id": "C65", "title": "The search for a number of clusters finds the closest one", "statement": "_binary_search_for_n_clusters ends and returns the leaf clustering, with labels and strengths, for a min_cluster_size between 2 and n // 2 whose number of leaf clusters is as close to the requested one as for any size in that range; between two final sizes equally close, the one labelling more samples.", "quantifier": "every dendrogram of at least four samples, every requested number", "why_tests_cant": "optimality over all sizes for all trees; the bisection is only right because the count is monotone", "anchors": ["fast_hdbscan/layer_clusters.py:_binary_search_for_n_clusters"]}
{"id": "C66", "title": "The barcode of minimum cluster sizes says when each cluster appears and disappears", "statement": "min_cluster_size_barcode gives each cluster of a condensed tree a birth and a death: two siblings die at the smaller of their sizes, the top cluster at the number of samples, and a cluster is born when the minimum size is reached and every cluster strictly inside it is dead. The clusters alive at a size never contain one another; they are the top cluster alone or at least two others; and clusters alive at a larger size contain those of a smaller size they touch.", "quantifier": "all condensed trees, minimum sizes and sizes below the number of samples", "why_tests_cant": "the array is filled by a loop over pairs of rows from the end; its meaning is a statement about all descendants of every cluster", "anchors": ["fast_hdbscan/layer_clusters.py:min_cluster_size_barcode", "fast_hdbscan/layer_clusters.py:build_cluster_layers"]}
{"id": "C67", "title": "A layer is the leaf clustering for another minimum cluster size", "statement": "The clusters alive at an integer size s in the barcode of the condensed tree for min_cluster_size m <= s have exactly the sample sets of the leaf clusters of the condensed tree for min_cluster_size s + 1: one tree stands for all larger sizes.", "quantifier": "every dendrogram with samples counting 1, all 2 <= m <= s < n", "why_tests_cant": "compares two different condensed trees of every dendrogram for every pair of sizes", "anchors": ["fast_hdbscan/layer_clusters.py:min_cluster_size_barcode", "fast_hdbscan/layer_clusters.py:build_cluster_layers", "fast_hdbscan/cluster_trees.py:condense_tree"]}
{"id": "C68", "title": "Total persistence sums over the clusters alive at each size", "statement": "compute_total_persistence returns the distinct births in ascending order and, for each, the sum over the clusters other than the top one alive there of death - birth * lambda_death. With lambda terms at most 1 it is never negative, and positive exactly where such a cluster is alive.", "quantifier": "all births, deaths and lambda terms", "why_tests_cant": "the sum is built by index ranges found by scans; off-by-one errors at ties of births and deaths need all orderings of the values", "anchors": ["fast_hdbscan/layer_clusters.py:compute_total_persistence"]}
{"id": "C69", "title": "build_cluster_layers returns the base layer and a few different coarser ones", "statement": "build_cluster_layers returns at most max_layers layers (max_layers >= 1), sorted by descending number of clusters. One is the base layer; every other one is the leaf clustering for a larger min_cluster_size, with at least two clusters, a positive score and meaningful labels and strengths, and no two of them are more similar than the threshold.", "quantifier": "every dendrogram, base_min_cluster_size >= 2 or base_n_clusters, thresholds and tie orders of the sorts", "why_tests_cant": "termination without an exception, and the meaning of every layer, are claims about all trees; data sets in tests have one or two layers", "anchors": ["fast_hdbscan/layer_clusters.py:build_cluster_layers"]}
{"id": "C70", "title": "The core graph of a lens has exactly the right edges", "statement": "core_graph_spanning_tree's graph has, in the row of each point, one entry for each of its neighbours and each other end of a spanning tree edge stored from it, none else; the weight is the larger lens value of the two ends, the distance the larger core distance for neighbours and the tree's distance otherwise; rows are sorted by weight and stored one after the other. apply_lens with another lens gives the core graph of that lens, whatever lens it was built with; the exported edge list has every entry with its row.", "quantifier": "all neighbour lists, core distances, trees and lenses, all tie orders of the sort", "why_tests_cant": "the union of two edge sets through dictionaries, prefix sums and in-place updates is right only if it is for every overlap of the two sets", "anchors": ["fast_hdbscan/core_graph.py:19-106", "fast_hdbscan/core_graph.py:212-218", "fast_hdbscan/core_graph.py:249-274"]}
{"id": "C71", "title": "The lens spanning tree is a minimum spanning forest of the core graph", "statement": "For neighbours and tree over n points, core_graph_spanning_tree returns a minimum spanning forest of the core graph with lens weights, labels that tell its components apart and the number of components.", "quantifier": "all neighbour lists, trees and lenses", "why_tests_cant": "edges are stored in one direction only, which matters for few graphs and orders of proposals; no reference implementation is compared with", "anchors": ["fast_hdbscan/core_graph.py:173-218"]}
{"id": "C72", "title": "core_graph_clusters labels components or clusters the tree", "statement": "If the core graph is disconnected, core_graph_clusters labels its components by 0, 1, ... without gaps and returns a spanning forest; if it is connected, it returns the clustering, with its meaning, of a spanning tree of the core graph with lens weights.", "quantifier": "all neighbour lists, trees, lenses, weights and options", "why_tests_cant": "the in-place renumbering of components is right only because the i-th smallest label is at least i; which branch is taken depends on the graph", "anchors": ["fast_hdbscan/core_graph.py:221-246"]}
{"id": "C73", "title": "Restricting to a cluster keeps exactly the neighbours and tree edges inside it", "statement": "compute_sub_clusters_in_cluster numbers the samples of a cluster in ascending order; the in-cluster neighbours of a sample are exactly its neighbours in the cluster and the in-cluster tree has exactly the tree edges with both ends in it. If the cluster is connected by these the in-cluster tree spans it and the core graph inside it is connected for every lens.", "quantifier": "all labels, clusters, neighbour lists and trees", "why_tests_cant": "index arrays with -1 for samples outside and for missing neighbours; wrong entries show only for particular positions of samples", "anchors": ["fast_hdbscan/sub_clusters.py:16-45", "fast_hdbscan/sub_clusters.py:64-95"]}
{"id": "C74", "title": "The samples of a cluster are connected by tree edges inside the cluster", "statement": "For every spanning tree and all options, any two samples with the same cluster label are joined by edges of the tree between samples with that label, so that sub-clustering sees one connected piece.", "quantifier": "all spanning trees, weights and options", "why_tests_cant": "a statement about paths inside every selected cluster of every tree", "anchors": ["fast_hdbscan/hdbscan.py:497-574", "fast_hdbscan/cluster_trees.py:944-1031", "fast_hdbscan/sub_clusters.py:16-95"]}
{"id": "C75", "title": "Every cluster weighs at least min_cluster_size", "statement": "In the result of clusters_from_spanning_tree the labels are 0, 1, ... up to the number of selected clusters minus one, and -1 for noise; every label is given to samples of total weight at least min_cluster_size, with unit weights to at least min_cluster_size samples.", "quantifier": "all spanning trees, sample weights and options", "why_tests_cant": "sizes are sums over the samples of every selected cluster of every tree; tests check a few data sets", "anchors": ["fast_hdbscan/hdbscan.py:497-574", "fast_hdbscan/cluster_trees.py:condense_tree", "fast_hdbscan/cluster_trees.py:get_cluster_label_vector"]}
{"id": "C76", "title": "find_sub_clusters rejects bad arguments by the first violated condition", "statement": "find_sub_clusters raises an error exactly when one of its conditions on metric, raw data, fitted state, min_cluster_size, max_cluster_size, persistence, epsilon, method and labels is violated, and the error is that of the first violated one in the documented order; arguments that are None are replaced by the clusterer's values before the checks.", "quantifier": "all combinations of argument values of all Python kinds", "why_tests_cant": "the combinations of ten conditions over values of several kinds cannot be listed in tests", "anchors": ["fast_hdbscan/sub_clusters.py:260-331"]}
{"id": "C77", "title": "find_sub_clusters recovers the finite rows from the condensed tree", "statement": "The rows that find_sub_clusters keeps (from np.searchsorted on the lambda values of the stored condensed tree) are exactly the finite rows of the data that fit was given, and without a non-finite row nothing is restricted; the results are put back so that the k-th finite row has the k-th result and other rows the fill values.", "quantifier": "all data with non-finite rows at any positions, all orders of the outlier set", "why_tests_cant": "fit stores no mask; whether the rows can be read off the tree depends on all its lambda values", "anchors": ["fast_hdbscan/sub_clusters.py:333-362", "fast_hdbscan/sub_clusters.py:188-242", "fast_hdbscan/hdbscan.py:119-161"]}
{"id": "C78", "title": "find_sub_clusters divides every cluster and keeps clusters apart", "statement": "find_sub_clusters returns one label and strength per row: noise and rows with NaN stay noise; two rows of clusters get the same label exactly if they are in the same cluster with the same sub-cluster label; strengths are the mean of cluster and sub-cluster strength; a cluster whose samples are not linked by neighbours and tree edges inside it is divided into its connected pieces, any other by clustering a spanning tree with lens weights.", "quantifier": "all labels with clusters of at least two samples, neighbours, trees, lenses, weights and options", "why_tests_cant": "composes restriction, core graph, spanning tree, clustering, relabelling and remapping; every index shift must fit for all positions of samples", "anchors": ["fast_hdbscan/sub_clusters.py:16-128", "fast_hdbscan/sub_clusters.py:188-242", "fast_hdbscan/sub_clusters.py:333-455"]}
{"id": "C79", "title": "The spanning tree from neighbour lists is minimal on the graph of neighbours", "statement": "Kruskal on lists of neighbours (algorithm='kruskal' with knn_k, with or without sample weights, and algorithm='nndescent') gives a spanning tree of all samples: a minimum spanning forest of the graph of neighbours with mutual reachability weights, plus one infinite edge fewer than there are components; at every finite threshold it connects what the graph of neighbours connects; with constraints no constrained pair is connected by finite edges; padding entries are ignored.", "quantifier": "all neighbour lists, core distances, constraints, and all rows that the approximate search may return", "why_tests_cant": "minimality is a statement about all spanning forests; the approximate search may return any rows", "anchors": ["fast_hdbscan/kruskal.py:455-508", "fast_hdbscan/kruskal.py:821-878", "fast_hdbscan/kruskal.py:950-1034", "fast_hdbscan/nndescent.py:176-294"]}
{"id": "C80", "title": "With knn_k the tree is exact wherever no sample has too many neighbours", "statement": "With algorithm='kruskal' and knn_k on data, the core distances do not depend on knn_k; what the tree connects at a finite threshold is connected in the complete mutual reachability graph; conversely at every threshold for which of any two samples that close at least one has at most max(knn_k, min_samples) others that close; with knn_k >= n - 1 the tree is a minimum spanning tree of the complete graph; equal samples do no harm.", "quantifier": "all data, min_samples, knn_k and thresholds", "why_tests_cant": "compares two algorithms at every threshold on all data, including ties and duplicates", "anchors": ["fast_hdbscan/kruskal.py:950-1034", "fast_hdbscan/numba_kdtree.py:tree_query_recursion", "fast_hdbscan/numba_kdtree.py:parallel_tree_query"]}
{"id": "C81", "title": "Weighted core distances are the radius of weight min_samples", "statement": "With sample weights the core distance of a sample is the smallest distance within which the samples (itself included) weigh at least min_samples.", "quantifier": "all data, sample weights and min_samples", "why_tests_cant": "the number of neighbours asked for is derived from the mean weight; whether it is enough depends on how weights are spread", "anchors": ["fast_hdbscan/boruvka.py:528-539", "fast_hdbscan/boruvka.py:565-575", "fast_hdbscan/kruskal.py:981-993"]}
{"id": "C82", "title": "dbscan_clustering after a fit with missing values is DBSCAN* of the finite rows", "statement": "After fit on data with non-finite rows, dbscan_clustering(eps) returns one label per row of the data; the labels are those of a cut of the graph of the finite rows at eps: two labelled rows share a label exactly if edges shorter than eps connect them, a row is noise exactly if fewer than min_samples (or min_cluster_size) rows are connected to it; rows that are not finite are connected to nothing and so are noise if that number is at least two. Not fitted raises.", "quantifier": "all data, positions of non-finite rows, orders of the outlier set, spanning trees, eps and thresholds", "why_tests_cant": "the stored tree is renumbered and extended by rows whose children can be wrong (C32); whether cuts are affected depends on all of them", "anchors": ["fast_hdbscan/hdbscan.py:824-834", "fast_hdbscan/hdbscan.py:161-196", "fast_hdbscan/cluster_trees.py:905-941"]}
{"id": "C83", "title": "dbscan_clustering is DBSCAN* on the distances", "statement": "With min_samples >= 2, dbscan_clustering(eps) labels exactly the core samples (samples with at least min_samples others closer than eps), and two of them get the same label exactly if a chain of core samples, each closer than eps to the next, joins them.", "quantifier": "all symmetric distances with zero diagonal, all min_samples >= 2 and eps", "why_tests_cant": "relates core distances, spanning tree, linkage tree and cut to a definition by chains of samples of any length", "anchors": ["fast_hdbscan/hdbscan.py:824-834", "fast_hdbscan/cluster_trees.py:905-941", "fast_hdbscan/kruskal.py:881-947"]}
{"id": "C84", "title": "PLSCAN returns the layer with the highest score, and that is not the base layer if there is another", "statement": "PLSCAN.fit accepts exactly the documented parameters and, for every spanning tree of at least two samples, returns: at most max_layers layers by falling number of clusters, the base layer being the leaf clustering for base_min_cluster_size and every other layer the leaf clustering for a larger size; labels_ and membership_strengths_ are those of the first layer with the highest score, and this is not the base layer unless it is the only one.", "quantifier": "all spanning trees, core distances, similarity thresholds, numbers of layers, and all ways to break ties in the sorts", "why_tests_cant": "that no step raises and the scores of all layers above the base are positive are statements about all trees", "anchors": ["fast_hdbscan/hdbscan.py:1009-1187", "fast_hdbscan/layer_clusters.py:353-495"]}
{"id": "C85", "title": "PLSCAN does not depend on the unit of length", "statement": "Multiplying all distances (core distances and spanning tree edges) by the same positive number changes nothing in the fitted model: layers, scores, tree, labels and strengths.", "quantifier": "all trees, core distances and positive factors", "why_tests_cant": "an equality of results for all data and all factors; PLSCAN's lambda exp(-d) is not scale free by itself", "anchors": ["fast_hdbscan/layer_clusters.py:390-400"]}
{"id": "C86", "title": "PLSCAN's cluster tree lists every cluster once, under the cluster that contains it", "statement": "cluster_tree_ has every cluster of every layer, by the labels in use, as a child exactly under the nearest later cluster sharing a sample, or under the artificial root if there is none; with more than one layer labels_ has at least two clusters, numbered without gap, each of more than base_min_cluster_size samples.", "quantifier": "all spanning trees, core distances and parameters", "why_tests_cant": "needs labels without gaps in all layers, which is a statement about every condensed tree", "anchors": ["fast_hdbscan/layer_clusters.py:499-554", "fast_hdbscan/layer_clusters.py:470-495", "fast_hdbscan/hdbscan.py:1151-1159"]}
{"id": "C87", "title": "BranchDetector labels name one branch of one cluster each", "statement": "After BranchDetector.fit two samples with a cluster have the same label exactly if they are in the same cluster and that cluster has one branch (its samples are linked and it has at most one branch label, or at most two without label_sides_as_branches) or they have the same branch label; noise and rows with NaN have label -1; propagation keeps branch labels and gives noise inside a cluster one of the branch labels of its cluster.", "quantifier": "all clusterings of at least one cluster, neighbour lists, spanning trees, lens values, with and without propagation and with either label_sides_as_branches", "why_tests_cant": "labels of different clusters stay apart only if the labels inside every cluster have no gap, which is a statement about every condensed tree", "anchors": ["fast_hdbscan/branches.py:13-62", "fast_hdbscan/branches.py:112-126", "fast_hdbscan/sub_clusters.py:97-194", "fast_hdbscan/sub_clusters.py:483-523"]}
{"id": "C88", "title": "propagated_labels returns what fitting with propagate_labels stores", "statement": "Fitting SubClusterDetector or BranchDetector with propagate_labels=True gives the same as fitting without and calling propagated_labels; calling propagated_labels again changes nothing; propagated_labels(label_sides_as_branches=x) equals the fit with x, whatever the fitted object was given.", "quantifier": "all inputs, including those that raise and rows with NaN", "why_tests_cant": "an equality between two ways through the code for all inputs, one on arrays of the kept rows and one on arrays of all rows", "anchors": ["fast_hdbscan/sub_clusters.py:412-416", "fast_hdbscan/sub_clusters.py:525-537", "fast_hdbscan/branches.py:127-144"]}
{"id": "C89", "title": "The approximation graph has exactly the links between samples of one cluster", "statement": "approximation_graph_ lists for every cluster an edge from sample i to sample j, once, exactly if both are in the cluster and j is a neighbour of i or joined to it by an edge of the spanning tree; its weight is the larger lens value and its distance the larger core distance, or the length of the tree edge if j is not a neighbour. Indices are rows of the data given, also if some have NaN.", "quantifier": "all fitted detectors", "why_tests_cant": "for all neighbour lists and spanning trees, with three different numberings of the samples", "anchors": ["fast_hdbscan/sub_clusters.py:544-558", "fast_hdbscan/core_graph.py:20-107", "fast_hdbscan/core_graph.py:268-274"]}
{"id": "C90", "title": "Centrality is the inverse distance to the centre, and branches do not depend on position or rotation", "statement": "compute_centrality raises exactly if the strengths of the samples of the cluster add up to 0; otherwise the centrality of a sample is the inverse of its distance to the point in which the samples weighted by strength balance, so that nearer is more central. BranchDetector.fit gives the same for data moved by a translation and a linear map keeping lengths; in another unit all centralities are divided by the same number. If no sample lies in the centre of its cluster, BranchDetector.fit succeeds with labels as in C87.", "quantifier": "all data in vector spaces over ordered fields, norms, strengths and clusterings", "why_tests_cant": "an equality of whole fits for all data and all isometries", "anchors": ["fast_hdbscan/branches.py:5-10", "fast_hdbscan/branches.py:112-126"]}
{"id": "C91", "title": "Which minimum spanning tree is found does not matter", "statement": "HDBSCAN returns the same labels, strengths, single linkage tree and condensed tree whichever minimum spanning tree of the graph is found: for algorithm='boruvka' on any schedule of the threads, with or without reproducible, and for algorithm='kruskal'. So does PLSCAN.", "quantifier": "all graphs, pairs of minimum spanning trees, sample weights and options, with and without labels for the semi-supervised mode", "why_tests_cant": "the test data would have to contain every graph with several minimum spanning trees, and every interleaving of the threads", "anchors": ["fast_hdbscan/hdbscan.py:497-574", "fast_hdbscan/boruvka.py:552-647", "fast_hdbscan/kruskal.py:881-948", "fast_hdbscan/cluster_trees.py:39-110", "fast_hdbscan/layer_clusters.py:353-421"]}
{"id": "C92", "title": "Permuting the samples permutes the result", "statement": "The order in which samples are given does not matter: after a permutation of the samples every sample has the same label and strength as before, the same clusters are selected, and the single linkage tree and condensed tree are the same up to the names of the samples. This holds for algorithm='boruvka' and for algorithm='kruskal', and with sample weights.", "quantifier": "all data sets, permutations, sample weights and options", "why_tests_cant": "the number of permutations of a data set; the order of samples decides many comparisons inside the tree construction, the union-find and the numbering of clusters", "anchors": ["fast_hdbscan/hdbscan.py:497-574", "fast_hdbscan/boruvka.py:552-647", "fast_hdbscan/kruskal.py:881-948", "fast_hdbscan/cluster_trees.py:39-352", "fast_hdbscan/cluster_trees.py:656-1031"]}
{"id": "C93", "title": "The unit of length does not matter", "statement": "Multiplying all distances by c > 0 multiplies the lengths in the single linkage tree by c and divides the lambdas of the condensed tree by c, and leaves labels, strengths and selected clusters unchanged, if cluster_selection_epsilon is multiplied by c and cluster_selection_persistence divided by c. This holds for algorithm='kruskal' (also with cannot_link constraints), for algorithm='boruvka', and in semi-supervised mode. With cluster_selection_method='leaf' and neither option set, clusters and labels depend only on the order of the distances.", "quantifier": "all data sets, factors, sample weights, labels, constraints and options", "why_tests_cant": "all data sets and real factors; tests scale a few data sets and usually leave the two thresholds at zero", "anchors": ["fast_hdbscan/hdbscan.py:497-574", "fast_hdbscan/boruvka.py:552-647", "fast_hdbscan/kruskal.py:881-948", "fast_hdbscan/cluster_trees.py:39-352", "fast_hdbscan/cluster_trees.py:656-1031"]}
{"id": "C94", "title": "Every cluster is a cluster of dbscan_clustering for some epsilon", "statement": "For every cluster that clusters_from_spanning_tree returns there is an epsilon for which dbscan_clustering(epsilon) has exactly this cluster (its own samples and no others). In particular a cluster is density-connected at that level, and no tree edge inside it is longer than a tree edge leaving it.", "quantifier": "all spanning trees, sample weights and options", "why_tests_cant": "quantifies over all trees and over all levels; a test compares label vectors at a few levels on data without ties", "anchors": ["fast_hdbscan/hdbscan.py:824-834", "fast_hdbscan/cluster_trees.py:906-941", "fast_hdbscan/cluster_trees.py:944-1031", "fast_hdbscan/hdbscan.py:497-574"]}
{"id": "C95", "title": "Leaf clusters refine the excess-of-mass clusters", "statement": "With the same data and options, each cluster found with cluster_selection_method='leaf' lies within one cluster found with 'eom': its samples share one label other than noise there. So noise of the eom clustering is noise of the leaf clustering, and there are at least as many leaf clusters.", "quantifier": "all spanning trees, sample weights and options", "why_tests_cant": "compares two runs on all data sets; a test compares the two methods on a few data sets and does not see selected top clusters", "anchors": ["fast_hdbscan/hdbscan.py:534-574", "fast_hdbscan/cluster_trees.py:369-374", "fast_hdbscan/cluster_trees.py:694-771", "fast_hdbscan/cluster_trees.py:944-996"]}
{"id": "C96", "title": "When the whole data set is one cluster", "statement": "Without allow_single_cluster the whole data set is not selected as a cluster, and the number of selected clusters is not one; with cluster_selection_epsilon it is selected exactly if the tree splits and all splits of the whole data set are below epsilon.", "quantifier": "all spanning trees, sample weights and options", "why_tests_cant": "depends on the selection, the epsilon search and the tree together; a test sees single data sets, and the exception needs an epsilon larger than the distance between the clusters", "anchors": ["fast_hdbscan/hdbscan.py:534-574", "fast_hdbscan/cluster_trees.py:369-374", "fast_hdbscan/cluster_trees.py:694-771", "fast_hdbscan/cluster_trees.py:833-878"]}
{"id": "C97", "title": "fit gives a sound clustering of the rows", "statement": "For every data set with at least two rows without missing values, fit with default selection options returns. There is one label and one strength per row; rows with missing values are noise with strength 0; strengths lie between 0 and 1; each cluster has at least min_cluster_size rows; any two rows of a cluster are joined by a chain of rows of the cluster with mutual reachability steps of at most some tau, and each row nearer than tau to a row of the cluster is in the cluster.", "quantifier": "all data sets, distances, min_samples and min_cluster_size, both selection methods, Kruskal and all schedules of Boruvka", "why_tests_cant": "the end-to-end statement about raw data; a test compares labels for a few data sets", "anchors": ["fast_hdbscan/hdbscan.py:205-336", "fast_hdbscan/hdbscan.py:404-498", "fast_hdbscan/hdbscan.py:500-574", "fast_hdbscan/hdbscan.py:640-822", "fast_hdbscan/kruskal.py:821-947"]}
{"id": "C98", "title": "Edges of minimum_spanning_tree_ name the rows they join", "statement": "After fit, each edge (u, v, w) of minimum_spanning_tree_ joins rows u and v of the data, and w is their mutual reachability distance.", "quantifier": "all data sets and distances", "why_tests_cant": "a test on data without missing values does not see that the edges are not renumbered", "anchors": ["fast_hdbscan/hdbscan.py:787-822", "fast_hdbscan/hdbscan.py:867-884", "fast_hdbscan/kruskal.py:881-947"]}
{"id": "C99", "title": "Neighbours of the exact Kruskal routine", "statement": "The neighbours returned for a sample by the Kruskal routine without knn_k are min(max(1, min_samples), n - 1) nearest other samples in order of distance, and the last one is at the core distance.", "quantifier": "all distance matrices, every behaviour of argpartition and argsort on equal distances", "why_tests_cant": "the order of equal distances is left open by numpy; a test on data without duplicate rows does not see that a sample is its own neighbour", "anchors": ["fast_hdbscan/kruskal.py:912-930"]}
{"id": "C100", "title": "Sample weights are checked and follow their rows", "statement": "fit accepts sample weights exactly if there is one finite weight per row (or one for all), none is negative, and a row without missing values has a weight other than zero; the weights used are those of the rows without missing values.", "quantifier": "all data sets and sample weights", "why_tests_cant": "decision logic over all shapes and values together with the removal of rows; tests try a few bad inputs", "anchors": ["fast_hdbscan/hdbscan.py:43-90", "fast_hdbscan/hdbscan.py:233-237", "fast_hdbscan/hdbscan.py:744-778", "fast_hdbscan/hdbscan.py:1123-1135"]}
{"id": "C101", "title": "Labels for semi-supervised clustering are checked and follow their rows", "statement": "fit with semi_supervised=True accepts labels exactly if there is one per row and some label above -1 can be used; the labels used are those of the rows without missing values, and labels that are not finite count as -1.", "quantifier": "all data sets and labels", "why_tests_cant": "decision logic over all label arrays together with the removal of rows; tests try a few bad inputs", "anchors": ["fast_hdbscan/hdbscan.py:700-731", "fast_hdbscan/hdbscan.py:732-763"]}
{"id": "C102", "title": "Semi-supervised clustering returns sound clusters", "statement": "Clustering a spanning tree with class labels returns for all labels and options; the selected clusters are clusters of the condensed tree, none nested in another; labels, strengths, connectedness and weights of the clusters are as without class labels; so is what fit stores.", "quantifier": "all spanning trees, class labels, weights, options and data sets with rows of missing values", "why_tests_cant": "the selection depends on class labels, tree shape and stabilities together; a test fixes one labelling and weights of 1, where the failing path is not reached", "anchors": ["fast_hdbscan/hdbscan.py:497-574", "fast_hdbscan/hdbscan.py:732-830", "fast_hdbscan/cluster_trees.py:377-640"]}
{"id": "C103", "title": "Identical rows get the same label and the same strength", "statement": "If two rows of the data are at distance 0 of each other, fit gives them the same label and the same membership strength.", "quantifier": "all data sets, metrics, sample weights, class labels and selection options", "why_tests_cant": "tests use data without duplicates or with well separated ones; whether copies stay together depends on how ties between equally long edges are broken", "anchors": ["fast_hdbscan/kruskal.py:881-990", "fast_hdbscan/cluster_trees.py:100-330", "fast_hdbscan/hdbscan.py:497-574"]}
{"id": "C104", "title": "The clustering is sound whatever rounding, infinities and NaN do to the scores", "statement": "Rows at distance 0 have lambda infinity, so stabilities are sums of infinities, and NaN for clusters of copies; other stabilities are rounded, and the selection is compiled with fastmath. Still, whatever the arithmetic on scores gives: the selected clusters are clusters of the tree, none inside another, the labels are the samples below them, strengths lie in [0, 1], every label marks a connected group of at least min_cluster_size, and copies stay together where C103 says so.", "quantifier": "all data sets, distances (also 0), selection options, and all results of adding and comparing scores", "why_tests_cant": "which scores are NaN or rounded the wrong way depends on data and on the compiler; a test sees one compiler and few data sets", "anchors": ["fast_hdbscan/cluster_trees.py:656-771", "fast_hdbscan/hdbscan.py:497-574"]}
{"id": "C105", "title": "Every layer of PLSCAN is a sound clustering of the rows", "statement": "PLSCAN.fit returns for every data set of at least two rows; each layer labels every row, with strengths in [0, 1]; each cluster of a layer has at least base_min_cluster_size rows, holds together at some mutual reachability distance, and nothing outside is nearer than that; labels_ are those of a layer.", "quantifier": "all data sets, symmetric distances, minimum spanning trees, base_min_cluster_size >= 2, max_layers >= 1", "why_tests_cant": "layers depend on the persistence of all clusters at all sizes; a test looks at few data sets and cannot check that a cluster is as dense as its surroundings are not", "anchors": ["fast_hdbscan/layer_clusters.py:353-495", "fast_hdbscan/hdbscan.py:1143-1161"]}
{"id": "C106", "title": "No dense group is missed", "statement": "If at some distance the data has two separate groups of at least min_cluster_size rows, each joined by steps of at most that distance, then fit finds at least two clusters; and every such group, at every distance, is inside one cluster or has a whole cluster inside. With the leaf method no cluster has rows of two such groups that are apart.", "quantifier": "all data sets, distances, sample weights below min_cluster_size, distances at which groups form, default selection options with either method", "why_tests_cant": "a test can check that labelled rows belong together, not that no group among all distances was left out", "anchors": ["fast_hdbscan/cluster_trees.py:288-416", "fast_hdbscan/cluster_trees.py:656-771", "fast_hdbscan/hdbscan.py:497-574"]}
{"id": "C107", "title": "The layers of PLSCAN are nested", "statement": "Each cluster of a layer is inside a cluster of each later (coarser) layer or has no sample in common with it; so in cluster_tree_ each cluster is inside its parent, except under the artificial root.", "quantifier": "all spanning trees, base_min_cluster_size >= 2 or base_n_clusters, max_layers, similarity thresholds", "why_tests_cant": "layers are picked by persistence, in any order of sizes, and sorted by numbers of clusters only; whether two layers can cross depends on the whole hierarchy", "anchors": ["fast_hdbscan/layer_clusters.py:353-560"]}
{"id": "C108", "title": "Raising min_cluster_size coarsens the clustering", "statement": "For one spanning tree, every cluster for a larger min_cluster_size has a whole cluster for the smaller value inside, every cluster for the smaller value is inside one for the larger or apart from it, and the larger value gives no more clusters.", "quantifier": "all spanning trees, pairs of min_cluster_size values, sample weights below the smaller one, antitone lambdas, infinite edges included", "why_tests_cant": "compares two runs for all pairs of values; which clusters survive depends on the whole hierarchy", "anchors": ["fast_hdbscan/cluster_trees.py:288-416", "fast_hdbscan/cluster_trees.py:656-771", "fast_hdbscan/hdbscan.py:497-574"]}
{"id": "C109", "title": "A precomputed graph of all distances gives the result of the rows", "statement": "If the sparse matrix passed with metric='precomputed' holds every pairwise distance of the samples, in one or both directions, algorithm='kruskal' computes the very spanning tree and core distances that it computes from the rows, cannot-link constraints included; algorithm='boruvka' leads to the same labels, strengths and trees when no two tree edges are equally long.", "quantifier": "all numbers of samples, symmetric distances, storage orders, duplicates, min_samples values and cannot-link constraints", "why_tests_cant": "two separate implementations (CSR and dense) must agree on every input, ties included", "anchors": ["fast_hdbscan/precomputed.py:70-202", "fast_hdbscan/precomputed.py:479-557", "fast_hdbscan/kruskal.py:755-818", "fast_hdbscan/kruskal.py:881-947"]}
{"id": "C110", "title": "A far sample changes no cluster", "statement": "Adding a sample that is farther from every other sample than the longest edge of the spanning tree (and than a positive cluster_selection_epsilon) changes nothing else: the other samples keep their labels and strengths, and the new sample gets label -1 and strength 0 (allow_single_cluster=False).", "quantifier": "all numbers of samples, spanning trees, sample weights below min_cluster_size, both selection methods, max_cluster_size and epsilon values", "why_tests_cant": "a statement about two runs on different data for every data set; node numbers of all trees shift between the runs, and a test has a handful of outliers", "anchors": ["fast_hdbscan/cluster_trees.py:65-127", "fast_hdbscan/cluster_trees.py:205-352", "fast_hdbscan/cluster_trees.py:656-771", "fast_hdbscan/cluster_trees.py:944-1031", "fast_hdbscan/hdbscan.py:497-574"]}
{"id": "C111", "title": "Sub-clusters of a fitted clusterer", "statement": "SubClusterDetector.fit on a clusterer fitted by HDBSCAN.fit, with one lens value per row, keeps the clusterer's labels and strengths as cluster labels and strengths, leaves noise and rows with missing values as noise, gives two rows the same new label exactly if they share cluster and sub-cluster, and divides each cluster into its connected pieces or, if there is only one, by clustering a spanning tree whose edges weigh the larger lens value of their two rows.", "quantifier": "all data sets with and without missing values, spanning tree routines, sample weights, lens values and options of the two estimators", "why_tests_cant": "two estimators and three numberings of the rows (all rows, finite rows, rows of a cluster) have to fit together for every data set; tests use a few data sets and mostly data without missing values", "anchors": ["fast_hdbscan/sub_clusters.py:16-61", "fast_hdbscan/sub_clusters.py:279-455", "fast_hdbscan/hdbscan.py:787-820", "fast_hdbscan/core_graph.py:1-60"]}
{"id": "C112", "title": "Raising cluster_selection_epsilon divides no cluster", "statement": "Fit twice with the same options except for a larger cluster_selection_epsilon the second time. If two rows share a cluster the first time and one of them is in a cluster the second time, the other is in that same cluster.", "quantifier": "all data sets with and without missing values, spanning trees, sample weights, options, and pairs of epsilon values", "why_tests_cant": "a statement about two runs for all data sets and all pairs of thresholds; tests fit with one or two values and look at the number of clusters", "anchors": ["fast_hdbscan/cluster_trees.py:834-903", "fast_hdbscan/cluster_trees.py:975-994", "fast_hdbscan/hdbscan.py:560-565"]}
{"id": "C113", "title": "Raising cluster_selection_persistence divides no cluster", "statement": "Fit twice with the same options except for a larger cluster_selection_persistence the second time. Rows that share a cluster the first time get the same label the second time, that of a cluster or noise; each cluster of the second fit contains a whole cluster of the first.", "quantifier": "all data sets with and without missing values, spanning trees, sample weights, and pairs of persistence thresholds", "why_tests_cant": "a statement about two runs for all data sets and all pairs of thresholds; the simplification changes lambdas and renumbers clusters, so that two results are not comparable entry by entry", "anchors": ["fast_hdbscan/cluster_trees.py:774-831", "fast_hdbscan/cluster_trees.py:370-380", "fast_hdbscan/hdbscan.py:529-565"]}
{"id": "C114", "title": "Clusters are at least cluster_selection_epsilon apart", "statement": "A row in a cluster and a row outside it, in another cluster or noise, are at least cluster_selection_epsilon apart in the mutual reachability distance; so a cluster contains with a row every row that can be reached by steps shorter than epsilon.", "quantifier": "all data sets with and without missing values, distances, minimum spanning trees, sample weights, selection methods, size limits and values of epsilon", "why_tests_cant": "the distance between clusters is not visible in the labels, and epsilon acts on lambdas of cluster births in one place and of samples in another; a test sees a few data sets, in which distances rarely lie near epsilon", "anchors": ["fast_hdbscan/cluster_trees.py:834-903", "fast_hdbscan/cluster_trees.py:944-997", "fast_hdbscan/hdbscan.py:560-569"]}
{"id": "C115", "title": "The leaf clusters are exactly the dense groups without sub-groups", "statement": "With cluster_selection_method leaf, join the rows by the edges of the minimum spanning tree from the shortest: a set of rows is a cluster if and only if it is one of two parts of at least min_cluster_size that an edge joins, and no edge inside it has joined two such parts; if the edges have different lengths, the clusters can be read off the distances alone.", "quantifier": "all data sets, distances, minimum spanning trees, sample weights and values of min_cluster_size", "why_tests_cant": "an exact description needs both directions, no cluster missed and none invented, for every data set; a test compares a few results with expected labels", "anchors": ["fast_hdbscan/cluster_trees.py:65-352", "fast_hdbscan/cluster_trees.py:355-380", "fast_hdbscan/cluster_trees.py:944-997"]}
{"id": "C116", "title": "Clusters inside a separated group do not depend on the rest of the data", "statement": "A group of rows is joined by steps of at most some distance, and all other rows are farther away from it. With cluster_selection_method leaf, the clusters strictly inside the group are the same in every data set in which the group occurs with the same mutual reachability distances; so rows outside can be added, removed, moved or reordered.", "quantifier": "all pairs of data sets, groups, distances, minimum spanning trees, sample weights and values of min_cluster_size", "why_tests_cant": "two data sets and all their rows have to be compared; a test tries a few pairs, and with the excess of mass method the property is false, which looks much the same in small examples", "anchors": ["fast_hdbscan/cluster_trees.py:65-352", "fast_hdbscan/cluster_trees.py:355-380", "fast_hdbscan/cluster_trees.py:944-997"]}
{"id": "C117", "title": "A sample weight counts as that many copies of the row", "statement": "Fit once with whole-numbered sample_weights, and once without but with every row repeated as often as its weight says, so that the distances between different rows are the same. Two copies share a cluster if and only if their rows do, and a copy is noise if and only if its row is.", "quantifier": "all data sets, distances, minimum spanning trees, weights and values of min_cluster_size", "why_tests_cant": "two data sets of different size have to be compared, for every choice of weights; the existing tests use weights only to see that the code runs", "anchors": ["fast_hdbscan/cluster_trees.py:98-127", "fast_hdbscan/cluster_trees.py:206-352", "fast_hdbscan/cluster_trees.py:355-380"]}
{"id": "C118", "title": "There are at most n / min_cluster_size clusters", "statement": "The number of clusters times min_cluster_size is at most the number of rows without missing values, or their total weight if sample weights are given.", "quantifier": "all data sets, distances, weights, selection methods, epsilons and size limits", "why_tests_cant": "the limit must hold for every data set, and clusters lose rows in several steps of the code (condensing, selection, simplification), each of which could leave a cluster too small", "anchors": ["fast_hdbscan/cluster_trees.py:206-352", "fast_hdbscan/cluster_trees.py:597-645", "fast_hdbscan/hdbscan.py:299-463"]}
{"id": "C119", "title": "Leaving out noise does not change which clustered rows belong together", "statement": "If rows that were labelled noise are removed from the data and the rest is clustered again with the leaf method, two rows that were in one cluster are in one cluster again, and two rows that were in different clusters are not put together.", "quantifier": "all data sets, all distances, and all sets of noise rows that are removed", "why_tests_cant": "one run says nothing about the run without the noise: the tree is built again, the joins happen at other distances and between other rows, and a removed row may be the one over which two parts were joined", "anchors": ["fast_hdbscan/cluster_trees.py:206-352", "fast_hdbscan/cluster_trees.py:597-645", "fast_hdbscan/kruskal.py:880-960"]}
{"id": "C120", "title": "Small errors in the distances do not change the leaf clusters", "statement": "If two data sets have the same rows up to errors of at most delta in the distances (rounding to single precision, for example), and the lengths of the edges of the minimum spanning tree differ by more than 2 delta, the leaf clusters of both are the same sets of rows.", "quantifier": "all data sets, all errors up to delta in all distances, all min_samples and min_cluster_size", "why_tests_cant": "the errors are arbitrary and change the order in which edges are processed, the core distances and the spanning tree; no finite set of perturbed inputs covers them", "anchors": ["fast_hdbscan/kruskal.py:881-960", "fast_hdbscan/cluster_trees.py:206-352", "fast_hdbscan/cluster_trees.py:597-645"]}
{"id": "C121", "title": "Small errors in the distances do not change dbscan_clustering away from edge lengths", "statement": "If two data sets have the same rows up to errors of at most delta in the distances, and no edge of the minimum spanning tree of the first has a length within delta of eps, dbscan_clustering(eps) gives the same noise and the same clusters for both.", "quantifier": "all data sets, all errors up to delta in all distances, all min_samples, sizes and eps, all ties", "why_tests_cant": "the errors are arbitrary and change the core distances and the spanning tree; no finite set of perturbed inputs covers them", "anchors": ["fast_hdbscan/cluster_trees.py:get_cluster_labelling_at_cut", "fast_hdbscan/hdbscan.py:HDBSCAN.dbscan_clustering", "fast_hdbscan/kruskal.py:_kruskal_mst_from_feature_matrix_brute"]}
{"id": "C122", "title": "More data, a smaller min_samples or a larger eps never divide a cluster of dbscan_clustering", "statement": "If rows are added, distances shrink, min_samples or the minimum size get smaller or eps gets larger, then every row that dbscan_clustering labelled is still labelled, and rows that shared a label still do.", "quantifier": "all data sets and all denser ones, all pairs of min_samples, sizes and eps in that order", "why_tests_cant": "relates two runs on different data with different core distances and different spanning trees; the added rows are arbitrary", "anchors": ["fast_hdbscan/cluster_trees.py:get_cluster_labelling_at_cut", "fast_hdbscan/hdbscan.py:HDBSCAN.dbscan_clustering", "fast_hdbscan/kruskal.py:_kruskal_mst_from_feature_matrix_brute"]}
{"id": "C123", "title": "Leaving out noise does not change dbscan_clustering", "statement": "If some or all of the rows that dbscan_clustering(eps) calls noise are left out, the remaining rows get the same noise and the same clusters.", "quantifier": "all data sets, all sets of noise rows, all eps and sizes", "why_tests_cant": "relates runs on two data sets; the set of rows left out is arbitrary, and the spanning trees differ", "anchors": ["fast_hdbscan/cluster_trees.py:get_cluster_labelling_at_cut", "fast_hdbscan/hdbscan.py:HDBSCAN.dbscan_clustering", "fast_hdbscan/kruskal.py:_kruskal_mst_from_feature_matrix_brute"]}
{"id": "C124", "title": "dbscan_clustering does not depend on the order of the rows or on the algorithm", "statement": "For the same rows in another order, and with either algorithm, dbscan_clustering(eps) gives the same noise and the same clusters, whatever ties there are; only the numbers of the clusters can differ.", "quantifier": "all data sets, all permutations, all minimum spanning trees, all eps and sizes", "why_tests_cant": "ties make spanning trees, linkage trees and representatives differ from run to run; there are factorially many orders and schedules", "anchors": ["fast_hdbscan/cluster_trees.py:get_cluster_labelling_at_cut", "fast_hdbscan/hdbscan.py:HDBSCAN.dbscan_clustering", "fast_hdbscan/kruskal.py:_kruskal_mst_from_feature_matrix_brute", "fast_hdbscan/boruvka.py:parallel_boruvka"]}
{"id": "C125", "title": "Identical rows get the same label from dbscan_clustering", "statement": "Rows with the same distances to all rows get the same label from dbscan_clustering(eps), or are both noise, for every min_samples and eps > 0.", "quantifier": "all data sets with any number of copies of any rows, all min_samples, sizes and eps, all minimum spanning trees", "why_tests_cant": "copies create ties, so that the spanning tree, and with fit the label of a copy, depends on the order in which edges are processed", "anchors": ["fast_hdbscan/cluster_trees.py:get_cluster_labelling_at_cut", "fast_hdbscan/hdbscan.py:HDBSCAN.dbscan_clustering", "fast_hdbscan/kruskal.py:_kruskal_mst_from_feature_matrix_brute"]}
{"id": "C126", "title": "dbscan_clustering of a separated group does not depend on the rest of the data", "statement": "If all other rows are at least eps away from the rows of a group, dbscan_clustering(eps) finds the same noise and the same clusters in the group as for the group alone.", "quantifier": "all data sets, all groups separated by eps, all min_samples and sizes", "why_tests_cant": "relates runs on two data sets; the rest of the data is arbitrary", "anchors": ["fast_hdbscan/cluster_trees.py:get_cluster_labelling_at_cut", "fast_hdbscan/hdbscan.py:HDBSCAN.dbscan_clustering", "fast_hdbscan/kruskal.py:_kruskal_mst_from_feature_matrix_brute"]}
{"id": "C127", "title": "dbscan_clustering counts sample weights", "statement": "After a fit with sample weights, the minimum size of dbscan_clustering(eps) refers to total weight, as it does for fit: a row of weight k counts as k copies.", "quantifier": "all spanning trees, all weights, all eps and sizes", "why_tests_cant": "the weights are arbitrary; whether they reach the result is a statement about all of them", "anchors": ["fast_hdbscan/cluster_trees.py:get_cluster_labelling_at_cut", "fast_hdbscan/hdbscan.py:HDBSCAN.dbscan_clustering", "fast_hdbscan/cluster_trees.py:mst_to_linkage_tree_w_sample_weights"]}
