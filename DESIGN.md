# Formal model of fast_hdbscan: design

The object of study is `/repo/fast_hdbscan` (Python/numba) at the pinned commit. The model is written in
Lean 4.33.0 with Mathlib under `lean/Verif`. Nothing in `/repo` is run; it is read as text.

## Trusted base

* Lean's kernel. The only axioms property theorems depend on are `propext`, `Classical.choice` and `Quot.sound`
  (audited at every commit with `#print axioms`, and by `vcheck`). There are no own axioms, no `sorry`,
  no `native_decide`, no `bv_decide`. Concrete witnesses are evaluated by the kernel (`decide +kernel`).
* The hand translation of the Python code into Lean definitions. Every definition cites the file and lines it models
  and says where it simplifies.
* The conventions below.

## Conventions of the model

* **Numbers.** Weights and distances are elements of an arbitrary linear order (spanning tree part), of a linear order with a
  top element (`⊤` is `+inf`), or of an ordered field where the code divides. Every finite IEEE double is a rational, so code
  that only compares weights is modelled exactly. Arithmetic (sums of stabilities, lambdas, strengths, B-cubed scores) is
  exact instead of rounded, with these exceptions: the excess-of-mass and the B-cubed recursions are also treated with
  arbitrary score operations (C21, C55), KD-tree distances with any monotone rounding (C37), the sparse Borůvka routine with
  any rounding function (C43). NaN is excluded unless a theorem mentions it (C45).
* **`fastmath`.** Several numba functions are compiled with `fastmath=True`, which allows the compiler to assume that there
  are no infinities. The code relies on infinities all the same (bridge edges). The model takes the source at face value.
* **Lambda.** `lam` is any antitone function; `hdbscan_lambda_value` and `plscan_lambda_value` are shown to be antitone
  (C18). In the pipeline model lambda `+inf` (distance 0) is represented by a number larger than all others; strengths are
  computed with `WithTop`, where infinite lambdas are literal (C28). C104 treats the pipeline with literal infinite lambdas and any
  arithmetic on scores.
* **Arrays** are total functions `ℕ → α` with point updates, or lists. Theorems carry the bounds
  ("all endpoints are `< n`") that make all accesses in range; where the code really goes out of range (negative
  index wrap-around, empty arrays) the model represents this explicitly and a theorem states it.
* **Loops.** `while` loops and recursions are recursion with fuel. The theorems show what the result is, so the fuel
  given is never what stops the computation; where a loop can really run for ever this is a theorem (C56).
* **Sorting.** `argsort` and `lexsort` are stable insertion sorts. Where numpy's order of equal keys is not
  specified, theorems either do not depend on it or quantify over it (C13, C33, C52).
* **Exceptions** are values (`Except`, `Option`).
* **Parallel loops** are modelled sequentially only if iterations write to disjoint locations; otherwise
  the model quantifies over all values a racy read may return (C34–C36), or over all interleavings (C11).
* **Integers** are unbounded unless a claim is about widths (64-bit masks are `BitVec 64`, heap indices naturals reduced modulo 65536 on assignment).
* **Cluster rows.** The code tells clusters from samples by `child_size > 1`. Selection theorems assume that this test is right, which
  holds for `min_cluster_size > 1`; sample rows always have `child_size` 1.
* **Sample weights** are elements of an ordered field, not negative. `child_size` in the condensed tree is not
  truncated to an integer.

## Layout

`Verif/Spec/*` small independent specifications; `Verif/Model/*` the model; `Verif/Lemmas/*` helper proofs;
`Verif/Props/*` the property theorems with their satisfiability examples. `seeded/LOG.jsonl` is the record of mutation
tests: each line is one realistic bug put into a scratch copy of the model, and the theorems that no longer hold.

## What is modelled

The table is generated by `tools/coverage.py` from the line ranges cited in `Verif/Model`. A citation says that a definition models
these lines, with the simplifications named in its comment; it does not say that a theorem is about all of them.

<!-- coverage -->
| file | cited by the model | cited in part | not modelled |
|---|---|---|---|
| `boruvka.py` | `merge_components`, `update_component_vectors`, `component_aware_query_recursion`, `boruvka_tree_query`, `calculate_block_size`, `update_component_bounds_from_block`, `boruvka_tree_query_reproducible`, `initialize_boruvka_from_knn`, `sample_weight_core_distance`, `parallel_boruvka` |  | `select_components` |
| `branches.py` | `compute_centrality`, `apply_branch_threshold`, `find_branch_sub_clusters`, `BranchDetector.fit`, `BranchDetector.propagated_labels` |  | `BranchDetector.__init__`, `BranchDetector.approximation_graph_` |
| `cluster_trees.py` | `create_linkage_merge_data`, `create_linkage_merge_data_w_sample_weights`, `linkage_merge_find`, `linkage_merge_join`, `mst_to_linkage_tree_w_sample_weights`, `bfs_from_hierarchy`, `eliminate_branch`, `hdbscan_lambda_value`, `plscan_lambda_value`, `condense_tree`, `extract_leaves`, `cluster_tree_leaves`, `cluster_tree_from_condensed_tree_bcubed`, `get_condensed_tree_clusters_bcubed`, `eom_recursion_bcubed`, `score_condensed_tree_nodes_bcubed`, `unselect_below_node_bcubed`, `extract_clusters_bcubed`, `score_condensed_tree_nodes`, `cluster_tree_from_condensed_tree`, `mask_condensed_tree`, `unselect_below_node`, `eom_recursion`, `extract_eom_clusters`, `simplify_hierarchy`, `cluster_epsilon_search`, `traverse_upwards`, `segments_in_branch`, `get_cluster_labelling_at_cut`, `get_cluster_label_vector`, `max_lambdas`, `get_point_membership_strength_vector` | `mst_to_linkage_tree` (15/19 lines) | `empty_condensed_tree` |
| `core_graph.py` | `update_point_components`, `knn_mst_union`, `flatten_to_csr`, `sort_by_lens`, `apply_lens`, `select_components`, `merge_components`, `update_graph_components`, `boruvka_mst`, `core_graph_clusters`, `core_graph_to_rec_array`, `core_graph_to_edge_list` | `core_graph_spanning_tree` (3/4 lines) |  |
| `disjoint_set.py` | `ds_rank_create`, `ds_size_create`, `ds_find`, `ds_union_by_rank`, `ds_union_by_size` |  |  |
| `hdbscan.py` | `_check_sample_weight`, `remap_condensed_tree`, `remap_single_linkage_tree`, `fast_hdbscan`, `compute_minimum_spanning_tree`, `clusters_from_spanning_tree`, `HDBSCAN.dbscan_clustering`, `PLSCAN.__init__`, `PLSCAN._validate_params`, `PLSCAN.fit_predict`, `PLSCAN.fit` | `HDBSCAN.fit` (85/93 lines) | `to_numpy_rec_array`, `HDBSCAN.__init__`, `HDBSCAN.condensed_tree_`, `HDBSCAN.single_linkage_tree_`, `HDBSCAN.minimum_spanning_tree_` |
| `kruskal.py` | `_kruskal_core`, `_get_component_labels_jit`, `_kruskal_core_constrained`, `_kruskal_core_group_constrained`, `_compute_mrd_csr_flat`, `_build_mrd_edges_knn`, `_validate_cannot_link`, `_validate_cannot_link_groups`, `_resolve_cl_params`, `_run_kruskal_core`, `_finish_mst`, `kruskal_mst_from_csr`, `kruskal_mst_from_feature_matrix`, `_kruskal_mst_brute`, `_kruskal_mst_knn` |  |  |
| `layer_clusters.py` | `find_peaks`, `_binary_search_for_n_clusters`, `binary_search_for_n_clusters`, `min_cluster_size_barcode`, `compute_total_persistence`, `extract_clusters_by_id`, `jaccard_similarity`, `estimate_cluster_similarity`, `select_diverse_peaks`, `build_cluster_layers`, `_build_cluster_tree`, `build_layer_cluster_tree` |  |  |
| `nndescent.py` | `compute_mst_from_knn_graph`, `_kruskal_mst_from_knn` | `build_knn_graph` (3/14 lines), `_knn_graph_to_sparse` (1/11 lines) | `_check_pynndescent_available`, `try_connect_knn_graph` |
| `numba_kdtree.py` | `_init_node`, `_find_node_split_dim`, `_compare_indices`, `_insertion_sort_indices`, `_sift_down_indices`, `_heapsort_indices`, `_median_of_three_pivot`, `_partition_indices`, `_introselect_impl`, `_introselect`, `_recursive_build_tree`, `rdist`, `point_to_node_lower_bound_rdist`, `simple_heap_push`, `siftdown`, `tree_query_recursion`, `parallel_tree_query` | `build_kdtree` (30/32 lines), `deheap_sort` (4/6 lines) | `kdtree_to_numba` |
| `precomputed.py` | `validate_precomputed_sparse_graph`, `_symmetrize_min_csr`, `_build_core_graph_csr`, `bridge_forest_with_inf`, `unbridge_mst`, `compute_mst_from_precomputed_sparse`, `compute_mst_from_precomputed_sparse_kruskal` | `_core_distances_csr` (20/23 lines), `_patch_mst_weights` (11/13 lines) |  |
| `sub_clusters.py` | `compute_sub_clusters_in_cluster`, `compute_sub_clusters_per_cluster`, `update_labels`, `propagate_labels_per_cluster`, `propagate_sub_cluster_labels`, `remap_results`, `find_sub_clusters`, `SubClusterDetector.__init__`, `SubClusterDetector.fit`, `SubClusterDetector.propagated_labels` | `SubClusterDetector._make_approximation_graph` (6/23 lines) | `SubClusterDetector.approximation_graph_`, `SubClusterDetector.condensed_trees_`, `SubClusterDetector.linkage_trees_`, `SubClusterDetector.spanning_trees_` |
<!-- /coverage -->

Notes on the table:

* `boruvka.py:select_components` is never called (`merge_components` does this work itself).
* Sub-clusters: `find_sub_clusters` and the detectors are modelled without reconstruction of lens values and `_check_sample_weight`; lens values are a
  parameter, and for `BranchDetector` come from `compute_centrality` with any norm. The plotting objects around the results are not modelled.
* Layers: `build_cluster_layers` and `PLSCAN` are modelled from the spanning tree and the core distances on, which are parameters (`compute_minimum_spanning_tree` is modelled by itself); `validate_data` and `_check_sample_weight` are not; `min_cluster_sizes_` and `total_persistence_` are not kept in the result.
* `nndescent.py`: what pynndescent returns is a parameter (any rows); `try_connect_knn_graph` and `_knn_graph_to_sparse` have no caller in the package and are
  not modelled. C44 is about the decision to go there.
* Not modelled anywhere: float32 rounding except where a theorem names it, scipy format conversions, scikit-learn input
  conversion, plotting objects.

## Properties

Status, theorem names and remaining gaps are in `MANIFEST.json`; "refuted" means that a kernel-checked
witness shows that the code does not have the property as stated, and the `_partial` theorem says where it does.

| id | model | how it is proved |
|----|-------|------------------|
| C01, C02 | `_kruskal_core` with its own DSU | invariant over the edge loop relating the DSU to connectivity of accepted edges; threshold connectivity; counting argument for minimal total weight |
| C03–C06 | the three Kruskal cores with linked-list pool and bit masks | all three refine one abstract greedy process; its invariants give the claims; determinism gives C05, C06 |
| C07 | `_validate_cannot_link` | refuted by matrices with cancelling or overflowing entries; proved for entries that do not cancel |
| C08, C09 | bridging and unbridging | connectivity algebra; C09 refuted by a concrete tree |
| C10, C11 | `disjoint_set.py` | invariant over arbitrary operation lists; rank bound; interleaving semantics for concurrent finds |
| C12 | linkage tree construction | invariant over rows: partition into components, representative, size |
| C13 | lexsort in `clusters_from_spanning_tree` | uniqueness of sorted permutations |
| C14, C15 | cut labelling | composition of C02, C12 and DSU correctness |
| C16–C19 | `condense_tree` | invariants over the breadth-first loop; C16 refuted for heavy samples, proved otherwise |
| C20–C24 | selection | induction on cluster trees; optimality by exchange; C22 refuted without a split, C23 for the top cluster and in semi-supervised mode |
| C25 | epsilon search | loop invariant; refuted by a concrete tree, proved when the branch walk meets no outside splitting cluster |
| C26–C28 | labels and strengths | DSU correctness over condensed rows; C26, C27 refuted on concrete trees, proved under explicit hypotheses |
| C29, C30 | whole pipeline from spanning tree to labels | the selected clusters contain no split at lambda 0; refuted with simplification and in semi-supervised mode |
| C31, C32 | `fit` with index remapping | list and index reasoning; refuted for one and two finite rows |
| C33 | `core_graph.boruvka_mst` | round invariant with pending components, any tie order; refuted for empty rows |
| C34–C36 | tree-based Borůvka with racy bounds | threads are programs over a shared slot, reads return any earlier value; cut property per round; C36 refuted by two schedules |
| C37, C38, C56, C58, C59 | KD-tree, heaps, introselect | heap invariants, pruning soundness, partition invariants; C56 refuted for 32769 entries |
| C39, C40, C60 | corner cases and the brute-force routine | refuted by concrete inputs; proved on the stated domain |
| C41–C43 | precomputed graphs | list reasoning; composition with C02 and C33 |
| C44, C45 | dispatch and validation | decision logic; refuted for metrics that go to the approximate path and for NaN |
| C46–C50 | sub-clusters and branches | offset invariants; each refuted on a corner case |
| C51–C53 | layers | list induction; C53 refuted for label gaps |
| C54, C61 | simplification | fixpoint description of the reverse loop, then an explicit description of the output; refuted without a split |
| C55, C62 | semi-supervised selection | ranked trees; optimality by exchange over lexicographic pairs |
| C57 | `allow_single_cluster` | from C22; refuted when nothing splits |
| C63 | `clusters_from_spanning_tree` | composition of all of the above; for all options the only failures are the two raised ones (`C63_fails_iff`), and `C63_returned` holds whenever it returns; the walk of the epsilon search always misses a leaf in another branch, so no single cluster remains |
| C64 | `condense_tree`, `extract_leaves` | invariant of the condensed tree (`CondRes`): cluster ids are in bijection with the two sides of each large merge |
| C65 | `_binary_search_for_n_clusters` | loop invariant of the bisection with C64 monotonicity; labelling total by C63 lemmas |
| C66 | `min_cluster_size_barcode`, the clusters of a layer | the rows of clusters come in consecutive pairs; invariant of the loop from the end over these pairs; births by induction over descendants |
| C67 | the same, `condense_tree` for two sizes | the clusters alive and the leaves of the other tree are the same nodes of the dendrogram |
| C68 | `compute_total_persistence` | index ranges in a sorted list; induction over the clusters |
| C69 | `build_cluster_layers` from the linkage tree on | composition of C51, C52, C63 lemmas, C65 to C68 |
| C70 | `knn_mst_union`, `flatten_to_csr`, `sort_by_lens`, `apply_lens`, edge lists | dictionary and prefix-sum lemmas, induction over the tree edges |
| C71 | `core_graph_spanning_tree` | round invariant for graphs stored in one direction; C33 for symmetric ones; three counterexamples |
| C72 | `core_graph_clusters` | C71, C63; the renumbering loop by induction over the unique labels |
| C73 | the restriction to a cluster in `compute_sub_clusters_in_cluster` | positions in the ascending list of samples; refuted for index -1 |
| C74 | `clusters_from_spanning_tree` and the restriction | C17 (clusters are components), C54 (simplification keeps sample sets), C63, C73; refuted for the top cluster |
| C75 | `clusters_from_spanning_tree` | clusters are descendants in the condensed tree (C74), their weights by C17; labels in use through C63's meaning of labels; refuted for the top cluster and infinite edges |
| C76 | the checks of `find_sub_clusters` | decision logic against an ordered list of conditions |
| C77 | `finite_index` in `find_sub_clusters`, `remap_results` | binary search over the rows of C31/C32; refuted for infinite distances |
| C78 | `find_sub_clusters` after its checks, without propagation | composition of C73 (restriction), C72 (core graph), C75 (labels without gaps), C46 (relabelling), C77 (rows); refuted for some given labels |
| C79 | `_build_mrd_edges_knn`, `_kruskal_mst_knn`, `kruskal_mst_from_feature_matrix`, `compute_mst_from_knn_graph` | the edge list is the graph of neighbours (membership), then C02, C03 and bridging |
| C80 | the same with the rows that the k-d tree query returns (C33), padded | counting: a row with room for all samples within a distance contains them; equal samples get equal rows, so a dropped first entry leaves the edge of the other side |
| C81 | `sample_weight_core_distance` on the rows of the query | induction on the scan; sums over the samples in and outside the row; refuted for few neighbours |
| C82 | `dbscan_clustering` on the result of `fit` (C31, C32) | the cut ignores the infinite rows; connectivity under injective renaming of the nodes; no need that the stored tree is a tree |
| C83 | the same on the Kruskal tree, for distances alone | C14 and C60; a core distance is below `eps` exactly for core samples (counting in a sorted row); refuted as DBSCAN\* |
| C84 | `PLSCAN`: parameters, input checks, `build_cluster_layers` from the spanning tree on, choice of the layer | C12, C69, first maximum of a fold; refuted for `base_min_cluster_size = 1`; with `base_n_clusters`, each label of the layer found has at least two samples because each leaf of the condensed tree has (C17) |
| C85 | the shift and scaling of weights by core distances | field arithmetic; minimum below mean; refuted for equal core distances |
| C86 | `cluster_tree_` and `labels_` of `PLSCAN` | C53 composed with C69: no gaps because every selected cluster has samples (C17, lambda of finite edges not 0); refuted for infinite edges |
| C87 | `SubClusterDetector.fit`, `BranchDetector.fit` with `apply_branch_threshold` | C78 for the labels, C49 for the threshold, C47 for propagation; refuted for infinite lens values and for propagated labels of a cluster that does not split |
| C88 | `propagated_labels` of both detectors | the loop over kept rows and the loop over all rows are related by the injective row map; running ids agree by induction |
| C89 | `approximation_graph_` | membership in the rows of the core graph (C70, C72) carried through the two renumberings |
| C90 | `compute_centrality` with `np.average` | centroid characterised by balance, which determines it; linear maps and translations preserve balance; composed with C87 |
| C91 | `clusters_from_spanning_tree`, `plscanFit` from the spanning tree on | all minimum spanning trees connect the same samples at every length; two linkage loops are related by a simulation on union-find representatives; refuted for equally long edges |
| C92 | `kruskalBrute`, `TreeBoruvka`, `clusters_from_spanning_tree` | complete graphs with permuted distances connect corresponding samples at every length; every later function is shown to commute with renaming samples (renaming swaps the children of a merge only if both are samples, so clusters keep their numbers); refuted for equally long edges; for the leaf method with ties (Props/LeafTies.lean) through the exact description of C115, which does not mention the tree: small ties never join two heavy parts (`SmallTies.untied`) |
| C93 | `kruskalBrute`, `TreeBoruvka`, `clusters_from_spanning_tree` | every function is shown to commute with changing the lengths (`Edge.mapW`, `LRow.mapD`) or lambdas (`CRow.mapLam`); scores are linear in the lambdas, strengths are quotients; lambda of distance zero is a number that is scaled too |
| C94 | `clusters_from_spanning_tree`, `get_cluster_labelling_at_cut` | a label in use marks a component of the tree edges up to some length (`label_component`, from C17, C63 and the lambdas of samples at infinite distance); then the shortest edge leaving it is the epsilon, by C14; counts by C75; refuted with ties |
| C95 | `clusters_from_spanning_tree` run twice | both runs share the condensed tree; leaves are covered by exactly one excess-of-mass cluster (C24), labels by C63; for the top cluster, samples of a leaf leave after the top cluster splits; refuted with an epsilon |
| C96 | selection and epsilon search in `clusters_from_spanning_tree` | the top cluster is never selected before the epsilon search; C25 says when the search ends there; refuted with an epsilon |
| C97 | `fit` from rows to labels, with Kruskal or Borůvka | C60 / C35 give the minimum spanning tree, C63 labels, C74/C94 the components, C31 the rows; the specification speaks of rows and distances only (`Spec/RawFit.lean`) |
| C98 | `_min_spanning_tree` as stored by `fit` | edges of C60 traced back through `finite_index`; refuted with a missing value in an earlier row |
| C99 | neighbour lists of `_kruskal_mst_brute` | relation over all results of `argpartition` / `argsort`; the sorted partition is a prefix of all sorted distances; refuted for duplicate rows |
| C100 | `_check_sample_weight` and the path of the weights through `fit` | case analysis; exact characterisation; refuted for negative weights and a scalar NaN |
| C101 | label checks of `fit` | case analysis; exact characterisation; refuted for labels below -1 and labels of dropped rows |
| C102 | `clusters_from_spanning_tree` and `fit` with `semi_supervised=True` | selection up to the epsilon search on simplified trees, then the arguments of C63, C74, C75, C97, stated once for any selection; refuted for weights above 1 |
| C103 | `fit` on data with identical rows | brute force Kruskal joins copies in stars around the first of them (stable sort), so the linkage adds them one at a time and they leave their cluster at the same lambda; refuted with core distances and for other trees |
| C104 | `clusters_from_spanning_tree` and `fit` with infinite lambdas and unspecified operations on scores (Model/AnyScores.lean) | a number above all finite lambdas in place of infinity changes no comparison, so everything after the scores is that of C63, C74 and C75; the selection by induction over the tree for any scores; exact arithmetic gives back the other model |
| C105 | `PLSCAN.fit` from the spanning tree on (Model/Plscan.lean), rows and distances as in C97 | shifting and scaling weights keeps their order, so each cluster of the condensed tree is a component of the edges before some edge of the given tree, which the minimum spanning tree property turns into a statement on all distances; sizes from C69 |
| C106 | the pipelines of C63, C104, C97 | a group at distance tau is a component of the first edges of the sorted tree, hence a node of the linkage table; two of them are joined by a large merge; every large node contains a leaf of the condensed tree or is inside one; every leaf is below a selected cluster; with the top cluster selected, a group is comparable with every node of the top cluster |
| C107 | `PLSCAN.fit` from the spanning tree on | layers are the leaves for different minimum sizes; a leaf for a larger size is not strictly inside a leaf for a smaller one, and if a larger size gives as many leaves they are the same; refuted for infinite edges |
| C108 | `clustersFromMst` twice on one spanning tree | clusters are the leaf nodes of the linkage table, cut down to large components of the edges of positive lambda; a leaf for the larger size is not strictly inside one for the smaller, and contains one; refuted for excess of mass |
| C109 | `preKruskal`, `preBoruvka` against `kruskalBrute` | the row of the CSR matrix is a permutation of the row of the distances, so the core distances agree; the CSR edge list holds each edge in both directions, and the second copy never joins anything, so the greedy scan in stable order keeps the same edges; Borůvka through the uniqueness of the dendrogram (C91) |
| C110 | `clustersFromMst` of a tree and of the tree with one more edge; `kruskalBrute` | the linkage loops run in step, with cluster numbers shifted by one (`mstToLinkage_add`); so do the condensing loops, after the new root has been dealt with (`condense_add`); scores, leaves, the epsilon search and labels follow by induction; a minimum spanning tree of the larger graph has exactly one edge at the new sample |
| C111 | `runDetector`, `FitResult.clusterer`, `subInputs`, `subOptions`, `arrayLens` on `fitModel` | what `fit` stores meets `SubInput` (`fit_subInput`): labels are dense and used twice by C63 and C75, the finite rows are recovered by C77; then C78 for all rows; lens values are followed from row to sample of a cluster (`arrayLens_row`); links to the nearest neighbour come from the soundness of the clustering (C97) |
| C112 | `epsilonSearch`, `clustersFromMst`, `fitModel` | both runs share tree and first selection (`selection_stages`); a cluster selected for the larger epsilon covers or is disjoint from each one selected for the smaller (`CondTree.epsilon_raise`, from the specification of the climb); labels follow cluster membership (C63, C75); rows with missing values by `nonfinite_rows` |
| C113 | `simplifyHierarchy`, `leafSelection`, `clustersFromMst`, `fitModel` | by C54 a cluster remains exactly if it and its sibling persist, so a larger threshold keeps fewer of the clusters of one and the same tree (`keptView`); a leaf of one simplified tree lies in or apart from each cluster kept by both; rows with missing values by `fit_two_runs` |
| C114 | `epsilonSearch`, `labelVector`, `clustersFromMst`, `fitModel`, `kruskalRows` | after a search no cluster is born closer than epsilon (C25), and a cluster is a component of the tree edges before the one at its birth (C17); for the whole data set and a lone cluster, samples joined before the edge at which one leaves leave with it (`leave_together`); from tree to graph by minimality at every threshold |
| C115 | `mstToLinkage`, `condenseTree`, `extractLeaves`, `labelVector`, `clustersFromMst` | the specification `Spec/LeafExact.lean` only adds edges one by one; a node of the linkage is split by the condensing exactly if its edge joins two heavy parts (`split_iff_join`), so the leaves are the parts without a split inside (`leafNode_iff`); to distances by minimality at every threshold (`leafPart_iff_group`). With equal edges the description by distances is not exact: a row equally far from two groups is put to the one whose edge comes first |
| C116 | `clustersFromMst` and what it calls | from the exact description of C115: whether a set inside the group is a leaf group depends on edges inside the group only (`SameInside.leafGroup_iff`), because short edges do not lead out of it |
| C117 | `mstToLinkage`, `condenseTree`, `clustersFromMst` with weights and without | from the exact description of C115 on both sides: a row joined with another is joined through all its copies (`Copies.up_all`), a row alone is light either way (`heavy_other`), so heavy parts, and with them leaf groups, correspond (`Copies.leafGroup`, `Copies.leafGroup_inv`) |
| C118 | `clustersFromMst`, `fitModel` | every label that is used marks at least `min_cluster_size` (C75, C97), and different labels mark different rows (`labels_number`, `sound_number`) |
| C119 | `clustersFromMst`, `kruskalBrute` | both runs give the leaf groups of their distances (C115). Below the length of a leaf group its rows are joined in the same way in both data sets (`Kept.leaf_conn`). The other side of its first join holds a leaf group too (`leaf_inside`, induction over the number of shorter edges), which is kept, so the group is joined with a heavy part in the new data and grows to a leaf group there (`Kept.leaf`); two leaf groups are never united (`Kept.leaf_apart`) |
| C120 | `clustersFromMst`, `kruskalBrute`, `bruteCore` | leaf groups depend only on the sequence of partitions into components (`leafGroup_iff`, `SameParts.leafGroup`). With edges more than 2 delta apart every partition of the first graph is one of the second (`parts_at`), and since neighbouring partitions of the first differ by one join, the second has no others (`parts_same`) and its tree has no ties (`parts_distinct`). Core distances inherit the error bound (`bruteCore_close`) |
| C121 | `cutLabels`, `kruskalBrute`, `bruteCore` | C14 gives DBSCAN* of each graph at eps; the components below eps are equal (`below_close`): tree edges below eps stay below it, and what is connected below eps with errors is connected below eps + delta without, where the tree has no further edges. `C121_near`: without the gap a row can change between noise and a cluster |
| C122 | `cutLabels`, `kruskalBrute`, `bruteCore` | C14 for both runs; core distances do not grow (`bruteCore_denser`, by counting the rows closer than eps), so a path below eps in the sparse data is one in the dense data (`conn_denser`), and components can only grow. `C122_fit_row`, `C122_fit_min_samples`: not so for the labels of fit |
| C123 | `cutLabels`, `kruskalBrute` | C14 for both runs; a component with a clustered row has no noise, so none of its rows is left out and it stays connected (`kept_back`); components of noise only get smaller (`kept_conn`) |
| C124 | `cutLabels`, `kruskalBrute`, `TreeBoruvka` | each order of the rows is denser than the other in the sense of C122, so C122 holds in both directions; the runs of Boruvka come in through C35. No condition on ties, unlike C91 and C92 |
| C125 | `cutLabels`, `kruskalBrute`, `bruteCore` | copies have equal core distances; a row that is connected to any other below eps has its core distance below eps, and so is connected to its copies (`copy_conn`); then C14 |
| C126 | `cutLabels`, `kruskalBrute`, `bruteCore` | the whole data set is denser than the group (C122); conversely a path below eps that starts in the group stays in it, and a core distance below eps is decided by rows closer than eps, which are in the group (`bruteCore_local`, `local_back`) |
| C127 | `cutLabels`, `mstToLinkage` | the linkage tree without its sizes does not depend on the weights (`mstToLinkage_bare`), and the cut does not read the sizes (`cutLabels_bare`); `C127_copies` is a witness against the claim |

## Where the code and the property disagree

Each entry is a theorem about the model of the code as it is.

1. Opposite entries of `cannot_link` that cancel or overflow when the matrix is symmetrised are not enforced (C07).
2. Components are numbered by representative, not by smallest member (C09).
3. With `min_cluster_size = 1`, or a sample as heavy as `min_cluster_size`, samples are missing from the condensed tree (C16).
4. `max_cluster_size` is compared with `n - 1` for the top cluster (C23) and not passed on in semi-supervised mode (C23).
5. The epsilon search drops clusters in unrelated branches (C25).
6. `max_cluster_size` can leave a single selected cluster, and labelling raises `KeyError` (C26, C63).
7. A selected cluster can have no samples, so labels have gaps, for disconnected input (C27).
8. Persistence simplification and semi-supervised selection can put disconnected or cannot-link samples in one cluster (C29, C30);
   so can sample weights with `max_cluster_size` and `allow_single_cluster` together (C30).
9. `fit` with one finite and one NaN row raises `IndexError` (C31); with two finite rows and a last row that is not finite the stored linkage
   tree merges a row twice (C32).
10. Borůvka on sparse graphs reads the next row for an empty row; affects precomputed graphs with an isolated sample (C33, C43).
11. `reproducible=True` depends on the schedule when distances tie (C36).
12. The heap push never returns with more than 32768 neighbours (C56, C37).
13. Spanning trees contain index -1 for `min_samples >= n` (C39).
14. Unit sample weights change the core distances (C40).
15. Metrics and dimensions routed to nearest neighbour descent drop cannot-link constraints silently (C44).
16. NaN for the epsilon and persistence parameters is accepted, and data with one row skip part of the validation (C45).
17. Sub-cluster labels collide when cluster-local labels have a gap (C46), propagated ones when a cluster is all noise (C48); a cluster id
    without samples raises (C46); a zero weight
    raises `ZeroDivisionError` in propagation (C47); clusters not connected inside are exempt from the branch threshold (C49).
18. `find_branch_sub_clusters` always raises `TypeError` (C50).
19. The layer tree is wrong for a layer whose labels have a gap and that has noise samples (C53).
20. Persistence above 0 raises when nothing splits (C54, C63); after simplification samples can leave a cluster after it split (C61).
21. `allow_single_cluster` selects nothing when nothing splits (C22, C57).
22. Borůvka on precomputed graphs rounds to single precision, which can lose minimality (C43).
23. With NaN rows and `validate_cannot_link=False` the constraint matrix is applied to the wrong rows (C44).
24. `build_cluster_layers` raises for `max_layers = 0` when there is a peak, and with `base_n_clusters` and disconnected input it can condense
    with `min_cluster_size = 1` (C69).
25. The core graph stores each edge in the row of one end only, and `boruvka_mst` looks only at rows: the lens spanning tree need not be minimum
    (C71_not_minimal).  Points that are their own neighbours, as duplicates may be, propose nothing (C71_self_neighbour).  A point without in-cluster
    neighbours that is only the second end of tree edges reads the row of the next point (C71_empty_row).
26. Inside a cluster a missing neighbour, index -1, becomes the last sample of the data set if that is in the cluster (C73_missing_neighbour).
27. With `allow_single_cluster` and `cluster_selection_epsilon`, one cluster can consist of groups joined only through noise (C74_top_cluster_apart).
28. A selected cluster's label may be given to no sample: the top cluster with `allow_single_cluster` and an epsilon (C75_top_cluster_unused), or
    clusters held together by infinite distances (C75_infinite_edges).
29. `find_sub_clusters` takes finite rows that leave the tree at lambda 0, because of infinite distances, for rows with NaN
    (C77_infinite_distance); neighbours and spanning tree then no longer match the rows.
30. After `find_sub_clusters`, `sub_probabilities` is 1 for rows with NaN but 0 for noise rows (C77_remap, C46).
31. `find_sub_clusters` accepts labels that it cannot process: with a cluster of one sample (C78_single_sample), with numbers left out
    (C78_unused_label), or with clusters only on rows with NaN (C78_no_cluster) it raises an error from inside.
32. `_kruskal_mst_knn` drops the first entry of every row as the sample itself ("KNN indices excluding self"); with equal samples it can be another
    sample, and a sample is then its own neighbour in the result (C80_own_neighbour). The tree is not affected (C80).
33. Core distances with sample weights can be too small, and then depend on `knn_k`: the number of neighbours is derived from the mean weight
    (C81_too_small). If the mean weight exceeds `2 * min_samples`, `parallel_boruvka` asks for 0 neighbours and reads outside its arrays (C81_no_neighbours).
34. `dbscan_clustering` is not DBSCAN\*: a group of core samples smaller than `min_samples` is noise, although DBSCAN\* makes every core sample
    part of a cluster (C83_not_dbscan_star: three points in a row, the middle one is a core sample).
35. With `min_samples=1` `dbscan_clustering` gives every row of NaN a cluster of its own; the docstring of `remap_single_linkage_tree` says "considered noise points"
    (C82_min_samples_one).
36. `PLSCAN` accepts `base_min_cluster_size=1`, and then drops samples from the tree and leaves labels unused (C84_size_one); compare 3.
37. `PLSCAN` rescales distances by mean and minimum of the core distances, so that the unit of length does not matter, but leaves them as they are when
    all finite core distances are equal (regular grids, duplicated samples); labels then depend on the unit (C85_equal_core_distances).
38. For disconnected input with a run of isolated samples, layers of `PLSCAN` have an unused label, `cluster_tree_` lists it as a cluster, and a cluster that
    persists in the next layer is listed under the root instead (C86_infinite_edges, the consequence of 7 and 19).
39. A sample that lies exactly in the centre of its cluster (any symmetric cluster with a middle sample) has centrality `1 / 0 = inf`; the branch around it gets
    no label, the branch labels of the cluster have a gap, and labels of two different clusters collide (C87_centre_collides; the cause is 17 with 19).
40. With `propagate_labels=True` `labels_` of `SubClusterDetector` gives a cluster that does not split the label of a sub-cluster of the cluster before it
    (C87_propagated_collides, the end-to-end form of 17). `BranchDetector` recomputes its labels and is not affected.
41. `BranchDetector.fit` raises `ZeroDivisionError` if the given probabilities of a cluster add up to 0 (C90_centrality).
42. If a spanning tree has edges of the same length, the labels depend on which of the minimum spanning trees was found (C91_ties: a sample between two groups whose
    edges to both have its core distance as length joins the group that the found edge with the smaller index leads to). Such ties are the rule with `min_samples > 1`, since a
    core distance is the length of several edges.
43. If the spanning tree has edges of the same length, the order of the samples matters: a sample halfway between two groups joins the one given first (C92_ties).
44. `cluster_selection_persistence` is a difference of lambdas, so it has to be divided by the factor by which distances are multiplied, while `cluster_selection_epsilon` has to be multiplied by it (C93_scaled, C93_conditions).
45. With ties a cluster need not be a cluster of `dbscan_clustering` for any epsilon: the single linkage tree splits four samples with all distances equal into two pairs (C94_ties). `dbscan_clustering` uses `min_samples` as the minimum cluster size if it is given, so with `min_samples > min_cluster_size` small clusters are noise at every epsilon.
46. With `allow_single_cluster` and a small `cluster_selection_epsilon`, excess of mass can label everything noise where `leaf` finds two clusters (C95_epsilon).
47. `cluster_selection_epsilon` above the distance between the clusters returns the whole data set as one cluster although `allow_single_cluster=False`: `traverse_upwards` returns the root in both branches (C96_epsilon).
48. `fit` renumbers the linkage and condensed trees after dropping rows with missing values, but not the spanning tree, which `minimum_spanning_tree_` pairs with the raw data: edges then name wrong rows (C98_missing_row_first).
49. `_kruskal_mst_brute` drops the first entry of each sorted neighbour list as "self"; with a duplicate row that may be the twin, and the sample is listed as its own neighbour (C99_own_neighbour), which the lens graph does not expect (C71).
50. Negative sample weights are accepted (C100_negative); a scalar NaN is accepted by `fast_hdbscan` and `PLSCAN`, though an array with NaN is not (C100_scalar_nan); sample weights that are zero on all rows without missing values raise "must contain at least one non-zero number" in the second check.
51. The check "y must contain at least one label > -1" tests `y != -1`, before rows with missing values are dropped (C101_below, C101_missing_row).
52. Stability adds samples as 1 each but subtracts the cluster's weight, so sample weights above 1 can make a lowest cluster's stability negative; the semi-supervised selection then drops it, and if one cluster is left labelling raises `KeyError` (C102_weights_fail).
53. With `min_samples` of 2 or more, identical rows can get different labels: ties between equally long mutual reachability distances are broken by row order, so of two copies between two groups one joins a cluster and the other is noise (C103_core_distances).
54. Clusters of identical rows split from other copies have stability `-inf + inf`, NaN, which `eom_recursion` compares under `fastmath`: for four identical rows joined in pairs the result is two clusters or none, depending on how the comparison is compiled (C104_fastmath_decides).
55. With `cluster_selection_epsilon`, a group far from everything else can lose its labels altogether: for twelve samples in a row, leaf clusters and epsilon 5, four samples joined by steps of 1 and 6 away from the rest become noise, while sparser pairs are clusters (C106_epsilon). A group is also lost with a positive persistence (C106_persistence) and with `max_cluster_size` (C106_max_cluster_size).
56. PLSCAN on a spanning tree with infinite edges: labels nobody has count as clusters when layers are sorted, so a finer layer can come after a coarser one (C107_infinite_edges). With `base_n_clusters` such a label also makes the minimum cluster size 1, so that a further layer, which may be `labels_`, has clusters of one or two samples crossing those of the base layer (C107_by_count_infinite_edges).
57. With `base_n_clusters`, the base layer's strengths come from the search, which condenses with the reciprocal of the distance (layer_clusters.py:72-120, 409-411), all other layers' from `exp(-d)` (417-420). An edge as short as the smallest core distance has normalised weight 0 and an infinite reciprocal.
58. `min_cluster_size_barcode` computes `exp(-1 / lambda)` (layer_clusters.py:199), which is `exp(-d)` for reciprocal lambdas; `build_cluster_layers` passes a tree whose lambdas are `exp(-d)` already (417-424), so the persistence uses `exp(-exp(d))`. The theorems take that function as a parameter.
59. With excess of mass, raising `min_cluster_size` can split a cluster: a small far group stops being a cluster, the rest becomes the top cluster, which is never selected, and its parts are returned instead (C108_eom). `HDBSCAN` moreover takes `min_samples` from `min_cluster_size` unless told otherwise, which changes the spanning tree; C108 compares runs on the same tree.
60. A missing entry of a precomputed matrix is "no edge", not distance 0. A matrix made with `scipy.sparse.csr_matrix(D)` loses the zeros between identical samples, and with them the clusters of duplicates (C109_zeros_not_stored).
61. With `allow_single_cluster=True` and excess of mass one outlier can merge all clusters: it leaves the top cluster, and its lambda adds to the top cluster's stability, so that the sum of its children no longer exceeds it (C110_single_cluster: labels 1, 1, 0, 0 become 0, 0, 0, 0, -1).
62. A clustered row can have no neighbour in its cluster while its tree edges are stored from the other end; the row of the core graph is then empty, and the minimum spanning tree of the lens graph reads the entries of the next row (core_graph.py). On eight points in the plane with `min_samples=2`, `min_cluster_size=3` a sample with lens value 9 is merged at lens value 3 (C111_empty_row).
63. With `cluster_labels` given and no `cluster_probabilities`, every kept row has strength 1 (sub_clusters.py:281-282), so noise is returned with label -1 and probability 1 (C111_given_labels_partial).
64. Raising `cluster_selection_epsilon` can turn a member of a cluster into noise while others stay: with `allow_single_cluster` the root cluster is cut at the epsilon only if it is positive (cluster_trees.py:975-994), so going from 0 to 15 shrinks the only cluster (C112_whole_data_set). With the leaf method a whole cluster can vanish (C112_cluster_lost; the same loss as in C106_epsilon).
65. With excess of mass, raising `cluster_selection_persistence` can divide a cluster: a cluster whose sibling does not persist is merged into its parent together with it, and is replaced by its own sub-clusters, which remain (C113_eom, nine points on a line).
66. With `allow_single_cluster` and a positive `cluster_selection_persistence`, a noise row can be closer to the cluster than `cluster_selection_epsilon`: the simplification replaces the lambda of rows listed directly below a dropped cluster and keeps that of rows in its dropped sub-clusters, and the epsilon test for the whole data set uses these lambdas (C114_persistence, eleven points on a line). With infinite edges it can happen for one of two clusters: the dropped cluster is born at lambda zero, and rows with lambda zero become noise (C114_persistence_infinite).
67. With the excess of mass method, the clusters inside a separated group depend on the rows outside: moving a third pair away makes one cluster of two pairs (C116_eom). This is how stability is defined, since it is counted from the distance at which the group is separated from the rest.
68. A row whose sample weight is at least `min_cluster_size` is noise: the condensing gives it a cluster of its own when it is split off (cluster_trees.py:334-351), which is selected, but the row is listed nowhere in the tree. The same row written out as copies is a cluster (C117_heavy_row).
69. With the excess of mass method, whole-numbered weights and copies of the rows give different clusters: stability adds every sample as 1, whatever its weight, but subtracts the weight of the cluster (C117_eom, see 52). Three pairs weigh 3 each; with copies each is a cluster, with weights two of them are joined.
70. The order of the rows matters even if all distances are different: mutual reachability makes them equal. With `min_samples=2` a sample whose second neighbour is in another group than its first is equally far from both groups, and is put in the group whose rows come first (C92_general_position).
71. With the excess of mass method, removing a row that is noise can unite two clusters: the row was the one over which their parent was joined with the rest, and without it the parent lasts longer (C119_eom). With the leaf method the clusters stay, but rows that were noise can join them (example beside C119_noise_removed_data_partial).
72. With the excess of mass method errors of delta can change the clusters although all edges are more than 2 delta apart: the sums of lambdas of a cluster and of its parts are compared, and these can be close (C120_eom).
73. With fit more data can divide a cluster, and so can a smaller `min_samples` (C122_fit_row, C122_fit_min_samples); with dbscan_clustering neither can (C122_cut).
74. With `min_samples` of 2 or more, leaving out the rows that dbscan_clustering calls noise can turn clusters into noise: noise counts towards the core distances of other rows (C123_core_distances).
75. dbscan_clustering ignores sample weights: it counts rows against the minimum size, while fit adds weights. Clusters found by fit with weights can be noise for dbscan_clustering (C127_ignored, C127_copies).
