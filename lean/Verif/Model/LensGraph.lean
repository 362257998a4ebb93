import Verif.Model.CoreGraph
import Verif.Model.SubClusters
import Verif.Model.Pipeline

/-!
# Model of the core graph of a lens, `core_graph.py`, and of its use inside a cluster, `sub_clusters.py`

Lens values and distances are elements of linear orders (the code stores them in single precision); parallel loops write disjoint parts and run one
after the other here.
-/

namespace Verif
variable {W D K : Type*}

/-- The dictionary of one point: child, then weight and distance. -/
abbrev LensRow (W D : Type*) := List (ℕ × W × D)

/-- The row of one point after the first loop of `knn_mst_union`, core_graph.py:27-38; a neighbour of index -1 is `none`. -/
def knnRow [LinearOrder W] [LinearOrder D] (core : ℕ → D) (lens : ℕ → W) (nb : List (Option ℕ)) (point : ℕ) : LensRow W D :=
  nb.foldl (fun row c =>
    match c with
    | none => row
    | some child => dictSet row child (max (lens point) (lens child), max (core point) (core child))) []

/-- Body of the second loop of `knn_mst_union`, core_graph.py:41-47. -/
def unionStep [LinearOrder W] (lens : ℕ → W) (g : ℕ → LensRow W D) (e : Edge D) : ℕ → LensRow W D :=
  if (g e.u).any (fun p => p.1 = e.v) then g else Function.update g e.u (dictSet (g e.u) e.v (max (lens e.u) (lens e.v), e.w))

/-- `knn_mst_union`, core_graph.py:19-49, for `n` points. -/
def knnMstUnion [LinearOrder W] [LinearOrder D] (n : ℕ) (nb : ℕ → List (Option ℕ)) (core : ℕ → D) (mst : List (Edge D)) (lens : ℕ → W) :
    ℕ → LensRow W D :=
  mst.foldl (unionStep lens) fun point => if point < n then knnRow core lens (nb point) point else []

/-- `CoreGraph`, core_graph.py:10: `indptr`, and `indices` zipped with `weights` and `distances`. -/
structure LensCsr (W D : Type*) where
  indptr : ℕ → ℕ
  ent : LensRow W D

/-- The slice of the arrays of one point. -/
def LensCsr.row (c : LensCsr W D) (i : ℕ) : LensRow W D := (c.ent.drop (c.indptr i)).take (c.indptr (i + 1) - c.indptr i)

/-- The part of the graph that `boruvka_mst` looks at, core_graph.py:181-182 (`graph.weights` as distances). -/
def LensCsr.weights (c : LensCsr W D) : Csr W := ⟨c.indptr, c.ent.map fun p => (p.1, p.2.1)⟩

/-- `flatten_to_csr`, core_graph.py:52-74. -/
def flattenToCsr (n : ℕ) (g : ℕ → LensRow W D) : LensCsr W D :=
  ⟨fun i => ((List.range (min i n)).map fun j => (g j).length).sum, (List.range n).flatMap g⟩

/-- `sort_by_lens`, core_graph.py:77-94; `sortRow` sorts by weight (`np.argsort` may order equal weights in any way). -/
def sortByLens (sortRow : LensRow W D → LensRow W D) (n : ℕ) (c : LensCsr W D) : LensCsr W D :=
  ⟨c.indptr, (List.range n).flatMap fun i => sortRow (c.row i)⟩

/-- `apply_lens`, core_graph.py:97-106. -/
def applyLens [LinearOrder W] (sortRow : LensRow W D → LensRow W D) (n : ℕ) (c : LensCsr W D) (lens : ℕ → W) : LensCsr W D :=
  sortByLens sortRow n ⟨c.indptr, (List.range n).flatMap fun i => (c.row i).map fun p => (p.1, max (lens i) (lens p.1), p.2.2)⟩

/-- The graph of `core_graph_spanning_tree`, core_graph.py:212-217. -/
def lensGraph [LinearOrder W] [LinearOrder D] (sortRow : LensRow W D → LensRow W D) (n : ℕ) (nb : ℕ → List (Option ℕ)) (core : ℕ → D)
    (mst : List (Edge D)) (lens : ℕ → W) : LensCsr W D :=
  sortByLens sortRow n (flattenToCsr n (knnMstUnion n nb core mst lens))

/-- `core_graph_to_edge_list`, core_graph.py:268-274 (and `core_graph_to_rec_array`, core_graph.py:249-265): parent, child, weight, distance. -/
def coreGraphEdgeList (n : ℕ) (c : LensCsr W D) : List (ℕ × ℕ × W × D) :=
  ((List.range n).flatMap fun i => List.replicate (c.indptr (i + 1) - c.indptr i) i).zip c.ent

/-- The loop that renumbers components, core_graph.py:232-233. -/
def relabelComponents (labels : List ℕ) : List ℕ :=
  (labels.dedup.insertionSort (· ≤ ·)).zipIdx.foldl (fun l p => l.map fun x => if x = p.1 then p.2 else x) labels

/-- What `core_graph_clusters` returns: for a disconnected graph the components with strengths 1 and no trees, else a clustering. -/
inductive LensClusters (W K : Type*)
  | components (labels : List ℕ) (forest : List (Edge W))
  | clustered (r : ClusterResult W K)

/-- `core_graph_clusters`, core_graph.py:221-246, for `n` points. -/
def coreGraphClusters [LinearOrder W] [OrderTop W] [Inhabited W] [LinearOrder D] [Field K] [LinearOrder K] [Inhabited K]
    (sortRow : LensRow W D → LensRow W D) (lam : W → K) (wt : ℕ → K) (o : ClusterOpts K) (n : ℕ) (nb : ℕ → List (Option ℕ)) (core : ℕ → D)
    (mst : List (Edge D)) (lens : ℕ → W) : Option (LensClusters W K) :=
  let r := boruvkaMst n (lensGraph sortRow n nb core mst lens).weights
  if 1 < r.1 then some (.components (relabelComponents ((List.range n).map r.2.1)) r.2.2)
  else (clustersFromMst lam wt o r.2.2).map .clustered

/-! ## Inside a cluster -/

/-- `in_cluster_ids`, sub_clusters.py:33-34. -/
def inClusterIds (points : List ℕ) : ℕ → Option ℕ := scatter (fun _ => none) (points.zipIdx.map fun p => (p.1, some p.2))

/-- `in_cluster_ids[neighbors[points, :]]`, sub_clusters.py:35, for `N` samples: index -1 reads the last entry. -/
def inClusterNeighbors (N : ℕ) (points : List ℕ) (nb : ℕ → List (Option ℕ)) (i : ℕ) : List (Option ℕ) :=
  match points[i]? with
  | none => []
  | some p => (nb p).map fun c =>
    match c with
    | none => inClusterIds points (N - 1)
    | some q => inClusterIds points q

/-- The spanning tree inside the cluster, sub_clusters.py:37-40, 79-80. -/
def inClusterMst (labels : ℕ → ℤ) (cluster : ℤ) (points : List ℕ) (mst : List (Edge D)) : List (Edge D) :=
  (mst.filter fun e => decide (labels e.u = cluster ∧ labels e.v = cluster)).map fun e =>
    ⟨(inClusterIds points e.u).getD 0, (inClusterIds points e.v).getD 0, e.w⟩

end Verif
