import Verif.Model.LayerSearch
import Verif.Model.Layers

/-!
# Model of the layers, layer_clusters.py:181-260 and 404-495

Sizes, lambdas and persistences are numbers of an ordered field in exact arithmetic (the code keeps them in single precision).
-/

namespace Verif
variable {K : Type*}

/-- The arrays of `min_cluster_size_barcode`, indexed by cluster id minus the number of samples. -/
structure Barcode (K : Type*) where
  births : ℕ → K
  deaths : ℕ → K
  parents : ℕ → ℕ
  lamDeaths : ℕ → K

section
variable [Field K] [LinearOrder K]

/-- `array[i - 1 : i + 1] = v`. -/
def setPair {α : Type*} (f : ℕ → α) (i : ℕ) (v : α) : ℕ → α := Function.update (Function.update f (i - 1) v) i v

/-- Loop body of `min_cluster_size_barcode`, layer_clusters.py:195-209; `expInv lv` is `np.exp(-1.0 / lv)`. -/
def barcodeStep (expInv : K → K) (n : ℕ) (ct : List (CRow K K)) (b : Barcode K) (idx : ℕ) : Barcode K :=
  match ct[idx - 1]?, ct[idx]? with
  | some prev, some row =>
    let out := row.child - n
    let death := min prev.size row.size
    { births := Function.update b.births (row.parent - n) (max (max (b.births (out - 1)) (b.births out)) death)
      deaths := setPair b.deaths out death
      parents := setPair b.parents out row.parent
      lamDeaths := setPair b.lamDeaths out (if 0 < row.lam then expInv row.lam else 0) }
  | _, _ => b

/-- The arrays before the loop, layer_clusters.py:184-190.  Entries the code leaves uninitialised are 0 here. -/
def barcodeInit (n : ℕ) (minSize : K) : Barcode K :=
  ⟨fun _ => minSize, Function.update (fun _ => 0) 0 (n : K), Function.update (fun _ => 0) 0 n, fun _ => 0⟩

/-- `range(n_rows - 1, 0, -2)`, layer_clusters.py:194. -/
def rangeDownTwo (rows : ℕ) : List ℕ := (List.range (rows / 2)).map fun j => rows - 1 - 2 * j

/-- `min_cluster_size_barcode`, layer_clusters.py:181-211. -/
def sizeBarcode (expInv : K → K) (n : ℕ) (minSize : K) (ct : List (CRow K K)) : Barcode K :=
  (rangeDownTwo ct.length).foldl (barcodeStep expInv n ct) (barcodeInit n minSize)

/-- `n_nodes`, the length of the arrays, layer_clusters.py:183; `none`: the table is empty (`IndexError`). -/
def barcodeNodes (n : ℕ) (ct : List (CRow K K)) : Option ℕ := ct.getLast?.map fun row => row.child - n + 1

/-- `np.unique(births)`, layer_clusters.py:217; `m` is `len(births)`. -/
def uniqueBirths (m : ℕ) (births : ℕ → K) : List K := (((List.range m).map births).dedup).insertionSort (· ≤ ·)

/-- The search loops, layer_clusters.py:229-240: first index with an entry of at least `x`, else `d`. -/
def firstAtLeast (sizes : List K) (x : K) (d : ℕ) : ℕ :=
  if sizes.findIdx (fun y => decide (x ≤ y)) < sizes.length then sizes.findIdx (fun y => decide (x ≤ y)) else d

/-- Loop body of `compute_total_persistence`, layer_clusters.py:220-244. -/
def persistenceStep (sizes : List K) (births deaths lamDeaths : ℕ → K) (total : ℕ → K) (i : ℕ) : ℕ → K :=
  if deaths i ≤ births i then total
  else
    let lo := firstAtLeast sizes (births i) 0
    let hi := firstAtLeast sizes (deaths i) sizes.length
    (List.range' lo (hi - lo)).foldl (fun t k => Function.update t k (t k + (deaths i - births i * lamDeaths i))) total

/-- `compute_total_persistence`, layer_clusters.py:214-246: the persistences at the entries of `uniqueBirths m births`. -/
def totalPersistence (m : ℕ) (births deaths lamDeaths : ℕ → K) : ℕ → K :=
  (List.range' 1 (m - 1)).foldl (persistenceStep (uniqueBirths m births) births deaths lamDeaths) (fun _ => 0)

/-- `extract_clusters_by_id`, layer_clusters.py:249-260; the number of samples is `condensed_tree.parent[0]`. -/
def extractById (rows : List (CRow K K)) (sel : List ℕ) : Option (List ℤ × (ℕ → K)) :=
  match rows with
  | [] => none
  | row :: _ => (labelVector rows sel none row.parent).bind fun labels =>
      (finiteStrengths rows sel labels).map fun strengths => (labels, strengths)

/-- The rows of clusters, layer_clusters.py:431-432 (`mask = condensed_tree.child >= n_samples`). -/
def clusterRows (n : ℕ) (rows : List (CRow K K)) : List (CRow K K) := rows.filter fun row => decide (n ≤ row.child)

/-- The clusters of the layer at size `s`, layer_clusters.py:473-475. -/
def layerClusters (n k : ℕ) (b : Barcode K) (s : K) : List ℕ := (activeAt k b.births b.deaths s).map fun i => i + n

/-- One layer: labels, strengths, score. -/
structure Layer (K : Type*) where
  labels : List ℤ
  strengths : ℕ → K
  score : K

/-- One selected peak, layer_clusters.py:470-479. -/
def peakLayer (n m : ℕ) (b : Barcode K) (rows : List (CRow K K)) (sizes : List K) (total : ℕ → K) (peak : ℕ) : Option (Layer K) :=
  (extractById rows (layerClusters n m b (sizes.getD peak 0))).map fun r => ⟨r.1, r.2, total peak⟩

/-- `build_cluster_layers`, layer_clusters.py:431-487, from the condensed tree `rows` and the base layer on.  `order` sorts peaks by descending
persistence and `sortLayers` sorts layers by descending number of clusters (`np.argsort` reversed); `none`: an exception, such as
`np.empty(max_layers - 1)` for `max_layers = 0`. -/
def layersFromTree (expInv : K → K) (order : (ℕ → K) → List ℕ → List ℕ) (sortLayers : List (Layer K) → List (Layer K)) (thr : ℚ)
    (maxLayers n : ℕ) (minSize : K) (rows : List (CRow K K)) (base : Layer K) : Option (List (Layer K)) :=
  match barcodeNodes n (clusterRows n rows) with
  | none => some (sortLayers [base])
  | some m =>
    let b := sizeBarcode expInv n minSize (clusterRows n rows)
    let sizes := uniqueBirths m b.births
    let total := totalPersistence m b.births b.deaths b.lamDeaths
    let peaks := findPeaks sizes.length total
    if maxLayers = 0 ∧ peaks ≠ [] then none
    else
      let selected := selectDiversePeaks (order total) peaks (fun p => sizes.getD p 0) m b.births b.deaths thr (maxLayers - 1)
      (selected.mapM (peakLayer n m b rows sizes total)).map fun layers => sortLayers (base :: layers)

/-- `build_cluster_layers` with `base_min_cluster_size`, layer_clusters.py:421-495, from the linkage tree on; `lam` is
`plscan_lambda_value`. -/
def buildLayers {W : Type*} [Inhabited W] [Inhabited K] (expInv : K → K) (order : (ℕ → K) → List ℕ → List ℕ)
    (sortLayers : List (Layer K) → List (Layer K)) (thr : ℚ) (maxLayers n : ℕ) (lam : W → K) (linkage : List (LRow W K)) (minClusterSize : ℕ) :
    Option (List (Layer K)) :=
  let rows := searchTree lam linkage minClusterSize
  (leafResult rows n).bind fun r =>
    layersFromTree expInv order sortLayers thr maxLayers n (minClusterSize : K) rows ⟨r.labels, r.strengths, 0⟩

/-- `np.bincount(clusters[clusters >= 0])`, layer_clusters.py:412. -/
def labelCounts (labels : List ℤ) : List ℕ := (List.range (maxLabel labels + 1).toNat).map fun (i : ℕ) => labels.count (i : ℤ)

/-- `min_cluster_size` after the search, layer_clusters.py:412-416. -/
def searchedMinSize (labels : List ℤ) (baseSize : ℕ) : ℕ :=
  match (labelCounts labels).min? with
  | some x => max 1 x
  | none => baseSize

/-- `build_cluster_layers` with `base_n_clusters`, layer_clusters.py:408-420 and 431-495, from the linkage tree on.  The search condenses with
the default lambda of `condense_tree`, `lamSearch` (the reciprocal of the distance), the layers with `plscan_lambda_value`, `lam`.  Simplified: the
reciprocal of a distance 0 is infinite in the code, any finite number here. -/
def buildLayersByCount {W : Type*} [Inhabited W] [Inhabited K] (expInv : K → K) (order : (ℕ → K) → List ℕ → List ℕ)
    (sortLayers : List (Layer K) → List (Layer K)) (thr : ℚ) (maxLayers n : ℕ) (lamSearch lam : W → K) (linkage : List (LRow W K)) (approx : ℤ) (baseSize : ℕ) :
    Option (List (Layer K)) :=
  (binarySearchClusters lamSearch linkage approx n).bind fun r =>
    layersFromTree expInv order sortLayers thr maxLayers n (searchedMinSize r.labels baseSize : K)
      (searchTree lam linkage (searchedMinSize r.labels baseSize)) ⟨r.labels, r.strengths, 0⟩

end
end Verif
