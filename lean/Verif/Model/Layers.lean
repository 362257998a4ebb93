import Mathlib.Data.Nat.Notation
import Mathlib.Data.List.Sort
import Mathlib.Data.List.Range
import Mathlib.Order.Defs.LinearOrder
import Mathlib.Algebra.Ring.Defs
import Mathlib.Data.Rat.Defs
import Mathlib.Algebra.Order.Ring.Rat
import Verif.Model.SubClusters

/-!
# Model of layer_clusters.py

Floats are elements of a linear order (no NaN); arrays of floats are functions with a length.
-/

namespace Verif
variable {W K : Type*}

/-! ## `find_peaks`, layer_clusters.py:40-68 -/

/-- The inner `while`, layer_clusters.py:56-57. -/
def lookAhead [DecidableEq W] (x : ℕ → W) (iMax i : ℕ) : ℕ → ℕ → ℕ
  | 0, j => j
  | fuel + 1, j => if j < iMax ∧ x j = x i then lookAhead x iMax i fuel (j + 1) else j

/-- The outer `while`, layer_clusters.py:50-66; the result are the `midpoints` from here on. -/
def peakLoop [LinearOrder W] (x : ℕ → W) (iMax : ℕ) : ℕ → ℕ → List ℕ
  | 0, _ => []
  | fuel + 1, i =>
    if i < iMax then
      if x (i - 1) < x i then
        let ahead := lookAhead x iMax i iMax (i + 1)
        if x ahead < x i then (i + (ahead - 1)) / 2 :: peakLoop x iMax fuel (ahead + 1)
        else peakLoop x iMax fuel (i + 1)
      else peakLoop x iMax fuel (i + 1)
    else []

/-- `find_peaks`, layer_clusters.py:40-68, for an array of length `n`. -/
def findPeaks [LinearOrder W] (n : ℕ) (x : ℕ → W) : List ℕ := peakLoop x (n - 1) n 1

/-! ## Selection of diverse peaks, layer_clusters.py:263-350 -/

/-- `jaccard_similarity`, layer_clusters.py:263-277: `union_set` and `intersection_count` after the loop over `b`. -/
def jaccardLoop : List ℕ → List ℕ × ℕ → List ℕ × ℕ
  | [], s => s
  | y :: b, s => if y ∈ s.1 then jaccardLoop b (s.1, s.2 + 1) else jaccardLoop b (y :: s.1, s.2)

/-- `jaccard_similarity`, layer_clusters.py:263-277, as an exact fraction. -/
def jaccardSimilarity (a b : List ℕ) : ℚ :=
  let s := jaccardLoop b (a.dedup, 0)
  if 0 < s.1.length then (s.2 : ℚ) / (s.1.length : ℚ) else 0

/-- The clusters active at `size`, layer_clusters.py:283-298; `m` is `len(births)`. -/
def activeAt [LE W] [LT W] [DecidableLE W] [DecidableLT W] (m : ℕ) (births deaths : ℕ → W) (size : W) : List ℕ :=
  (List.range m).filter fun i => decide (births i ≤ size ∧ size < deaths i)

/-- `estimate_cluster_similarity`, layer_clusters.py:280-302. -/
def clusterSimilarity [LE W] [LT W] [DecidableLE W] [DecidableLT W] (m : ℕ) (births deaths : ℕ → W) (a b : W) : ℚ :=
  jaccardSimilarity (activeAt m births deaths a) (activeAt m births deaths b)

/-- The loop of `select_diverse_peaks`, layer_clusters.py:328-348; `sel` is `selected_peaks[:n_selected]`. -/
def diverseLoop (sim : ℕ → ℕ → ℚ) (thr : ℚ) (maxLayers : ℕ) : List ℕ → List ℕ → List ℕ
  | [], sel => sel
  | p :: ps, sel =>
    if maxLayers ≤ sel.length then sel
    else if sel.any fun q => decide (thr < sim p q) then diverseLoop sim thr maxLayers ps sel
    else diverseLoop sim thr maxLayers ps (sel ++ [p])

/-- `select_diverse_peaks`, layer_clusters.py:305-350.  `order` sorts the peaks by descending persistence (`np.argsort` reversed, which may
order equal values in any way). -/
def selectDiversePeaks [LE W] [LT W] [DecidableLE W] [DecidableLT W] (order : List ℕ → List ℕ) (peaks : List ℕ) (sizes : ℕ → W) (m : ℕ)
    (births deaths : ℕ → W) (thr : ℚ) (maxLayers : ℕ) : List ℕ :=
  diverseLoop (fun p q => clusterSimilarity m births deaths (sizes p) (sizes q)) thr maxLayers (order peaks) []

/-! ## `_build_cluster_tree`, layer_clusters.py:499-526 -/

/-- A row of `mapping`: parent layer and cluster, child layer and cluster. -/
structure LayerRow where
  pl : ℕ
  p : ℤ
  cl : ℕ
  c : ℤ
  deriving DecidableEq, Repr

/-- State of the loops; `found` lists the clusters of each layer that have a parent. -/
structure LayerState where
  mapping : List LayerRow
  found : ℕ → List ℤ

/-- `labels[layer].max()`, for a layer with at least one sample. -/
def maxLabel (l : List ℤ) : ℤ := l.foldl max (-1)

/-- `cluster_groups`, layer_clusters.py:507-514: the labels in the lower layer of the samples with label -1, 0, …, max in the upper one; the
first group is dropped if there are more groups than different labels.  The order inside a group is that of the samples (`np.argsort` may give
another order). -/
def clusterGroups (upper lower : List ℤ) : List (List ℤ) :=
  let groups := (List.range (maxLabel upper + 2).toNat).map fun (v : ℕ) =>
    ((upper.zip lower).filter fun q => decide (q.1 + 1 = (v : ℤ))).map Prod.snd
  if (npUnique upper).length < groups.length then groups.drop 1 else groups

/-- Innermost loop, layer_clusters.py:517-520. -/
def childLoop (ul : ℕ) (label : ℤ) (ll : ℕ) (s : LayerState) (group : List ℤ) : LayerState :=
  group.foldl (fun s child =>
    if 0 ≤ child ∧ child ∉ s.found ll then ⟨s.mapping ++ [⟨ul, label, ll, child⟩], Function.update s.found ll (child :: s.found ll)⟩ else s) s

/-- Loop over the labels of the upper layer, layer_clusters.py:515-520. -/
def labelLoop (ul ll : ℕ) (upper lower : List ℤ) (s : LayerState) : LayerState :=
  ((npUnique upper).zip (clusterGroups upper lower)).foldl (fun s q => if 0 ≤ q.1 then childLoop ul q.1 ll s q.2 else s) s

/-- Loop over the lower layers, layer_clusters.py:505-520. -/
def lowerLoop (labels : ℕ → List ℤ) (s : LayerState) (ul : ℕ) : LayerState :=
  (List.range ul).reverse.foldl (fun s ll => labelLoop ul ll (labels ul) (labels ll) s) s

/-- `_build_cluster_tree`, layer_clusters.py:499-526, for `L` layers. -/
def buildClusterTree (L : ℕ) (labels : ℕ → List ℤ) : List LayerRow :=
  let s := (List.range' 1 (L - 1)).foldl (lowerLoop labels) ⟨[], fun _ => [-1]⟩
  s.mapping ++ (List.range L).reverse.flatMap fun ll =>
    ((List.range (maxLabel (labels ll) + 1).toNat).filter fun (c : ℕ) => decide ((c : ℤ) ∉ s.found ll)).map fun (c : ℕ) => ⟨L, 0, ll, (c : ℤ)⟩

/-- `build_layer_cluster_tree`, layer_clusters.py:529-554: the rows grouped by parent; the dictionary as a list of its entries. -/
def layerTreeDict (rows : List LayerRow) : List ((ℕ × ℤ) × List (ℕ × ℤ)) :=
  rows.foldl (fun d row =>
    if (row.pl, row.p) ∈ d.map Prod.fst then d.map fun q => if q.1 = (row.pl, row.p) then (q.1, q.2 ++ [(row.cl, row.c)]) else q
    else d ++ [((row.pl, row.p), [(row.cl, row.c)])]) []

end Verif
