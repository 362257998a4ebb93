import Verif.Model.Fit
import Verif.Model.LensGraph

/-!
# Model of `find_sub_clusters`, sub_clusters.py:64-95, 188-455
-/

namespace Verif
variable {W D K S : Type*}

/-! ## Arguments -/

/-- What `find_sub_clusters` is given, as far as its checks go, sub_clusters.py:245-258.  The values of the clusterer stand next to the
arguments that replace them; an argument that is `None` is `pyNone`, a method that is `None` is `none`. -/
structure SubArgs (K : Type*) where
  metric : String
  hasRawData : Bool
  isFitted : Bool
  minClusterSize : PyVal K
  fitMinClusterSize : PyVal K
  maxClusterSize : PyVal K
  fitMaxClusterSize : PyVal K
  method : Option String
  fitMethod : String
  epsilon : PyVal K
  persistence : PyVal K
  onlyNoise : Bool

/-- The errors of the checks of `find_sub_clusters`.  `maxType` is the TypeError of comparing something that is not a number with 0. -/
inductive SubArgError
  | precomputed | noRawData | notFitted | minClusterSize | maxClusterSize | maxType | persistence | epsilon | method | onlyNoise
  deriving DecidableEq

/-- `x if x is not None else y`. -/
def PyVal.orElse : PyVal K → PyVal K → PyVal K
  | .pyNone, y => y
  | x, _ => x

/-- `x >= 2` for an integer. -/
def PyVal.intAtLeastTwo : PyVal K → Bool
  | .int z => decide (2 ≤ z)
  | _ => false

/-- `x >= 0.0` for a float; comparisons with NaN are false. -/
def PyVal.floatNonneg [Zero K] [LE K] [DecidableLE K] : PyVal K → Bool
  | .float (some x) => decide (0 ≤ x)
  | _ => false

/-- `x <= 0`: `none` if the comparison raises a TypeError. -/
def PyVal.leZero [Zero K] [LE K] [DecidableLE K] : PyVal K → Option Bool
  | .int z => some (decide (z ≤ 0))
  | .float (some x) => some (decide (x ≤ 0))
  | .float none => some false
  | _ => none

/-- The checks of `find_sub_clusters`, sub_clusters.py:260-331.  `_check_sample_weight` is not modelled. -/
def checkSubArgs [Zero K] [LE K] [DecidableLE K] (a : SubArgs K) : Except SubArgError Unit :=
  if a.metric = "precomputed" then .error .precomputed
  else if ¬ a.hasRawData then .error .noRawData
  else if ¬ a.isFitted then .error .notFitted
  else if ¬ ((a.minClusterSize.orElse a.fitMinClusterSize).isInt ∧ (a.minClusterSize.orElse a.fitMinClusterSize).intAtLeastTwo) then
    .error .minClusterSize
  else
    match (a.maxClusterSize.orElse a.fitMaxClusterSize).leZero with
    | none => .error .maxType
    | some true => .error .maxClusterSize
    | some false =>
      if ¬ (a.persistence.isFloat ∧ a.persistence.floatNonneg) then .error .persistence
      else if ¬ (a.epsilon.isFloat ∧ a.epsilon.floatNonneg) then .error .epsilon
      else if a.method.getD a.fitMethod ∉ ["eom", "leaf"] then .error .method
      else if a.onlyNoise then .error .onlyNoise
      else .ok ()

/-- The labels and strengths used, sub_clusters.py:279-284: given labels without strengths get strength 1. -/
def subInputs (fitLabels : ℕ → ℤ) (fitProbs : ℕ → K) (one : K) (labels : Option (ℕ → ℤ)) (probs : Option (ℕ → K)) : (ℕ → ℤ) × (ℕ → K) :=
  match labels, probs with
  | none, none => (fitLabels, fitProbs)
  | none, some p => (fitLabels, p)
  | some l, none => (l, fun _ => one)
  | some l, some p => (l, p)

/-! ## The finite rows -/

/-- The loop of numpy's binary search for `np.searchsorted(a, key, side="right")`: the values between `lo` and `hi` are still to be
searched. -/
def bisectRight [LT K] [DecidableLT K] (a : List K) (key : K) : ℕ → ℕ → ℕ → ℕ
  | 0, lo, _ => lo
  | fuel + 1, lo, hi =>
    if lo < hi then
      let mid := lo + (hi - lo) / 2
      match a[mid]? with
      | none => lo
      | some x => if key < x then bisectRight a key fuel lo mid else bisectRight a key fuel (mid + 1) hi
    else lo

/-- `last_outlier`, sub_clusters.py:336-338. -/
def lastOutlier [Zero K] [LT K] [DecidableLT K] (tree : List (CRow K S)) : ℕ :=
  bisectRight (tree.map CRow.lam) 0 tree.length 0 tree.length

/-- `finite_index`, sub_clusters.py:339-342, for `n` rows of data; `none` if `last_outlier` is 0 and nothing is restricted. -/
def recoverFinite [Zero K] [LT K] [DecidableLT K] (n : ℕ) (tree : List (CRow K S)) : Option (List ℕ) :=
  if 0 < lastOutlier tree then
    some ((List.range n).filter fun i => decide (i ∉ (tree.map CRow.child).take (lastOutlier tree)))
  else none

/-! ## Inside the clusters -/

/-- Label of the `i`-th sample of a cluster. -/
def LensClusters.label : LensClusters W K → ℕ → ℤ
  | .components labels _, i => labels.getD i 0
  | .clustered r, i => r.labels.getD i (-1)

/-- Strength of the `i`-th sample of a cluster. -/
def LensClusters.strength [One K] : LensClusters W K → ℕ → K
  | .components _ _, _ => 1
  | .clustered r, i => r.strengths i

section
variable [LinearOrder W] [OrderTop W] [Inhabited W] [LinearOrder D] [Field K] [LinearOrder K] [Inhabited K]

/-- `compute_sub_clusters_in_cluster`, sub_clusters.py:16-61, for `N` samples: the samples with labels and strengths.  `lens c i` is the value that
`lens_callback` gives to the `i`-th sample of cluster `c`. -/
def subClustersInCluster (sortRow : LensRow W D → LensRow W D) (lam : W → K) (wt : ℕ → K) (o : ClusterOpts K) (N : ℕ) (labels : ℕ → ℤ)
    (nb : ℕ → List (Option ℕ)) (core : ℕ → D) (mst : List (Edge D)) (lens : ℕ → ℕ → W) (c : ℕ) : Option (SubPart K) :=
  let points := clusterPoints N labels c
  (coreGraphClusters sortRow lam (fun i => wt (points.getD i 0)) o points.length (inClusterNeighbors N points nb)
    (fun i => core (points.getD i 0)) (inClusterMst labels c points mst) (lens c)).map
    fun r => points.zipIdx.map fun p => (p.1, r.label p.2, r.strength p.2)

/-- `num_clusters`, sub_clusters.py:365, for `N` samples: `np.max` raises an error without samples. -/
def numClusters (N : ℕ) (labels : ℕ → ℤ) : Option ℕ :=
  (((List.range N).map labels).max?).map fun m => (m + 1).toNat

/-- The middle part of `find_sub_clusters`, sub_clusters.py:364-410, with `compute_sub_clusters_per_cluster`, sub_clusters.py:64-95: all
clusters, then `update_labels`.  `none` is an error: no samples, no cluster (nothing to unpack from `zip`), or an error in a cluster. -/
def subClustersFinite (sortRow : LensRow W D → LensRow W D) (lam : W → K) (wt : ℕ → K) (o : ClusterOpts K) (N : ℕ) (labels : ℕ → ℤ) (probs : ℕ → K)
    (nb : ℕ → List (Option ℕ)) (core : ℕ → D) (mst : List (Edge D)) (lens : ℕ → ℕ → W) : Option (SubArrays K) :=
  (numClusters N labels).bind fun num =>
    if num = 0 then none
    else ((List.range num).mapM (subClustersInCluster sortRow lam wt o N labels nb core mst lens)).bind
      (updateLabels (fun a b => (a + b) / 2) 0 probs)

end

/-! ## Back to all rows -/

/-- The arrays that `find_sub_clusters` returns. -/
structure SubOutput (K : Type*) where
  labels : List ℤ
  probs : List K
  clusterLabels : List ℤ
  clusterProbs : List K
  subLabels : List ℤ
  subProbs : List K

/-- `remap_results`, sub_clusters.py:188-242: `idx` is `finite_index`, `n` the number of rows.  Lens values are left out. -/
def remapResults [Zero K] [One K] (n : ℕ) (idx : List ℕ) (s : SubOutput K) : SubOutput K :=
  ⟨spreadValues n (-1) idx s.labels, spreadValues n 0 idx s.probs, spreadValues n (-1) idx s.clusterLabels, spreadValues n 0 idx s.clusterProbs,
    spreadValues n 0 idx s.subLabels, spreadValues n 1 idx s.subProbs⟩

/-- `a[finite_index]`. -/
def atFinite {α : Type*} (idx : List ℕ) (a : ℕ → α) : ℕ → α := fun i => a (idx.getD i 0)

/-- The remapped points of the clusters, sub_clusters.py:230-231. -/
def remapPoints (idx : List ℕ) (points : List ℕ) : List ℕ := points.map fun p => idx.getD p 0

section
variable [LinearOrder W] [OrderTop W] [Inhabited W] [LinearOrder D] [Field K] [LinearOrder K] [Inhabited K]

/-- `find_sub_clusters` after its checks, sub_clusters.py:333-455, without propagation: `n` rows, the stored condensed tree, neighbours, core
distances and spanning tree of the clusterer (the last three number the finite rows).  `lens` is the callback on the finite rows. -/
def findSubClusters (sortRow : LensRow W D → LensRow W D) (lam : W → K) (wt : ℕ → K) (o : ClusterOpts K) (n : ℕ) (tree : List (CRow K K))
    (labels : ℕ → ℤ) (probs : ℕ → K) (nb : ℕ → List (Option ℕ)) (core : ℕ → D) (mst : List (Edge D)) (lens : ℕ → ℕ → W) :
    Option (SubOutput K) :=
  let out (N : ℕ) (labels : ℕ → ℤ) (probs : ℕ → K) (s : SubArrays K) : SubOutput K :=
    ⟨(List.range N).map s.labels, (List.range N).map s.probs, (List.range N).map labels, (List.range N).map probs,
      (List.range N).map s.subLabels, (List.range N).map s.subProbs⟩
  match recoverFinite n tree with
  | none => (subClustersFinite sortRow lam wt o n labels probs nb core mst lens).map (out n labels probs)
  | some idx =>
    (subClustersFinite sortRow lam (atFinite idx wt) o idx.length (atFinite idx labels) (atFinite idx probs) nb core mst lens).map
      fun s => remapResults n idx (out idx.length (atFinite idx labels) (atFinite idx probs) s)

end

end Verif
