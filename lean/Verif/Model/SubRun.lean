import Verif.Model.SubDetector

/-!
# Model of a call of `SubClusterDetector.fit` on a fitted clusterer, sub_clusters.py
-/

namespace Verif
variable {W D K V : Type*}

/-- What the detectors read from a fitted clusterer, sub_clusters.py:280-296, 334-337, 383-385.  Neighbours, core distances and the spanning tree number the
finite rows, the rest all rows.  -/
structure FittedClusterer (D K : Type*) where
  rows : ℕ
  opts : ClusterOpts K
  labels : ℕ → ℤ
  probs : ℕ → K
  tree : List (CRow K K)
  nb : ℕ → List (Option ℕ)
  core : ℕ → D
  mst : List (Edge D)

/-- What `HDBSCAN.fit` leaves behind: the result `r` for `rows` rows, and neighbours, core distances and spanning tree of the finite rows, hdbscan.py:787-820. -/
def FitResult.clusterer [Zero K] (rows : ℕ) (opts : ClusterOpts K) (r : FitResult D K) (nb : ℕ → List (Option ℕ)) (core : ℕ → D) (mst : List (Edge D)) :
    FittedClusterer D K :=
  ⟨rows, opts, fun i => r.labels.getD i (-1), fun i => r.strengths.getD i 0, r.condensed, nb, core, mst⟩

/-- Parameters of the detector and arguments of `fit`, sub_clusters.py:463-490, after the checks of `checkSubArgs`; `none` is `None`.  (A `max_cluster_size` of
`some none` is `inf`.) -/
structure SubRunArgs (K : Type*) where
  labels : Option (ℕ → ℤ) := none
  probs : Option (ℕ → K) := none
  weights : Option (ℕ → K) := none
  minClusterSize : Option K := none
  maxClusterSize : Option (Option K) := none
  allowSingle : Option Bool := none
  method : Option Method := none
  epsilon : K
  persistence : K
  propagate : Bool := false

/-- The options for the clusters inside the clusters, sub_clusters.py:289-296: those of the clusterer for the arguments that are `None`.  The epsilon and the
persistence of the clusterer are not used. -/
def subOptions (o : ClusterOpts K) (a : SubRunArgs K) : ClusterOpts K :=
  ⟨a.minClusterSize.getD o.minClusterSize, a.method.getD o.method, a.maxClusterSize.getD o.maxClusterSize, a.allowSingle.getD o.allowSingle,
    a.epsilon, a.persistence⟩

/-- An array of lens values as a callback, sub_clusters.py:351-362: the value of the `i`-th sample of cluster `c`. -/
def arrayLens [Inhabited W] (n : ℕ) (tree : List (CRow K K)) [Zero K] [LT K] [DecidableLT K] (labels : ℕ → ℤ) (values : List W) (c i : ℕ) : W :=
  match recoverFinite n tree with
  | none => values.getD ((clusterPoints n labels c).getD i 0) default
  | some idx => values.getD (idx.getD ((clusterPoints idx.length (atFinite idx labels) c).getD i 0) 0) default

/-- `SubClusterDetector.fit`, sub_clusters.py:483-523, with an array of lens values: `find_sub_clusters`, sub_clusters.py:279-455, after the checks of
`checkSubArgs`.  `none` is an error: nothing but noise, sub_clusters.py:330-331, the wrong number of lens values, sub_clusters.py:352-356, or an error in what
follows.  `_check_sample_weight` is not modelled. -/
def runDetector [LinearOrder W] [OrderTop W] [Inhabited W] [LinearOrder D] [Field K] [LinearOrder K] [Inhabited K] [Add V] [LT V] [DecidableLT V]
    (inv : W → Option V) (zero : V) (sortRow : LensRow W D → LensRow W D) (lam : W → K) (c : FittedClusterer D K) (a : SubRunArgs K) (values : List W) :
    Option (DetectorFit W D K) :=
  let lp := subInputs c.labels c.probs 1 a.labels a.probs
  if (List.range c.rows).all fun i => decide (lp.1 i = -1) then none
  else if values.length ≠ c.rows then none
  else
    detectorFit inv zero a.propagate sortRow lam (a.weights.getD fun _ => 1) (subOptions c.opts a) c.rows c.tree lp.1 lp.2 c.nb c.core c.mst
      (arrayLens c.rows c.tree lp.1 values)

end Verif
