import Verif.Model.FindSub

/-!
# Model of the classes `SubClusterDetector` (sub_clusters.py) and `BranchDetector` (branches.py)

Not modelled: the classes of the package `hdbscan` that the properties `approximation_graph_`, `condensed_trees_`, `linkage_trees_` and `spanning_trees_`
build, and the check that the detector was fitted.
-/

namespace Verif
variable {W D K V : Type*}

/-- What `compute_sub_clusters_in_cluster` returns for one cluster, sub_clusters.py:47-61: the samples, the clustering and the core graph. -/
structure SubCluster (W D K : Type*) where
  points : List ℕ
  result : LensClusters W K
  graph : LensCsr W D

/-- Whether there is a linkage tree, sub_clusters.py:400. -/
def LensClusters.hasTree : LensClusters W K → Bool
  | .components _ _ => false
  | .clustered r => decide (0 < r.linkage.length)

/-- The samples of a cluster with their labels and strengths. -/
def SubCluster.part [One K] (c : SubCluster W D K) : SubPart K :=
  c.points.zipIdx.map fun p => (p.1, c.result.label p.2, c.result.strength p.2)

/-- The entries of the core graph, in the order of the arrays. -/
def SubCluster.edges (c : SubCluster W D K) : List (Edge W) :=
  (coreGraphEdgeList c.points.length c.graph).map fun e => ⟨e.1, e.2.1, e.2.2.1⟩

/-- The propagation of labels inside the cluster, sub_clusters.py:178-180.  The fuel covers one sweep for each sample (C47). -/
def SubCluster.propagate [Add V] [LT V] [DecidableLT V] (inv : W → Option V) (zero : V) (c : SubCluster W D K) : List ℕ × (List ℤ → Option (List ℤ)) :=
  (c.points, propagateList inv zero c.edges (c.points.length + 1))

/-- Attributes of a fitted detector; lens values are left out. -/
structure DetectorFit (W D K : Type*) where
  out : SubOutput K
  clusters : List (SubCluster W D K)

section
variable [LinearOrder W] [OrderTop W] [Inhabited W] [LinearOrder D] [Field K] [LinearOrder K] [Inhabited K]

/-- `compute_sub_clusters_in_cluster`, sub_clusters.py:16-61, with all that is returned. -/
def subClusterOf (sortRow : LensRow W D → LensRow W D) (lam : W → K) (wt : ℕ → K) (o : ClusterOpts K) (N : ℕ) (labels : ℕ → ℤ)
    (nb : ℕ → List (Option ℕ)) (core : ℕ → D) (mst : List (Edge D)) (lens : ℕ → ℕ → W) (c : ℕ) : Option (SubCluster W D K) :=
  let points := clusterPoints N labels c
  let nb' := inClusterNeighbors N points nb
  let core' := fun i => core (points.getD i 0)
  let mst' := inClusterMst labels c points mst
  (coreGraphClusters sortRow lam (fun i => wt (points.getD i 0)) o points.length nb' core' mst' (lens c)).map
    fun r => ⟨points, r, lensGraph sortRow points.length nb' core' mst' (lens c)⟩

/-- `compute_sub_clusters_per_cluster`, sub_clusters.py:64-95, with the number of clusters, sub_clusters.py:365. -/
def subClustersOf (sortRow : LensRow W D → LensRow W D) (lam : W → K) (wt : ℕ → K) (o : ClusterOpts K) (N : ℕ) (labels : ℕ → ℤ)
    (nb : ℕ → List (Option ℕ)) (core : ℕ → D) (mst : List (Edge D)) (lens : ℕ → ℕ → W) : Option (List (SubCluster W D K)) :=
  (numClusters N labels).bind fun num =>
    if num = 0 then none else (List.range num).mapM (subClusterOf sortRow lam wt o N labels nb core mst lens)

/-- The labels and cluster-local labels after the optional propagation, sub_clusters.py:412-416. -/
def propagateIf [Add V] [LT V] [DecidableLT V] (inv : W → Option V) (zero : V) (propagate : Bool) (cs : List (SubCluster W D K)) (s : SubArrays K) :
    Option (SubArrays K) :=
  if propagate then
    (propagateSub (cs.map (SubCluster.propagate inv zero)) ⟨s.labels, s.subLabels, 0⟩).map fun a => { s with labels := a.labels, subLabels := a.subLabels }
  else some s

/-- The first `N` entries of the arrays. -/
def arraysOut (N : ℕ) (labels : ℕ → ℤ) (probs : ℕ → K) (s : SubArrays K) : SubOutput K :=
  ⟨(List.range N).map s.labels, (List.range N).map s.probs, (List.range N).map labels, (List.range N).map probs,
    (List.range N).map s.subLabels, (List.range N).map s.subProbs⟩

/-- `find_sub_clusters` on the finite rows, sub_clusters.py:364-416. -/
def detectorFinite [Add V] [LT V] [DecidableLT V] (inv : W → Option V) (zero : V) (propagate : Bool) (sortRow : LensRow W D → LensRow W D) (lam : W → K)
    (wt : ℕ → K) (o : ClusterOpts K) (N : ℕ) (labels : ℕ → ℤ) (probs : ℕ → K) (nb : ℕ → List (Option ℕ)) (core : ℕ → D) (mst : List (Edge D))
    (lens : ℕ → ℕ → W) : Option (DetectorFit W D K) :=
  (subClustersOf sortRow lam wt o N labels nb core mst lens).bind fun cs =>
    ((updateLabels (fun a b => (a + b) / 2) 0 probs (cs.map SubCluster.part)).bind (propagateIf inv zero propagate cs)).map
      fun s => ⟨arraysOut N labels probs s, cs⟩

/-- `SubClusterDetector.fit`, sub_clusters.py:483-523, after the checks: `find_sub_clusters`, sub_clusters.py:333-455, with its trees and graphs.  The samples of
each cluster are renumbered as rows, sub_clusters.py:230-231. -/
def detectorFit [Add V] [LT V] [DecidableLT V] (inv : W → Option V) (zero : V) (propagate : Bool) (sortRow : LensRow W D → LensRow W D) (lam : W → K)
    (wt : ℕ → K) (o : ClusterOpts K) (n : ℕ) (tree : List (CRow K K)) (labels : ℕ → ℤ) (probs : ℕ → K) (nb : ℕ → List (Option ℕ)) (core : ℕ → D)
    (mst : List (Edge D)) (lens : ℕ → ℕ → W) : Option (DetectorFit W D K) :=
  match recoverFinite n tree with
  | none => detectorFinite inv zero propagate sortRow lam wt o n labels probs nb core mst lens
  | some idx =>
    (detectorFinite inv zero propagate sortRow lam (atFinite idx wt) o idx.length (atFinite idx labels) (atFinite idx probs) nb core mst lens).map
      fun f => ⟨remapResults n idx f.out, f.clusters.map fun c => { c with points := remapPoints idx c.points }⟩

end

/-- `SubClusterDetector.propagated_labels`, sub_clusters.py:525-537: the labels and the cluster-local labels.  The code works on copies. -/
def DetectorFit.propagatedLabels [Add V] [LT V] [DecidableLT V] (inv : W → Option V) (zero : V) (f : DetectorFit W D K) : Option (List ℤ × List ℤ) :=
  (propagateSub (f.clusters.map (SubCluster.propagate inv zero)) ⟨fun i => f.out.labels.getD i (-1), fun i => f.out.subLabels.getD i 0, 0⟩).map fun a =>
    ((List.range f.out.labels.length).map a.labels, (List.range f.out.labels.length).map a.subLabels)

/-- The samples of the clusters and whether they have a linkage tree, as given to `apply_branch_threshold`, branches.py:119-120, 138-139. -/
def DetectorFit.branchClusters (f : DetectorFit W D K) : List (List ℕ × Bool) := f.clusters.map fun c => (c.points, c.result.hasTree)

/-- `BranchDetector.fit` after `SubClusterDetector.fit`, branches.py:112-126. -/
def DetectorFit.branches [Zero K] (sides : Bool) (f : DetectorFit W D K) : Option (DetectorFit W D K) :=
  (applyBranchThreshold sides (fun i => f.out.labels.getD i (-1)) (fun i => f.out.subLabels.getD i 0) (fun i => f.out.probs.getD i 0)
    (fun i => f.out.clusterProbs.getD i 0) f.branchClusters).map fun s =>
      { f with out := { f.out with labels := (List.range f.out.labels.length).map s.labels, probs := (List.range f.out.labels.length).map s.probs } }

/-- `BranchDetector.propagated_labels`, branches.py:128-142. -/
def DetectorFit.branchPropagated [Add V] [LT V] [DecidableLT V] (inv : W → Option V) (zero : V) (sides : Bool) (f : DetectorFit W D K) :
    Option (List ℤ × List ℤ) :=
  (f.propagatedLabels inv zero).bind fun l =>
    (applyBranchThreshold sides (fun i => l.1.getD i (-1)) (fun i => l.2.getD i 0) (fun _ => ()) (fun _ => ()) f.branchClusters).map fun s =>
      ((List.range l.1.length).map s.labels, l.2)

/-- The edges of `approximation_graph_`, sub_clusters.py:553-558: one list for each cluster, with the samples as rows. -/
def DetectorFit.approximationEdges (f : DetectorFit W D K) : List (List (ℕ × ℕ × W × D)) :=
  f.clusters.map fun c => (coreGraphEdgeList c.points.length c.graph).map fun e => (c.points.getD e.1 0, c.points.getD e.2.1 0, e.2.2)

end Verif
