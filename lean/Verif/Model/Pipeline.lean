import Verif.Model.Linkage
import Verif.Model.Condense
import Verif.Model.Simplify
import Verif.Model.Epsilon
import Verif.Model.Labels

/-!
# Model of `clusters_from_spanning_tree`, hdbscan.py:497-574

Exact arithmetic over an ordered field `K`; distances are elements of `W`, `lam` turns them into lambdas.  `+inf` as a
lambda (distance 0) is represented by a number of `K` larger than the other lambdas.  Semi-supervised selection is not part
of this function; see `Model/Bcubed.lean`.
-/

namespace Verif
variable {W K : Type*}

/-- `cluster_selection_method`. -/
inductive Method
  | eom
  | leaf
deriving DecidableEq

/-- Parameters of `clusters_from_spanning_tree`. -/
structure ClusterOpts (K : Type*) where
  minClusterSize : K
  method : Method
  /-- `none` is `inf` -/
  maxClusterSize : Option K
  allowSingle : Bool
  epsilon : K
  persistence : K

/-- hdbscan.py:529-532. -/
def simplifyIf [Ring K] [LinearOrder K] (persistence : K) (rows : List (CRow K K)) : Option (List (CRow K K)) :=
  if 0 < persistence ∧ 0 < rows.length then simplifyHierarchy persistence rows else some rows

/-- hdbscan.py:534-558. -/
def baseSelection [Ring K] [LinearOrder K] (o : ClusterOpts K) (n : ℕ) (rows : List (CRow K K)) : Option (List ℕ) :=
  match o.method with
  | .eom => extractEom rows o.maxClusterSize o.allowSingle
  | .leaf => some (leafSelection (clusterTree rows) n)

/-- hdbscan.py:560-565. -/
def epsilonIf [Field K] [LinearOrder K] (eps : K) (rows : List (CRow K K)) (sel : List ℕ) : Option (List ℕ) :=
  if 1 < sel.length ∧ 0 < eps then epsilonSearch (epsClose eps) (clusterTree rows) sel else some sel

/-- `1 / cluster_selection_epsilon` if that is positive, cluster_trees.py:981-982. -/
def epsLam [Field K] [LinearOrder K] (eps : K) : Option K := if 0 < eps then some (1 / eps) else none

universe u

/-- The returned tuple, hdbscan.py:574, with the selected clusters.  Lambdas are of type `L`. -/
structure ClusterResult (W : Type*) (K : Type u) (L : Type u := K) where
  labels : List ℤ
  strengths : ℕ → K
  linkage : List (LRow W K)
  condensed : List (CRow L K)
  sortedMst : List (Edge W)
  selected : List ℕ

/-- `clusters_from_spanning_tree`, hdbscan.py:497-574.  `wt` is `sample_weights` (constant one if not given). -/
def clustersFromMst [Field K] [LinearOrder K] [LinearOrder W] [Inhabited W] [Inhabited K] (lam : W → K) (wt : ℕ → K)
    (o : ClusterOpts K) (mst : List (Edge W)) : Option (ClusterResult W K) :=
  let n := mst.length + 1
  let sortedMst := lexsortMst mst
  let linkage := mstToLinkage wt sortedMst
  (simplifyIf o.persistence (condenseTree (Hier.ofRows linkage) wt o.minClusterSize none lam)).bind fun rows =>
  (baseSelection o n rows).bind fun sel0 =>
  (epsilonIf o.epsilon rows sel0).bind fun sel =>
  (labelVector rows sel (epsLam o.epsilon) n).bind fun labels =>
  (strengthVector (rows.map fun row => ⟨row.parent, row.child, (row.lam : WithTop K), row.size⟩) sel labels).map
    fun strengths => ⟨labels, strengths, linkage, rows, sortedMst, sel⟩

end Verif
