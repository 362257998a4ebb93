import Verif.Model.SubDetector
import Mathlib.Algebra.Module.Basic
import Mathlib.Algebra.Order.AddGroupWithTop

/-!
# Model of `compute_centrality`, branches.py:5-10, and of `BranchDetector.fit` with it

Samples are vectors over an ordered field `K`; `norm` stands for `np.linalg.norm`.  Not modelled: rounding of floating point numbers.
-/

namespace Verif
variable {E K V D : Type*}

section
variable [Field K] [LinearOrder K] [AddCommGroup E] [Module K E]

/-- `np.average` with weights, branches.py:8: `ZeroDivisionError` (`none`) if the weights add up to 0. -/
def centroid (data : ℕ → E) (probs : ℕ → K) (points : List ℕ) : Option E :=
  let total := (points.map probs).sum
  if total = 0 then none else some (total⁻¹ • (points.map fun p => probs p • data p).sum)

/-- `1 / norm`, branches.py:10; `1 / 0` is infinite. -/
def inverseNorm (norm : E → K) (x : E) : WithTop K := if norm x = 0 then ⊤ else ((norm x)⁻¹ : K)

/-- `compute_centrality`, branches.py:5-10. -/
def computeCentrality (norm : E → K) (data : ℕ → E) (probs : ℕ → K) (points : List ℕ) : Option (List (WithTop K)) :=
  (centroid data probs points).map fun m => points.map fun p => inverseNorm norm (data p - m)

/-- The lens values of all clusters, sub_clusters.py:42-45 in the loop sub_clusters.py:81-95 (the value 0 beyond the list is never read). -/
def centralities (norm : E → K) (data : ℕ → E) (N : ℕ) (labels : ℕ → ℤ) (probs : ℕ → K) : Option (ℕ → ℕ → WithTop K) :=
  (numClusters N labels).bind fun num =>
    ((List.range num).mapM fun c : ℕ => computeCentrality norm data probs (clusterPoints N labels c)).map fun ls c i => (ls.getD c []).getD i 0

/-- `BranchDetector.fit`, branches.py:112-126: the lens values of the kept rows, `SubClusterDetector.fit`, then the threshold. -/
def branchFit [Inhabited K] [LinearOrder D] [Add V] [LT V] [DecidableLT V] (inv : WithTop K → Option V) (zero : V) (propagate sides : Bool) (norm : E → K)
    (sortRow : LensRow (WithTop K) D → LensRow (WithTop K) D) (lam : WithTop K → K) (wt : ℕ → K) (o : ClusterOpts K) (n : ℕ) (tree : List (CRow K K))
    (data : ℕ → E) (labels : ℕ → ℤ) (probs : ℕ → K) (nb : ℕ → List (Option ℕ)) (core : ℕ → D) (mst : List (Edge D)) : Option (DetectorFit (WithTop K) D K) :=
  let idx := (recoverFinite n tree).getD (List.range n)
  (centralities norm (atFinite idx data) idx.length (atFinite idx labels) (atFinite idx probs)).bind fun lens =>
    (detectorFit inv zero propagate sortRow lam wt o n tree labels probs nb core mst lens).bind (DetectorFit.branches sides)

end

end Verif
