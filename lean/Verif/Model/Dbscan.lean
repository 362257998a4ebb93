import Verif.Model.Fit
import Verif.Model.Cut

/-!
# Model of `HDBSCAN.dbscan_clustering`, hdbscan.py
-/

namespace Verif
variable {W K : Type*}

/-- `HDBSCAN.dbscan_clustering`, hdbscan.py:824-834.  `none` as first argument is an estimator that was not fitted; `check_is_fitted` then raises
`NotFittedError`, here `none`.  `minSamples` and `minClusterSize` are the parameters of the estimator. -/
def dbscanClustering [LT W] [DecidableLT W] (fitted : Option (FitResult W K)) (minSamples : Option ℕ) (minClusterSize : ℕ) (eps : W) :
    Option (List ℤ) :=
  match fitted with
  | none => none
  | some r =>
    some (cutLabels r.linkage eps (match minSamples with
      | some k => k
      | none => minClusterSize))

end Verif
