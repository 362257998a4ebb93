import Verif.Spec.Selection
import Mathlib.Algebra.Field.Defs
import Mathlib.Algebra.BigOperators.Group.Finset.Defs
import Mathlib.Data.Finset.Range
import Mathlib.Data.Finset.Card

/-!
# Independent specification: B-cubed quality of a cluster (Castro Gertrudes et al. 2019)

Some samples carry a class label; `all` are the labelled samples, `P` the labelled samples of one cluster.
-/

namespace Verif
variable {L S K : Type*}

/-- Number of samples of `P` in the same class as `p`. -/
def sameClass (lab : ℕ → ℤ) (P : Finset ℕ) (p : ℕ) : ℕ := (P.filter fun q => lab q = lab p).card

/-- B-cubed F-measure contributed by the cluster with labelled samples `P`: the mean over all labelled samples of the
harmonic mean of precision and recall, counting only the samples of the cluster. -/
def bcubedF [Field K] (lab : ℕ → ℤ) (all P : Finset ℕ) : K :=
  (∑ p ∈ P,
    let precision := (sameClass lab P p : K) / (P.card : K)
    let recall := (sameClass lab P p : K) / (sameClass lab all p : K)
    2 * precision * recall / (precision + recall)) / (all.card : K)

/-- The labelled samples (labels are `≥ 0`) among the first `m` samples. -/
def labelledSamples (m : ℕ) (lab : ℕ → ℤ) : Finset ℕ := (Finset.range m).filter fun x => 0 ≤ lab x

open Classical in
/-- The labelled samples below `c`. -/
noncomputable def labelledBelow (rows : List (CRow L S)) (m : ℕ) (lab : ℕ → ℤ) (c : ℕ) : Finset ℕ :=
  (labelledSamples m lab).filter fun x => CDesc rows c x

/-- Sample `x` is labelled and left, as noise, a cluster that splits further. -/
def LabelledNoise (n : ℕ) (rows : List (CRow L S)) (m : ℕ) (lab : ℕ → ℤ) (x : ℕ) : Prop :=
  x ∈ labelledSamples m lab ∧ ∃ p, CStep rows p x ∧ ¬ Childless n rows p

end Verif
