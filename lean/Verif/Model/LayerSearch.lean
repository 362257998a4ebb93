import Verif.Model.Pipeline
import Mathlib.Algebra.Order.Group.Abs
import Mathlib.Algebra.Order.Group.Int

/-!
# Model of the search for a number of clusters, layer_clusters.py:71-178

The tree is `mst_to_linkage_tree(sorted_mst)` without sample weights (layer_clusters.py:172), every sample counts 1.
-/

namespace Verif
variable {W K : Type*}

/-- `int(round((lower + upper) / 2.0))`, layer_clusters.py:75-77, 89-91: halves go to the even neighbour. -/
def roundMid (lower upper : ℕ) : ℕ :=
  let q := (lower + upper) / 2
  if (lower + upper) % 2 = 0 then q else if q % 2 = 0 then q else q + 1

/-- Bounds and the number of leaves at each. -/
structure SearchState where
  lower : ℕ
  upper : ℕ
  lowerN : ℕ
  upperN : ℕ

/-- The loop of `_binary_search_for_n_clusters`, layer_clusters.py:88-108 (fuel first, one unit per round).  `count s` is
`len(extract_leaves(condense_tree(uncondensed_tree, s)))`; `none` is an exception there. -/
def searchLoop (count : ℕ → Option ℕ) (approx : ℤ) : ℕ → SearchState → Option SearchState
  | 0, st => some st
  | f + 1, st =>
    if 1 < (st.upper : ℤ) - st.lower then
      let mid := roundMid st.lower st.upper
      if mid = st.lower ∨ mid = st.upper then some st
      else (count mid).bind fun midN =>
        if (midN : ℤ) < approx then searchLoop count approx f { st with upper := mid, upperN := midN }
        else searchLoop count approx f { st with lower := mid, lowerN := midN }
    else some st

/-- The returned triple, layer_clusters.py:117, 124, 142, 147. -/
structure LeafResult (K : Type*) where
  leaves : List ℕ
  labels : List ℤ
  strengths : ℕ → K

section
variable [Field K] [LinearOrder K]

/-- `condense_tree(uncondensed_tree, s)`, layer_clusters.py:80, 84, 96, 113, 120, 126, 131. -/
def searchTree [Inhabited W] [Inhabited K] (lam : W → K) (linkage : List (LRow W K)) (s : ℕ) : List (CRow K K) :=
  condenseTree (Hier.ofRows linkage) (fun _ => 1) (s : K) none lam

/-- `get_point_membership_strength_vector` on a tree with finite lambdas. -/
def finiteStrengths (rows : List (CRow K K)) (sel : List ℕ) (labels : List ℤ) : Option (ℕ → K) :=
  strengthVector (rows.map fun row => ⟨row.parent, row.child, (row.lam : WithTop K), row.size⟩) sel labels

/-- Leaves, labels and strengths of one tree, layer_clusters.py:113-117, 120-124. -/
def leafResult (rows : List (CRow K K)) (n : ℕ) : Option (LeafResult K) :=
  (extractLeaves rows).bind fun leaves => (labelVector rows leaves none n).bind fun labels =>
    (finiteStrengths rows leaves labels).map fun strengths => ⟨leaves, labels, strengths⟩

/-- `np.sum(clusters >= 0)`, layer_clusters.py:137. -/
def labelledCount (labels : List ℤ) : ℕ := labels.countP fun l => decide (0 ≤ l)

/-- `_binary_search_for_n_clusters`, layer_clusters.py:71-145.  The tie case computes the strengths only of the labelling it returns;
here both are computed first. -/
def binarySearchClusters [Inhabited W] [Inhabited K] (lam : W → K) (linkage : List (LRow W K)) (approx : ℤ) (n : ℕ) :
    Option (LeafResult K) :=
  let count := fun s => (extractLeaves (searchTree lam linkage s)).map List.length
  (count (n / 2)).bind fun upperN => (count 2).bind fun lowerN =>
  (searchLoop count approx n ⟨2, n / 2, lowerN, upperN⟩).bind fun st =>
    if |(st.lowerN : ℤ) - approx| < |(st.upperN : ℤ) - approx| then leafResult (searchTree lam linkage st.lower) n
    else if |(st.upperN : ℤ) - approx| < |(st.lowerN : ℤ) - approx| then leafResult (searchTree lam linkage st.upper) n
    else (leafResult (searchTree lam linkage st.lower) n).bind fun lo => (leafResult (searchTree lam linkage st.upper) n).bind fun up =>
      if labelledCount up.labels < labelledCount lo.labels then some lo else some up

end
end Verif
