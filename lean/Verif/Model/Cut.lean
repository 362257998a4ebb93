import Verif.Model.Linkage
import Verif.Model.DisjointSet
import Mathlib.Data.List.Dedup
import Mathlib.Data.List.Count

/-!
# Model of `get_cluster_labelling_at_cut` in `fast_hdbscan/cluster_trees.py`
-/

namespace Verif
variable {W S : Type*}

/-- First loop, cluster_trees.py:912-919: `ds_union_by_rank` on a structure of `2 * len(rows) + 1` elements for all rows
below the cut. -/
def cutDS [LT W] [DecidableLT W] (rows : List (LRow W S)) (cut : W) : RankDS :=
  let m := 2 * rows.length + 1
  let n := rows.length + 1
  rows.zipIdx.foldl (fun d p =>
    if p.1.d < cut then dsUnionByRank m (dsUnionByRank m d p.1.l (n + p.2)) p.1.r (n + p.2) else d)
    dsRankCreate

/-- Second loop, cluster_trees.py:922-925: the parent array and the representatives of the first `i` points. -/
def cutRoots (m : ℕ) (p : ℕ → ℕ) : ℕ → (ℕ → ℕ) × List ℕ
  | 0 => (p, [])
  | i + 1 =>
    let r := cutRoots m p i
    let f := dsFind m r.1 i
    (f.1, r.2 ++ [f.2])

/-- Third loop, cluster_trees.py:931-936, one iteration; the state is the dictionary and the next label. -/
def cutLabelStep (size : ℕ → ℕ) (mcs : ℕ) (st : (ℕ → ℤ) × ℕ) (c : ℕ) : (ℕ → ℤ) × ℕ :=
  if size c < mcs then (Function.update st.1 c (-1), st.2)
  else (Function.update st.1 c (st.2 : ℤ), st.2 + 1)

/-- `get_cluster_labelling_at_cut`, cluster_trees.py:905-941.  `cluster_size` counts the points of a representative;
`np.unique` sorts and removes duplicates.  The `prange` loop 938-939 writes disjoint entries. -/
def cutLabels [LT W] [DecidableLT W] (rows : List (LRow W S)) (cut : W) (mcs : ℕ) : List ℤ :=
  let reps := (cutRoots (2 * rows.length + 1) (cutDS rows cut).parent (rows.length + 1)).2
  let labelMap := ((reps.dedup.insertionSort (· ≤ ·)).foldl (cutLabelStep (fun c => reps.count c) mcs)
    (fun _ => -1, 0)).1
  reps.map labelMap

end Verif
