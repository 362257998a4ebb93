import Verif.Model.Select
import Mathlib.Data.List.Sort
import Mathlib.Algebra.Order.Field.Basic

/-!
# Model of `cluster_epsilon_search`, cluster_trees.py:834-903
-/

namespace Verif
variable {L S K : Type*}

/-- `death_eps < min_epsilon` with `death_eps = 1 / lam` if `lam > 0` and `inf` otherwise, cluster_trees.py:855-857 and
874-876 (exact arithmetic). -/
def epsClose [Field K] [LinearOrder K] (eps lam : K) : Bool := decide (0 < lam ∧ 1 / lam < eps)

/-- `np.searchsorted(a, x)` on an ascending array. -/
def searchLeft (a : List ℕ) (x : ℕ) : ℕ := (a.takeWhile fun y => decide (y < x)).length

/-- `traverse_upwards`, cluster_trees.py:866-878 (fuel first).  `close lam` is `death_eps < min_epsilon`; `none`: `[0]` of an
empty array. -/
def traverseUpwards (close : L → Bool) (ct : List (CRow L S)) (root : ℕ) : ℕ → ℕ → Option ℕ
  | 0, _ => none
  | f + 1, seg =>
    match ct.find? (fun row => decide (row.child = seg)) with
    | none => none
    | some row =>
      if row.parent = root then some root
      else match ct.find? (fun r => decide (r.child = row.parent)) with
        | none => none
        | some prow => if close prow.lam then traverseUpwards close ct root f row.parent else some row.parent

/-- One iteration for one segment of `segments_in_branch`, cluster_trees.py:893-898. -/
def branchNext (parents children : List ℕ) (seg : ℕ) : List ℕ :=
  let idx := searchLeft parents seg
  if parents.length ≤ idx then [] else (children[idx]?).toList ++ (children[idx + 1]?).toList

/-- `segments_in_branch`, cluster_trees.py:881-903 (fuel first).  Sets are lists, only membership in them is used. -/
def segmentsInBranch (parents children : List ℕ) : ℕ → List ℕ → List ℕ
  | 0, _ => []
  | _ + 1, [] => []
  | f + 1, a :: as =>
    (a :: as) ++ segmentsInBranch parents children f ((a :: as).flatMap (branchNext parents children))

/-- Loop body of `cluster_epsilon_search`, cluster_trees.py:849-862; the state is `(selected, processed)`.  `none` is an index
out of range. -/
def epsStep (close : L → Bool) (ct byParent : List (CRow L S)) (root : ℕ) (st : List ℕ × List ℕ) (c : ℕ) :
    Option (List ℕ × List ℕ) :=
  match ct[searchLeft (ct.map CRow.child) c]? with
  | none => none
  | some row =>
    if close row.lam then
      if c ∈ st.2 then some st
      else match traverseUpwards close ct root (ct.length + 1) c with
        | none => none
        | some p =>
          some (st.1 ++ [p], st.2 ++
            segmentsInBranch (byParent.map CRow.parent) (byParent.map CRow.child) (ct.length + 2) [p])
    else some (st.1 ++ [c], st.2)

/-- `cluster_epsilon_search`, cluster_trees.py:834-863.  Only called with a non-empty cluster tree. -/
def epsilonSearch (close : L → Bool) (ct : List (CRow L S)) (sel : List ℕ) : Option (List ℕ) :=
  let byParent := ct.insertionSort (fun a b : CRow L S => a.parent ≤ b.parent)
  let root := (ct.map CRow.parent).foldl min ((ct.map CRow.parent).headD 0)
  (sel.foldlM (epsStep close ct byParent root) ([], [])).map Prod.fst

end Verif
