import Verif.Model.Select
import Verif.Model.Cut
import Mathlib.Data.List.Sort
import Mathlib.Order.WithBot
import Mathlib.Algebra.Field.Defs
import Mathlib.Algebra.Order.Monoid.Unbundled.WithTop

/-!
# Model of label assignment and membership strengths, cluster_trees.py:944-1031
-/

namespace Verif
variable {L S K : Type*}

/-- `np.sort(clusters)`, cluster_trees.py:954, 1016. -/
def sortIds (sel : List ℕ) : List ℕ := sel.insertionSort (· ≤ ·)

/-- Lookup in `cluster_label_map`, cluster_trees.py:954.  Of a repeated key the last position counts; `none` is the
`KeyError`. -/
def labelMap (sel : List ℕ) (c : ℕ) : Option ℤ :=
  if c ∈ sel then some (((sortIds sel).length - 1 - (sortIds sel).reverse.idxOf c : ℕ) : ℤ) else none

/-- Size of the disjoint set, cluster_trees.py:956. -/
def labelN (rows : List (CRow L S)) : ℕ :=
  max ((rows.map CRow.parent).foldl max 0 + 1) ((rows.map CRow.child).foldl max 0 + 1)

/-- Union loop of `get_cluster_label_vector`, cluster_trees.py:959-972; `ns` is `n_samples`. -/
def labelDS [Zero L] [DecidableEq L] (rows : List (CRow L S)) (sel : List ℕ) (ns : ℕ) : RankDS :=
  rows.foldl (fun d row =>
    if row.child ∉ sel then
      if row.child < ns ∧ row.lam = 0 then d else dsUnionByRank (labelN rows) d row.parent row.child
    else d) dsRankCreate

/-- Body of the second loop, cluster_trees.py:975-994, for sample `x` with representative `rep`.  `epsLam` is
`1 / cluster_selection_epsilon` when that parameter is positive.  `none` is an exception: `KeyError`, or a missing row. -/
def labelOne [LinearOrder L] (rows : List (CRow L S)) (sel : List ℕ) (epsLam : Option L) (rootId rep x : ℕ) :
    Option ℤ :=
  if rep < rootId then some (-1)
  else if rep = rootId then
    if sel.dedup.length = 1 then
      match ((rows.filter fun row => decide (row.parent = rep)).map CRow.lam).max?,
          rows.find? (fun row => decide (row.child = x)) with
      | some maxLam, some row =>
        match epsLam with
        | some e => if e ≤ row.lam then labelMap sel rep else some (-1)
        | none => if maxLam ≤ row.lam then labelMap sel rep else some (-1)
      | _, _ => none
    else some (-1)
  else labelMap sel rep

/-- `get_cluster_label_vector`, cluster_trees.py:944-996.  `reps` are the representatives of the samples below
`root_cluster` (`cutRoots` is the loop of `ds_find` calls); all callers have `root_cluster = n_samples`. -/
def labelVector [LinearOrder L] [Zero L] (rows : List (CRow L S)) (sel : List ℕ) (epsLam : Option L) (ns : ℕ) :
    Option (List ℤ) :=
  if rows.length = 0 ∨ sel.length = 0 then some (List.replicate ns (-1)) else
  let rootId := (rows.map CRow.parent).foldl min ((rows.map CRow.parent).headD 0)
  let reps := (cutRoots (labelN rows) (labelDS rows sel ns).parent rootId).2
  (List.range ns).mapM fun x =>
    match reps[x]? with
    | none => some (-1)
    | some rep => labelOne rows sel epsLam rootId rep x

/-- `max_lambdas`, cluster_trees.py:999-1008: the value for cluster `c`. -/
def maxLambda [LinearOrder L] [Zero L] [One S] [DecidableEq S] (rows : List (CRow L S)) (c : ℕ) : L :=
  rows.foldl (fun m row => if row.parent = c ∧ row.size = 1 then max m row.lam else m) 0

/-- cluster_trees.py:1024-1029: strength of a sample leaving at `lam` from a cluster with `max_lambda = mx`; a finite number
divided by `+inf` is 0. -/
def strengthOf [Field K] [LinearOrder K] (lam mx : WithTop K) : K :=
  if mx = 0 ∨ lam = ⊤ then 1
  else match min lam mx, mx with
    | (a : K), (b : K) => a / b
    | _, ⊤ => 0
    | ⊤, _ => 0

/-- Loop body of `get_point_membership_strength_vector`, cluster_trees.py:1018-1029; `none` is an exception. -/
def strengthStep [Field K] [LinearOrder K] [One S] [DecidableEq S] (rows : List (CRow (WithTop K) S)) (sel : List ℕ)
    (labels : List ℤ) (rootId : ℕ) (res : ℕ → K) (row : CRow (WithTop K) S) : Option (ℕ → K) :=
  if rootId ≤ row.child then some res
  else match labels[row.child]? with
    | none => none
    | some lab =>
      if lab < 0 then some res
      else match (sortIds sel)[lab.toNat]? with
        | none => none
        | some c => some (Function.update res row.child (strengthOf row.lam (maxLambda rows c)))

/-- `get_point_membership_strength_vector`, cluster_trees.py:1011-1031, in exact arithmetic. -/
def strengthVector [Field K] [LinearOrder K] [One S] [DecidableEq S] (rows : List (CRow (WithTop K) S))
    (sel : List ℕ) (labels : List ℤ) : Option (ℕ → K) :=
  if rows.length = 0 then none else
  let rootId := (rows.map CRow.parent).foldl min ((rows.map CRow.parent).headD 0)
  rows.foldlM (strengthStep rows sel labels rootId) (fun _ => 0)

end Verif
