import Verif.Model.Bcubed
import Verif.Model.Pipeline
import Verif.Model.KruskalApi

/-!
# Model of parameter validation, dispatch and `HDBSCAN.fit`, hdbscan.py
-/

namespace Verif
variable {W K S : Type*}

/-! ## Parameters -/

/-- A Python value as the checks of `fast_hdbscan` see it: an integer (Python or numpy, not `bool`), a float (`none` is NaN), `None`, or
anything else. -/
inductive PyVal (K : Type*)
  | int (z : ℤ)
  | float (x : Option K)
  | pyNone
  | other
  deriving DecidableEq

/-- `np.issubdtype(type(x), np.integer)`. -/
def PyVal.isInt : PyVal K → Bool
  | .int _ => true
  | _ => false

/-- `np.issubdtype(type(x), np.floating)`. -/
def PyVal.isFloat : PyVal K → Bool
  | .float _ => true
  | _ => false

/-- `x is None`. -/
def PyVal.isNone : PyVal K → Bool
  | .pyNone => true
  | _ => false

/-- `x <= 0` for an integer. -/
def PyVal.intNonpos : PyVal K → Bool
  | .int z => decide (z ≤ 0)
  | _ => false

/-- `x < 0.0` for a float; comparisons with NaN are false. -/
def PyVal.floatNeg [Zero K] [LT K] [DecidableLT K] : PyVal K → Bool
  | .float (some x) => decide (x < 0)
  | _ => false

/-- The arguments of `fast_hdbscan` that decide whether it raises and which routine runs, hdbscan.py:199-221.  Strings are kept; the shape
of `data` is its number of rows and of columns (features). -/
structure CallArgs (K : Type*) where
  rows : ℕ
  features : ℕ
  metric : String
  algorithm : String
  method : String
  ssAlgorithm : String
  semiSupervised : Bool
  hasLabels : Bool
  hasWeights : Bool
  hasCannotLink : Bool
  hasGroups : Bool
  minSamples : PyVal K
  minClusterSize : PyVal K
  epsilon : PyVal K
  persistence : PyVal K

/-- The errors raised on account of the arguments. -/
inductive ArgError
  | weightsPrecomputed | emptyData | labelsMissing | ssAlgorithm | sizes | epsilon | persistence | algorithm | bothConstraints
  | constraintAlgorithm | weightsMetric | method
  deriving DecidableEq

/-- The routine that computes the spanning tree. -/
inductive Route
  | singleRow | precomputedKruskal | precomputedBoruvka | knnGraph | euclideanKruskal | euclideanBoruvka
  deriving DecidableEq

/-- Does the call of the routine pass `cannot_link`, `validate_cannot_link` and `cannot_link_groups` on?  hdbscan.py:432-438, 456-462,
470-479, 482-494. -/
def Route.passesConstraints : Route → Bool
  | .precomputedKruskal | .euclideanKruskal => true
  | _ => false

/-- First part of `fast_hdbscan`, hdbscan.py:226-275.  `check_array` raises an error for data without rows; other errors of `check_array`,
of `_check_sample_weight` and a missing `pynndescent` are not modelled. -/
def checkArgs [Zero K] [LT K] [DecidableLT K] (a : CallArgs K) : Except ArgError Unit :=
  if a.metric = "precomputed" ∧ a.hasWeights then .error .weightsPrecomputed
  else if a.metric ≠ "precomputed" ∧ a.rows = 0 then .error .emptyData
  else if a.semiSupervised ∧ ¬ a.hasLabels then .error .labelsMissing
  else if a.semiSupervised ∧ a.ssAlgorithm ∉ ["bc", "bc_simple"] then .error .ssAlgorithm
  else if ¬ (a.minSamples.isInt ∨ a.minSamples.isNone) ∨ ¬ a.minClusterSize.isInt ∨ (¬ a.minSamples.isNone ∧ a.minSamples.intNonpos)
      ∨ a.minClusterSize.intNonpos then .error .sizes
  else if ¬ a.epsilon.isFloat ∨ a.epsilon.floatNeg then .error .epsilon
  else if ¬ a.persistence.isFloat ∨ a.persistence.floatNeg then .error .persistence
  else .ok ()

/-- The dispatch of `compute_minimum_spanning_tree`, hdbscan.py:405-494. -/
def dispatchMst (a : CallArgs K) : Except ArgError Route :=
  if a.algorithm ∉ ["boruvka", "kruskal"] then .error .algorithm
  else if a.hasCannotLink ∧ a.hasGroups then .error .bothConstraints
  else if (a.hasCannotLink ∨ a.hasGroups) ∧ a.algorithm ≠ "kruskal" then .error .constraintAlgorithm
  else if a.metric = "precomputed" then
    if a.hasWeights then .error .weightsPrecomputed
    else if a.algorithm = "kruskal" then .ok .precomputedKruskal else .ok .precomputedBoruvka
  else if a.metric ∉ ["euclidean", "precomputed"] ∨ (a.features > 30 ∧ ¬ a.hasWeights) then
    if a.hasWeights then .error .weightsMetric else .ok .knnGraph
  else if a.algorithm = "kruskal" then .ok .euclideanKruskal else .ok .euclideanBoruvka

/-- `fast_hdbscan` as far as its arguments decide, hdbscan.py:226-336 with 558: the routine that computes the spanning tree, or the
error. -/
def planCall [Zero K] [LT K] [DecidableLT K] (a : CallArgs K) : Except ArgError Route :=
  match checkArgs a with
  | .error e => .error e
  | .ok () =>
    if a.rows < 2 then .ok .singleRow
    else
      match dispatchMst a with
      | .error e => .error e
      | .ok r => if a.method ∉ ["eom", "leaf"] then .error .method else .ok r

/-! ## Non-finite rows -/

/-- Errors of `fit` after the arguments were accepted: a list or array index out of range, or an error inside the clustering of the finite
rows. -/
inductive FitError
  | index | inner
  deriving DecidableEq

/-- `finite_index`, hdbscan.py:736, 760: the positions of the rows without NaN or infinity. -/
def finiteIndex {α : Type*} (finite : α → Bool) (X : List α) : List ℕ :=
  (List.range X.length).filter fun i => (X[i]?.map finite).getD false

/-- `X[finite_index]`. -/
def takeRows {α : Type*} (X : List α) (idx : List ℕ) : List α := idx.filterMap fun i => X[i]?

/-- A child of the condensed tree under the new numbering, hdbscan.py:137-140; `idx` is `internal_to_raw`. -/
def remapChild (idx : List ℕ) (outliers : ℕ) (c : ℕ) : ℕ := if c < idx.length then idx.getD c 0 else c + outliers

/-- `remap_condensed_tree`, hdbscan.py:119-158.  An empty tree makes `tree[0][0]` raise an IndexError. -/
def remapCondensed [Zero K] [One S] (idx outliers : List ℕ) (tree : List (CRow K S)) : Except FitError (List (CRow K S)) :=
  let tree' := tree.map fun row => { row with parent := row.parent + outliers.length, child := remapChild idx outliers.length row.child }
  match tree' with
  | [] => .error .index
  | row0 :: _ => .ok (outliers.map (fun o => ⟨row0.parent, o, 0, 1⟩) ++ tree')

/-- The rows for the outliers, hdbscan.py:187-194: `last` and `size` are the variables of the loop. -/
def outlierRows [LE W] [OrderTop W] [Add S] [One S] : List ℕ → ℕ → S → List (LRow W S)
  | [], _, _ => []
  | o :: os, last, size => ⟨o, last + 1, ⊤, size + 1⟩ :: outlierRows os (last + 1) (size + 1)

/-- `remap_single_linkage_tree`, hdbscan.py:161-196.  An empty tree makes `tree[-1]` raise an IndexError. -/
def remapLinkage [LE W] [OrderTop W] [Add S] [One S] (idx outliers : List ℕ) (tree : List (LRow W S)) : Except FitError (List (LRow W S)) :=
  let tree' := tree.map fun row =>
    { row with l := remapChild idx outliers.length row.l, r := remapChild idx outliers.length row.r }
  match tree'.getLast? with
  | none => .error .index
  | some last => .ok (tree' ++ outlierRows outliers (max last.l last.r) last.s)

universe u

/-- What `fit` stores; strengths as a list.  Lambdas are of type `L`. -/
structure FitResult (W : Type*) (K : Type u) (L : Type u := K) where
  labels : List ℤ
  strengths : List K
  linkage : List (LRow W K)
  condensed : List (CRow L K)

/-- `new = np.full(n, fill); new[finite_index] = values`, hdbscan.py:814-820. -/
def spreadValues {α : Type*} (n : ℕ) (fill : α) (idx : List ℕ) (vals : List α) : List α :=
  (idx.zip vals).foldl (fun a p => a.set p.1 p.2) (List.replicate n fill)

/-- `HDBSCAN.fit` for a feature matrix, hdbscan.py:727-822.  `X` are the rows, `side` holds the sample weight and the label of each row,
`core` is the call of `fast_hdbscan`; `outliers` is `list(set(range(n)) - set(finite_index))`, which lists the other rows in some order. -/
def fitModel {K L : Type u} {α β : Type*} [LE W] [OrderTop W] [Zero K] [One K] [Add K] [Zero L] (finite : α → Bool)
    (core : List α → List β → Except FitError (FitResult W K L)) (outliers : List ℕ) (X : List α) (side : List β) :
    Except FitError (FitResult W K L) :=
  if X.all finite then core X side
  else
    let idx := finiteIndex finite X
    match core (takeRows X idx) (takeRows side idx) with
    | .error e => .error e
    | .ok r =>
      match remapCondensed idx outliers r.condensed with
      | .error e => .error e
      | .ok condensed =>
        match remapLinkage idx outliers r.linkage with
        | .error e => .error e
        | .ok linkage =>
          .ok ⟨spreadValues X.length (-1) idx r.labels, spreadValues X.length 0 idx r.strengths, linkage, condensed⟩

/-- `fast_hdbscan` after its checks, hdbscan.py:277-336: fewer than two rows give noise and empty trees; otherwise the rows are clustered.
`cluster` stands for `compute_minimum_spanning_tree` followed by `clusters_from_spanning_tree`.  An error inside the clustering is `inner`. -/
def fastWith {K L : Type u} {α β : Type*} [Zero K] (cluster : List α → List β → Option (ClusterResult W K L)) (X : List α) (side : List β) :
    Except FitError (FitResult W K L) :=
  if X.length < 2 then .ok ⟨List.replicate X.length (-1), List.replicate X.length 0, [], []⟩
  else
    match cluster X side with
    | none => .error .inner
    | some r => .ok ⟨r.labels, (List.range X.length).map r.strengths, r.linkage, r.condensed⟩

/-- `fast_hdbscan` with `semi_supervised=False`, hdbscan.py:277-336: a spanning tree is computed (`mst`, given the rows and their weights) and
clustered. -/
def fastHdbscan {α β : Type*} [Field K] [LinearOrder K] [LinearOrder W] [Inhabited W] [Inhabited K] (lam : W → K)
    (mst : List α → List β → List (Edge W)) (wt : β → K) (o : ClusterOpts K) : List α → List β → Except FitError (FitResult W K) :=
  fastWith fun X side => clustersFromMst lam (fun i => (side[i]?.map wt).getD 1) o (mst X side)

/-- `fast_hdbscan` with `semi_supervised=True`, hdbscan.py:277-336: `lab` is the class label given with a row (-1 for none), handed to the
clustering in the order of the rows; `v`: `ss_algorithm == "bc"`. -/
def fastHdbscanSS {α β : Type*} [Field K] [LinearOrder K] [LinearOrder W] [Inhabited W] [Inhabited K] (lam : W → K)
    (mst : List α → List β → List (Edge W)) (wt : β → K) (lab : β → ℤ) (v : Bool) (o : ClusterOpts K) :
    List α → List β → Except FitError (FitResult W K) :=
  fastWith fun X side =>
    clustersFromMstSS lam (fun i => (side[i]?.map wt).getD 1) o v side.length (fun i => (side[i]?.map lab).getD (-1)) (mst X side)

/-- The matrix `cdist(data, data)` of distances between the rows, kruskal.py:910. -/
def rowDist {α : Type*} [LE W] [OrderTop W] (dist : α → α → W) (P : List α) (i j : ℕ) : W :=
  match P[i]?, P[j]? with
  | some x, some y => dist x y
  | _, _ => ⊤

/-- `compute_minimum_spanning_tree` for `algorithm='kruskal'` without `knn_k`, constraints and sample weights, hdbscan.py:469-479: the
spanning tree of the rows. -/
def kruskalRows {α β : Type*} [LinearOrder W] [OrderTop W] [Zero W] (dist : α → α → W) (ms : ℕ) (P : List α) (_ : List β) : List (Edge W) :=
  kruskalBrute P.length ms (rowDist dist P) CLParams.none

/-- The spanning tree that `fit` stores as `_min_spanning_tree`, hdbscan.py:787-800: the one of the finite rows.  Unlike the other two trees
it is not renumbered afterwards, hdbscan.py:804-820.  (`clusters_from_spanning_tree` returns it sorted, hdbscan.py:514, 574; fewer than two
rows give no edges, hdbscan.py:296.) -/
def storedTree {α β : Type*} [LinearOrder W] [Inhabited W] (finite : α → Bool) (mst : List α → List β → List (Edge W)) (X : List α) (side : List β) :
    List (Edge W) :=
  let idx := finiteIndex finite X
  let P := if X.all finite then X else takeRows X idx
  let s := if X.all finite then side else takeRows side idx
  if P.length < 2 then [] else lexsortMst (mst P s)

end Verif
