import Verif.Model.Fit

/-!
# `clusters_from_spanning_tree` with infinite lambdas and unspecified score arithmetic

The code computes lambdas and scores in float32: the lambda of distance 0 is `np.inf`, scores may be rounded, infinite or NaN, and
`eom_recursion` is compiled with `fastmath`.  Here lambdas are elements of `WithTop K`, and nothing is assumed about the arithmetic on scores.
-/

namespace Verif
universe u
variable {L S V W : Type*} {K : Type u}

/-- The arithmetic of `score_condensed_tree_nodes`, cluster_trees.py:656-669: `0.0`, `-lambda * size` and `score + lambda * size`.  Nothing is
assumed about it. -/
structure StabOps (V L S : Type*) where
  zero : V
  birth : L → S → V
  add : V → L → S → V

/-- Exact arithmetic on finite lambdas; the value for infinite ones is arbitrary. -/
def StabOps.exact (K : Type*) [Ring K] : StabOps K (WithTop K) K :=
  ⟨0, fun l s => -(l.untopD 0) * s, fun v l s => v + l.untopD 0 * s⟩

/-- Loop body of `score_condensed_tree_nodes`, cluster_trees.py:661-667; `none` is the `KeyError` of `result[parent] +=`. -/
def scoreStepAny [One S] [LT S] [DecidableLT S] (a : StabOps V L S) (d : ScoreDict V) (row : CRow L S) : Option (ScoreDict V) :=
  let d := if 1 < row.size then d.set row.child (a.birth row.lam row.size) else d
  if row.parent ∈ d.keys then some (d.set row.parent (a.add (d.val row.parent) row.lam row.size)) else none

/-- `score_condensed_tree_nodes`, cluster_trees.py:656-669; `none` also when the table is empty (`condensed_tree.parent[0]`). -/
def scoreNodesAny [One S] [LT S] [DecidableLT S] (a : StabOps V L S) (rows : List (CRow L S)) : Option (ScoreDict V) :=
  match rows with
  | [] => none
  | row :: _ => rows.foldlM (scoreStepAny a) ⟨[row.parent], fun _ => a.zero⟩

/-- `extract_eom_clusters`, cluster_trees.py:724-771, with this arithmetic and the operations `o` on scores. -/
def extractEomAny [One S] [NatCast S] [LT S] [DecidableLT S] (a : StabOps V L S) (o : ScoreOps V) (rows : List (CRow L S)) (mx : Option S)
    (allowSingle : Bool) : Option (List ℕ) :=
  let ct := clusterTree rows
  match scoreNodesAny a rows with
  | none => none
  | some d =>
    let root := (ct.map CRow.parent).foldl min ((ct.map CRow.parent).headD 0)
    some (eomClusters ct o d (sizeExceeds ct mx) (rootExceeds mx root) allowSingle)

/-- hdbscan.py:534-558. -/
def baseSelectionAny [One K] [NatCast K] [LT K] [DecidableLT K] (a : StabOps V L K) (ops : ScoreOps V) (o : ClusterOpts K) (n : ℕ) (rows : List (CRow L K)) :
    Option (List ℕ) :=
  match o.method with
  | .eom => extractEomAny a ops rows o.maxClusterSize o.allowSingle
  | .leaf => some (leafSelection (clusterTree rows) n)

/-- `death_eps < min_epsilon`, cluster_trees.py:855-857 and 874-876, as `epsClose`; `1 / inf` is 0. -/
def epsCloseTop [Field K] [LinearOrder K] (eps : K) : WithTop K → Bool
  | ⊤ => decide (0 < eps)
  | (l : K) => epsClose eps l

/-- hdbscan.py:560-565. -/
def epsilonIfTop [Field K] [LinearOrder K] (eps : K) (rows : List (CRow (WithTop K) K)) (sel : List ℕ) : Option (List ℕ) :=
  if 1 < sel.length ∧ 0 < eps then epsilonSearch (epsCloseTop eps) (clusterTree rows) sel else some sel

/-- `clusters_from_spanning_tree`, hdbscan.py:497-574, with lambdas that may be infinite and any arithmetic on scores, for
`cluster_selection_persistence=0`: the simplification of lines 529-532 is left out. -/
def clustersFromMstAny [Field K] [LinearOrder K] [LinearOrder W] [Inhabited W] [Inhabited K] (a : StabOps V (WithTop K) K) (ops : ScoreOps V)
    (lam : W → WithTop K) (wt : ℕ → K) (o : ClusterOpts K) (mst : List (Edge W)) : Option (ClusterResult W K (WithTop K)) :=
  let n := mst.length + 1
  let sortedMst := lexsortMst mst
  let linkage := mstToLinkage wt sortedMst
  let rows := condenseTree (Hier.ofRows linkage) wt o.minClusterSize none lam
  (baseSelectionAny a ops o n rows).bind fun sel0 =>
  (epsilonIfTop o.epsilon rows sel0).bind fun sel =>
  (labelVector rows sel ((epsLam o.epsilon).map WithTop.some) n).bind fun labels =>
  (strengthVector rows sel labels).map fun strengths => ⟨labels, strengths, linkage, rows, sortedMst, sel⟩

/-- `fast_hdbscan` with `semi_supervised=False`, hdbscan.py:277-336, on top of it. -/
def fastHdbscanAny {α β : Type*} [Field K] [LinearOrder K] [LinearOrder W] [Inhabited W] [Inhabited K] (a : StabOps V (WithTop K) K) (ops : ScoreOps V)
    (lam : W → WithTop K) (mst : List α → List β → List (Edge W)) (wt : β → K) (o : ClusterOpts K) :
    List α → List β → Except FitError (FitResult W K (WithTop K)) :=
  fastWith fun X side => clustersFromMstAny a ops lam (fun i => (side[i]?.map wt).getD 1) o (mst X side)

end Verif
