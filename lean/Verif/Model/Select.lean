import Verif.Spec.Condensed
import Mathlib.Logic.Function.Basic
import Mathlib.Algebra.Ring.Defs
import Mathlib.Order.Lattice

/-!
# Model of cluster selection: leaves and excess of mass

`cluster_trees.py` 355-374 and 656-771.  The dictionaries of the code, keyed by cluster id, are an explicit list of keys in
insertion order (`numba` typed dictionaries and Python dictionaries iterate in insertion order) and a total function for
the values.
-/

namespace Verif
variable {L S V : Type*}

/-- `cluster_tree_from_condensed_tree`, cluster_trees.py:672-684. -/
def clusterTree [One S] [LT S] [DecidableLT S] (rows : List (CRow L S)) : List (CRow L S) :=
  rows.filter fun row => decide (1 < row.size)

/-- `cluster_tree.child[cluster_tree.parent == node]`, cluster_trees.py:689, 704, 756. -/
def kidsOf (ct : List (CRow L S)) (node : ℕ) : List ℕ :=
  (ct.filter fun row => decide (row.parent = node)).map CRow.child

/-- `cluster_tree_leaves`, cluster_trees.py:369-374.  `child.max()` of an empty table raises in the code; the caller checks
(hdbscan.py:553-556), see `leafSelection`. -/
def clusterTreeLeaves (ct : List (CRow L S)) (n : ℕ) : List ℕ :=
  (List.range' n ((ct.map CRow.child).foldl max 0 + 1 - n)).filter fun c => decide (∀ row ∈ ct, row.parent ≠ c)

/-- The `cluster_selection_method == "leaf"` branch of `clusters_from_spanning_tree`, hdbscan.py:552-556. -/
def leafSelection (ct : List (CRow L S)) (n : ℕ) : List ℕ :=
  if ct.length = 0 then [] else clusterTreeLeaves ct n

/-- `extract_leaves`, cluster_trees.py:355-366 (the argument `allow_single_cluster` is not used there).  `none`: the `max`
of an empty array raises. -/
def extractLeaves [One S] [LT S] [DecidableLT S] (rows : List (CRow L S)) : Option (List ℕ) :=
  match rows with
  | [] => none
  | row :: _ =>
    let np := (rows.map CRow.parent).foldl min row.parent
    let nn := (rows.map CRow.parent).foldl max 0 + 1
    some ((List.range nn).filter fun c => decide (np ≤ c ∧ ∀ row ∈ rows, 1 < row.size → row.parent ≠ c))

/-! ## Scores -/

/-- A dictionary from cluster ids to scores: keys in insertion order, values. -/
structure ScoreDict (V : Type*) where
  keys : List ℕ
  val : ℕ → V

/-- `result[key] = x`. -/
def ScoreDict.set (d : ScoreDict V) (key : ℕ) (x : V) : ScoreDict V :=
  ⟨if key ∈ d.keys then d.keys else d.keys ++ [key], Function.update d.val key x⟩

/-- Loop body of `score_condensed_tree_nodes`, cluster_trees.py:661-667; `none` is the `KeyError` of `result[parent] +=`. -/
def scoreStep [Ring V] [LT V] [DecidableLT V] (d : ScoreDict V) (row : CRow V V) : Option (ScoreDict V) :=
  let d := if 1 < row.size then d.set row.child (-row.lam * row.size) else d
  if row.parent ∈ d.keys then some (d.set row.parent (d.val row.parent + row.lam * row.size)) else none

/-- `score_condensed_tree_nodes`, cluster_trees.py:656-669, in exact arithmetic (the code uses float32).  `none` also when
the table is empty (`condensed_tree.parent[0]`). -/
def scoreNodes [Ring V] [LT V] [DecidableLT V] (rows : List (CRow V V)) : Option (ScoreDict V) :=
  match rows with
  | [] => none
  | row :: _ => rows.foldlM scoreStep ⟨[row.parent], fun _ => 0⟩

/-! ## Excess of mass -/

/-- The operations on scores used by `eom_recursion`: `0.0`, `max(·, 0.0)`, `+` and `>`.  Nothing is assumed about them, so
floating point arithmetic with infinities and NaN (also under `fastmath`) is an instance. -/
structure ScoreOps (V : Type*) where
  zero : V
  pos : V → V
  add : V → V → V
  gt : V → V → Bool

/-- Exact arithmetic. -/
def ScoreOps.exact (V : Type*) [AddMonoid V] [LinearOrder V] : ScoreOps V :=
  ⟨0, fun x => max x 0, fun x y => x + y, fun x y => decide (y < x)⟩

/-- `unselect_below_node`, cluster_trees.py:687-691 (fuel first). -/
def unselectBelow (ct : List (CRow L S)) : ℕ → ℕ → (ℕ → Bool) → (ℕ → Bool)
  | 0, _, sel => sel
  | f + 1, node, sel =>
    (kidsOf ct node).foldl (fun s c => Function.update (unselectBelow ct f c s) c false) sel

/-- `eom_recursion`, cluster_trees.py:694-721 (fuel first).  `tooLarge c` is `node_sizes[c] > max_cluster_size`. -/
def eomRec (ct : List (CRow L S)) (o : ScoreOps V) (score : ℕ → V) (tooLarge : ℕ → Bool) :
    ℕ → ℕ → (ℕ → Bool) → V × (ℕ → Bool)
  | 0, _, sel => (o.zero, sel)
  | f + 1, node, sel =>
    let cur := o.pos (score node)
    let r := (kidsOf ct node).foldl
      (fun acc c =>
        let q := eomRec ct o score tooLarge f c acc.2
        (o.add acc.1 q.1, q.2)) (o.zero, sel)
    if o.gt r.1 cur || tooLarge node then r
    else (cur, unselectBelow ct (f + 1) node (Function.update r.2 node true))

/-- `extract_eom_clusters`, cluster_trees.py:724-771, from the score dictionary on.  `sizeGt c` is
`node_sizes[c] > max_cluster_size` for the entries taken from the cluster tree and `rootGt` the comparison made for the
root, whose recorded size is `cluster_tree.parent.min() - 1` (cluster_trees.py:736-738). Depth of the recursion is at most
the number of clusters. -/
def eomClusters (ct : List (CRow L S)) (o : ScoreOps V) (d : ScoreDict V) (sizeGt : ℕ → Bool) (rootGt : Bool)
    (allowSingle : Bool) : List ℕ :=
  match ct with
  | [] => []
  | row :: _ =>
    let root := (ct.map CRow.parent).foldl min row.parent
    let tooLarge := Function.update sizeGt root rootGt
    let rec' := eomRec ct o d.val tooLarge (ct.length + 1)
    let sel :=
      if allowSingle then (rec' root (fun _ => false)).2
      else if 1 < d.keys.length then (kidsOf ct root).foldl (fun s c => (rec' c s).2) (fun _ => false)
      else fun _ => false
    d.keys.filter fun c => sel c

/-- `node_sizes[c] > max_cluster_size` for `c` other than the root, cluster_trees.py:730-735 (`none`: no limit).  A
dictionary comprehension keeps the last value of a key; in a condensed tree each cluster is listed once. -/
def sizeExceeds [LT S] [DecidableLT S] (ct : List (CRow L S)) (mx : Option S) (c : ℕ) : Bool :=
  match mx with
  | none => false
  | some m => ct.any fun row => decide (row.child = c ∧ m < row.size)

/-- `node_sizes[root] > max_cluster_size`, where the size recorded for the root is `root - 1`, cluster_trees.py:736-738. -/
def rootExceeds [NatCast V] [LT V] [DecidableLT V] (mx : Option V) (root : ℕ) : Bool :=
  match mx with
  | none => false
  | some m => decide (m < ((root - 1 : ℕ) : V))

/-- `extract_eom_clusters`, cluster_trees.py:724-771, in exact arithmetic. -/
def extractEom [Ring V] [LinearOrder V] (rows : List (CRow V V)) (mx : Option V) (allowSingle : Bool) :
    Option (List ℕ) :=
  let ct := clusterTree rows
  match scoreNodes rows with
  | none => none
  | some d =>
    let root := (ct.map CRow.parent).foldl min ((ct.map CRow.parent).headD 0)
    some (eomClusters ct (ScoreOps.exact V) d (sizeExceeds ct mx) (rootExceeds mx root) allowSingle)

end Verif
