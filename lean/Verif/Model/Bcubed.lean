import Verif.Model.Pipeline
import Mathlib.Algebra.Field.Defs
import Mathlib.Algebra.Order.Ring.Defs
import Mathlib.Data.List.Dedup
import Mathlib.Algebra.BigOperators.Group.List.Basic

/-!
# Model of the semi-supervised selection, cluster_trees.py:377-653

`data_labels` is an array of length `m`, the function `lab`.  Exact arithmetic instead of float32/float64.  Where the code
iterates over a Python set (cluster_trees.py:436-438, 453-455) the order is unspecified; here it is the order of first occurrence.
The order influences only the order of the returned ids, which are sorted later (`get_cluster_label_vector`).
-/

namespace Verif
variable {L S V : Type*}

/-- Keys of `label_indices`, cluster_trees.py:582-584. -/
def labelIdx (m : ℕ) (lab : ℕ → ℤ) : List ℕ := (List.range m).filter fun i => decide (-1 < lab i)

/-- `cluster_tree_from_condensed_tree_bcubed`, cluster_trees.py:382-408; `ct` is `cluster_tree`. -/
def bcubedTree [One S] [LT S] [DecidableLT S] [DecidableEq S] (rows ct : List (CRow L S)) (m : ℕ) (lab : ℕ → ℤ) : List (CRow L S) :=
  rows.filter fun row => decide (1 < row.size ∨ (row.size = 1 ∧ row.child ∈ labelIdx m lab ∧ row.parent ∈ ct.map CRow.parent))

/-- Loop body of `get_condensed_tree_clusters_bcubed`, cluster_trees.py:429-446.  `none`: `KeyError` of
`cluster_elements[child]`. -/
def elemStep (parents labelled : List ℕ) (d : ScoreDict (List ℕ)) (row : CRow L S) : Option (ScoreDict (List ℕ)) :=
  if row.child ∈ parents then
    if row.child ∈ d.keys then
      if row.parent ∈ d.keys then some (d.set row.parent (d.val row.parent ++ d.val row.child))
      else some (d.set row.parent ((d.val row.child).dedup.filter fun x => decide (x ∈ labelled)))
    else none
  else if row.parent ∈ d.keys then
    some (if row.child ∈ labelled then d.set row.parent (d.val row.parent ++ [row.child]) else d)
  else some (d.set row.parent (if row.child ∈ labelled then [row.child] else []))

/-- `get_condensed_tree_clusters_bcubed` without virtual nodes, cluster_trees.py:411-446: the labelled samples of every
cluster. -/
def clusterElements (rows : List (CRow L S)) (m : ℕ) (lab : ℕ → ℤ) : Option (ScoreDict (List ℕ)) :=
  rows.reverse.foldlM (elemStep (rows.map CRow.parent) (labelIdx m lab)) ⟨[], fun _ => []⟩

/-- `virtual_nodes`, cluster_trees.py:448-456. -/
def virtualNodes (ctb ct : List (CRow L S)) : List ℕ :=
  ((ctb.map CRow.child).filter fun c => decide (c ∉ ct.map CRow.child)).dedup

/-- Score of one cluster, `score_condensed_tree_nodes_bcubed`, cluster_trees.py:513-559; `els` are its labelled samples. -/
def bcubedScore [Field V] (m : ℕ) (lab : ℕ → ℤ) (els : List ℕ) : V :=
  ((els.map lab).dedup.map fun l =>
    let num := ((els.map lab).count l : V)
    let ofClass := (((labelIdx m lab).map lab).count l : V)
    let total := ((labelIdx m lab).length : V)
    num * (2 / (1 / (num / (els.length : V) / total) + 1 / (num / ofClass / total)))).sum

/-- `selected_clusters` and `unselected_nodes`. -/
structure SelState where
  sel : ℕ → Bool
  un : ℕ → Bool

/-- `unselect_below_node_bcubed`, cluster_trees.py:562-571 (fuel first). -/
def unselectBelowB (ct : List (CRow L S)) : ℕ → ℕ → SelState → SelState
  | 0, _, s => s
  | f + 1, node, s =>
    (kidsOf ct node).foldl (fun s c =>
      if s.un c then s
      else
        let s' := unselectBelowB ct f c s
        ⟨Function.update s'.sel c false, Function.update s'.un c true⟩) s

/-- `eom_recursion_bcubed`, cluster_trees.py:463-510 (fuel first).  Of `o` the operations `zero`, `add` and `gt` are used;
`gt a b` is: the children's total `a` beats the node's own score `b`, cluster_trees.py:490-510. -/
def eomRecB (ct : List (CRow L S)) (o : ScoreOps V) (score : ℕ → V) : ℕ → ℕ → SelState → V × SelState
  | 0, _, s => (o.zero, s)
  | f + 1, node, s =>
    let r := (kidsOf ct node).foldl
      (fun acc c =>
        let q := eomRecB ct o score f c acc.2
        (o.add acc.1 q.1, q.2)) (o.zero, s)
    if o.gt r.1 (score node) then r
    else (score node, unselectBelowB ct (f + 1) node ⟨Function.update r.2.sel node true, r.2.un⟩)

/-- Scores are pairs (stability, B-cubed); the B-cubed score decides, ties are broken by the stability,
cluster_trees.py:490-510. -/
def pairOps (V : Type*) [AddMonoid V] [LinearOrder V] : ScoreOps (V × V) where
  zero := (0, 0)
  pos := id
  add := fun x y => (x.1 + y.1, x.2 + y.2)
  gt := fun a b => if b.2 < a.2 then true else if a.2 < b.2 then false else decide (b.1 < a.1)

/-- `extract_clusters_bcubed`, cluster_trees.py:616-653, from the scores on; `keys` are the keys of
`bcubed_node_scores`.  The depth of the recursion is at most the number of nodes. -/
def bcubedClusters (ctb : List (CRow L S)) (o : ScoreOps V) (score : ℕ → V) (keys virt : List ℕ) (allowSingle : Bool) : List ℕ :=
  match ctb with
  | [] => []
  | row :: _ =>
    let root := (ctb.map CRow.parent).foldl min row.parent
    let rec' := eomRecB ctb o score (ctb.length + 2)
    let init : SelState := ⟨fun _ => false, fun _ => false⟩
    let st :=
      if allowSingle then (rec' root init).2
      else if 1 < keys.length then (kidsOf ctb root).foldl (fun s c => (rec' c s).2) init
      else init
    keys.filter fun c => st.sel c && decide (c ∉ virt)

/-- `extract_clusters_bcubed`, cluster_trees.py:574-653.  `none`: `KeyError`s, and the index error of
`score_condensed_tree_nodes` on an empty tree.  All nodes of the tree are looked up here; the code looks up the nodes it
visits. -/
def extractBcubed [Field V] [LinearOrder V] (rows : List (CRow V V)) (m : ℕ) (lab : ℕ → ℤ) (allowVirtual allowSingle : Bool) :
    Option (List ℕ) :=
  let ct := clusterTree rows
  let ctb := if allowVirtual then bcubedTree rows ct m lab else ct
  let virt := if allowVirtual then virtualNodes ctb ct else []
  (clusterElements rows m lab).bind fun ce0 =>
  let ce := virt.foldl (fun d v => d.set v [v]) ce0
  (scoreNodes rows).bind fun st0 =>
  let st := virt.foldl (fun d v => d.set v 0) st0
  if ∀ c ∈ ctb.map CRow.child ++ ctb.map CRow.parent, c ∈ ce.keys ∧ c ∈ st.keys then
    some (bcubedClusters ctb (pairOps V) (fun c => (st.val c, bcubedScore m lab (ce.val c))) ce.keys virt allowSingle)
  else none

/-! ## The semi-supervised branch of `clusters_from_spanning_tree` -/

/-- hdbscan.py:534-558 with `semi_supervised`; `max_cluster_size` is not passed on.  `v`: `ss_algorithm == "bc"`. -/
def baseSelectionSS [Field V] [LinearOrder V] (o : ClusterOpts V) (v : Bool) (m : ℕ) (lab : ℕ → ℤ) (n : ℕ) (rows : List (CRow V V)) :
    Option (List ℕ) :=
  match o.method with
  | .eom => extractBcubed rows m lab v o.allowSingle
  | .leaf => some (leafSelection (clusterTree rows) n)

/-- `clusters_from_spanning_tree`, hdbscan.py:497-574, with `semi_supervised=True`; the array `data_labels` has length `m`. -/
def clustersFromMstSS {W : Type*} [Field V] [LinearOrder V] [LinearOrder W] [Inhabited W] [Inhabited V] (lam : W → V) (wt : ℕ → V)
    (o : ClusterOpts V) (v : Bool) (m : ℕ) (lab : ℕ → ℤ) (mst : List (Edge W)) : Option (ClusterResult W V) :=
  let n := mst.length + 1
  let sortedMst := lexsortMst mst
  let linkage := mstToLinkage wt sortedMst
  (simplifyIf o.persistence (condenseTree (Hier.ofRows linkage) wt o.minClusterSize none lam)).bind fun rows =>
  (baseSelectionSS o v m lab n rows).bind fun sel0 =>
  (epsilonIf o.epsilon rows sel0).bind fun sel =>
  (labelVector rows sel (epsLam o.epsilon) n).bind fun labels =>
  (strengthVector (rows.map fun row => ⟨row.parent, row.child, (row.lam : WithTop V), row.size⟩) sel labels).map
    fun strengths => ⟨labels, strengths, linkage, rows, sortedMst, sel⟩

end Verif
