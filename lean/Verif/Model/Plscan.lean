import Verif.Model.Barcode
import Verif.Model.Fit
import Mathlib.Algebra.Order.Field.Basic
import Mathlib.Order.WithBot

/-!
# Model of `PLSCAN`, hdbscan.py:1009-1187, and the start of `build_cluster_layers`, layer_clusters.py:353-421

Distances are elements of `WithTop K` (`⊤` is `+inf`), in exact arithmetic.
-/

namespace Verif
variable {K : Type*}

/-! ## Parameters -/

/-- The parameters `PLSCAN._validate_params` looks at, hdbscan.py:1042-1079. -/
structure PlscanArgs (K : Type*) where
  minSamples : PyVal K
  maxLayers : PyVal K
  baseMinClusterSize : PyVal K
  baseNClusters : PyVal K
  algorithm : String
  hasCannotLink : Bool

/-- The errors of `PLSCAN._validate_params`. -/
inductive PlscanArgError
  | minSamples | maxLayers | baseMinClusterSize | baseNClusters | algorithm | cannotLink
  deriving DecidableEq

/-- `PLSCAN._validate_params`, hdbscan.py:1042-1079. -/
def checkPlscanArgs (a : PlscanArgs K) : Except PlscanArgError Unit :=
  if ¬ a.minSamples.isInt ∨ a.minSamples.intNonpos then .error .minSamples
  else if ¬ a.maxLayers.isInt ∨ a.maxLayers.intNonpos then .error .maxLayers
  else if ¬ a.baseMinClusterSize.isInt ∨ a.baseMinClusterSize.intNonpos then .error .baseMinClusterSize
  else if ¬ a.baseNClusters.isNone ∧ (¬ a.baseNClusters.isInt ∨ a.baseNClusters.intNonpos) then .error .baseNClusters
  else if a.algorithm ∉ ["boruvka", "kruskal"] then .error .algorithm
  else if a.hasCannotLink ∧ a.algorithm ≠ "kruskal" then .error .cannotLink
  else .ok ()

/-- What `PLSCAN.fit_predict` looks at before it computes anything, hdbscan.py:1106-1141. -/
structure PlscanInput where
  metric : String
  isSparse : Bool
  /-- `validate_precomputed_sparse_graph` accepts the input. -/
  graphOk : Bool
  hasWeights : Bool
  /-- `pynndescent` is installed. -/
  hasPynndescent : Bool
  deriving DecidableEq

/-- The errors of these checks. -/
inductive PlscanInputError
  | badGraph | weightsPrecomputed | noPynndescent | sparseInput
  deriving DecidableEq

/-- The checks of `PLSCAN.fit_predict`, hdbscan.py:1106-1141.  `validate_data` and `_check_sample_weight` are not modelled. -/
def checkPlscanInput (a : PlscanInput) : Except PlscanInputError Unit :=
  if a.metric = "precomputed" then
    if ¬ a.graphOk then .error .badGraph
    else if a.hasWeights then .error .weightsPrecomputed
    else .ok ()
  else if a.metric ≠ "euclidean" then
    if ¬ a.hasPynndescent then .error .noPynndescent
    else if a.isSparse then .error .sparseInput
    else .ok ()
  else if a.isSparse then .error .sparseInput
  else .ok ()

/-! ## Distances in units of the core distances -/

section
variable [Field K] [LinearOrder K]

/-- `core_distances[np.isfinite(core_distances)]`, layer_clusters.py:393. -/
def finiteCore (core : List (WithTop K)) : List K :=
  core.filterMap fun
    | ⊤ => none
    | (d : K) => some d

/-- `np.mean(finite_core)`, layer_clusters.py:395. -/
def meanOf (l : List K) : K := l.sum / (l.length : K)

/-- The edges with their weights shifted and scaled, layer_clusters.py:393-402.  (`np.isfinite` of the mean of finite numbers can fail only by
overflow, which exact arithmetic does not have.) -/
def normaliseEdges (core : List (WithTop K)) (edges : List (Edge (WithTop K))) : List (Edge (WithTop K)) :=
  match (finiteCore core).min? with
  | none => edges
  | some mn =>
    if mn < meanOf (finiteCore core) then
      edges.map fun e => { e with w := e.w.map fun x => (x - mn) / (meanOf (finiteCore core) - mn) }
    else edges

/-! ## The fitted model -/

/-- `np.argmax`, hdbscan.py:1157: the first position of the largest score. -/
def argmaxScore : List (Layer K) → Option (Layer K)
  | [] => none
  | l :: ls => some (ls.foldl (fun best x => if best.score < x.score then x else best) l)

/-- The layer behind `labels_`, hdbscan.py:1153-1159; `none`: `np.argmax` of nothing raises. -/
def bestLayer : List (Layer K) → Option (Layer K)
  | [l] => some l
  | ls => argmaxScore ls

/-- The attributes of a fitted `PLSCAN`, hdbscan.py:1145-1159 (`min_cluster_sizes_` and `total_persistence_` are left out). -/
structure PlscanFit (K : Type*) where
  layers : List (Layer K)
  tree : List ((ℕ × ℤ) × List (ℕ × ℤ))
  labels : List ℤ
  strengths : ℕ → K

/-- Labels of layer `i`. -/
def layerLabels (layers : List (Layer K)) (i : ℕ) : List ℤ := (layers[i]?.map Layer.labels).getD []

/-- `PLSCAN.fit_predict`, hdbscan.py:1143-1161, with `build_cluster_layers`, layer_clusters.py:353-495, from the spanning tree and the core
distances on.  `sortE` is `edges[np.argsort(weights)]`, `lam` is `plscan_lambda_value`, `lamSearch`
the reciprocal used when searching for `base_n_clusters`, `expInv λ` is `np.exp(-1 / λ)`; see `layersFromTree` for
the other functions.  `none`: an exception. -/
def plscanFit (expInv : K → K) (order : (ℕ → K) → List ℕ → List ℕ) (sortLayers : List (Layer K) → List (Layer K)) [Inhabited K]
    (sortE : List (Edge (WithTop K)) → List (Edge (WithTop K))) (lamSearch lam : WithTop K → K) (thr : ℚ) (maxLayers baseSize : ℕ) (baseN : Option ℤ)
    (n : ℕ) (core : List (WithTop K)) (edges : List (Edge (WithTop K))) : Option (PlscanFit K) :=
  let linkage := mstToLinkage (fun _ => (1 : K)) (sortE (normaliseEdges core edges))
  let layers := match baseN with
    | none => buildLayers expInv order sortLayers thr maxLayers n lam linkage baseSize
    | some a => buildLayersByCount expInv order sortLayers thr maxLayers n lamSearch lam linkage a baseSize
  layers.bind fun layers => (bestLayer layers).map fun best =>
    ⟨layers, layerTreeDict (buildClusterTree layers.length (layerLabels layers)), best.labels, best.strengths⟩

end
end Verif
