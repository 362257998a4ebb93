import Verif.Spec.Graph
import Mathlib.Data.List.Sort
import Mathlib.Data.List.Dedup
import Mathlib.Logic.Function.Basic
import Mathlib.Order.Basic
import Mathlib.Data.Int.Order.Basic

/-!
# Model of the labels of sub-clusters and branches, `sub_clusters.py` and `branches.py`

Label arrays are functions from sample indices to integers.
-/

namespace Verif
variable {W V P : Type*}

/-- `np.unique`: the different values in ascending order. -/
def npUnique (l : List ℤ) : List ℤ := l.dedup.insertionSort (· ≤ ·)

/-- `np.nonzero(labels == cluster)[0]`, sub_clusters.py:31. -/
def clusterPoints (n : ℕ) (labels : ℕ → ℤ) (c : ℤ) : List ℕ := (List.range n).filter fun i => labels i = c

/-- `a[points] = values` for arrays `points` and `values` of the same length. -/
def scatter {α : Type*} (a : ℕ → α) : List (ℕ × α) → ℕ → α
  | [] => a
  | p :: ps => scatter (Function.update a p.1 p.2) ps

/-! ## `update_labels` -/

/-- What is known of one cluster: its samples, each with its cluster-local label and strength. -/
abbrev SubPart (P : Type*) := List (ℕ × ℤ × P)

/-- The arrays of `update_labels`; lens values are left out. -/
structure SubArrays (P : Type*) where
  labels : ℕ → ℤ
  probs : ℕ → P
  subLabels : ℕ → ℤ
  subProbs : ℕ → P
  runningId : ℤ

/-- Body of the loop of `update_labels`, sub_clusters.py:113-126.  `half a b` is `(a + b) / 2`.  `none`: a cluster without samples, for
which `unique_labels[0]` raises an IndexError. -/
def updateStep (half : P → P → P) (s : SubArrays P) (part : SubPart P) : Option (SubArrays P) :=
  match npUnique (part.map fun p => p.2.1) with
  | [] => none
  | u :: us =>
    some ⟨scatter s.labels (part.map fun p => (p.1, p.2.1 + (if u = -1 then 1 else 0) + s.runningId)),
      scatter s.probs (part.map fun p => (p.1, half (s.probs p.1) p.2.2)),
      scatter s.subLabels (part.map fun p => (p.1, p.2.1)),
      scatter s.subProbs (part.map fun p => (p.1, p.2.2)),
      s.runningId + ((u :: us).length : ℕ)⟩

/-- The loop of `update_labels`. -/
def updateLoop (half : P → P → P) : List (SubPart P) → SubArrays P → Option (SubArrays P)
  | [], s => some s
  | part :: parts, s => (updateStep half s part).bind (updateLoop half parts)

/-- `update_labels`, sub_clusters.py:98-128. -/
def updateLabels (half : P → P → P) (zero : P) (clusterProbs : ℕ → P) (parts : List (SubPart P)) : Option (SubArrays P) :=
  updateLoop half parts ⟨fun _ => -1, clusterProbs, fun _ => 0, fun _ => zero, 0⟩

/-! ## Propagation -/

/-- `undirected[i][j] = w`: dictionaries keep the order of insertion. -/
def dictSet (D : List (ℕ × V)) (k : ℕ) (v : V) : List (ℕ × V) :=
  if D.any (fun p => p.1 = k) then D.map (fun p => if p.1 = k then (k, v) else p) else D ++ [(k, v)]

/-- Body of the inner loop that builds the undirected graph, sub_clusters.py:139-144, for the entry of row `e.u` and column `e.v`.
`inv w` is `1 / w`; `none` is the ZeroDivisionError. -/
def undirStep (inv : W → Option V) (lab : ℕ → ℤ) (U : ℕ → List (ℕ × V)) (e : Edge W) : Option (ℕ → List (ℕ × V)) :=
  let U1 : Option (ℕ → List (ℕ × V)) :=
    if lab e.v = -1 then (inv e.w).map fun v => Function.update U e.v (dictSet (U e.v) e.u v) else some U
  U1.bind fun U => if lab e.u = -1 then (inv e.w).map fun v => Function.update U e.u (dictSet (U e.u) e.v v) else some U

/-- sub_clusters.py:135-144, for the list of all entries in the order of the arrays. -/
def undirected (inv : W → Option V) (lab : ℕ → ℤ) : List (Edge W) → (ℕ → List (ℕ × V)) → Option (ℕ → List (ℕ × V))
  | [], U => some U
  | e :: es, U => (undirStep inv lab U e).bind (undirected inv lab es)

/-- `candidates[label] = candidates.get(label, 0.0) + weight`, sub_clusters.py:157. -/
def voteAdd [Add V] (zero : V) (C : List (ℤ × V)) (l : ℤ) (v : V) : List (ℤ × V) :=
  if C.any (fun p => p.1 = l) then C.map (fun p => if p.1 = l then (l, p.2 + v) else p) else C ++ [(l, zero + v)]

/-- `candidates`, sub_clusters.py:152-157. -/
def votes [Add V] (zero : V) (lab : ℕ → ℤ) (nb : List (ℕ × V)) : List (ℤ × V) :=
  nb.foldl (fun C p => if lab p.1 = -1 then C else voteAdd zero C (lab p.1) p.2) []

/-- The candidate with the largest weight, the first one on ties, sub_clusters.py:161-166.  Every weight is above `-inf`. -/
def argmaxVote [LT V] [DecidableLT V] : List (ℤ × V) → Option (ℤ × V)
  | [] => none
  | c :: cs => some (cs.foldl (fun m c => if m.2 < c.2 then c else m) c)

/-- Body of the loop over noise samples, sub_clusters.py:151-167. -/
def voteStep [Add V] [LT V] [DecidableLT V] (zero : V) (U : ℕ → List (ℕ × V)) (lab : ℕ → ℤ) (i : ℕ) : ℕ → ℤ :=
  match argmaxVote (votes zero lab (U i)) with
  | none => lab
  | some c => Function.update lab i c.1

/-- The outer loop, sub_clusters.py:147-167; the first argument is fuel, `none` says that it did not suffice. -/
def propagateLoop [Add V] [LT V] [DecidableLT V] (zero : V) (n : ℕ) (U : ℕ → List (ℕ × V)) : ℕ → (ℕ → ℤ) → Option (ℕ → ℤ)
  | 0, _ => none
  | f + 1, lab =>
    let noise := clusterPoints n lab (-1)
    if noise = [] then some lab else propagateLoop zero n U f (noise.foldl (voteStep zero U) lab)

/-- `propagate_labels_per_cluster`, sub_clusters.py:132-167, on `n` samples with the entries `es` of the graph. -/
def propagatePerCluster [Add V] [LT V] [DecidableLT V] (inv : W → Option V) (zero : V) (n : ℕ) (es : List (Edge W)) (fuel : ℕ)
    (lab : ℕ → ℤ) : Option (ℕ → ℤ) :=
  (undirected inv lab es fun _ => []).bind fun U => propagateLoop zero n U fuel lab

/-- The same on the array of labels of one cluster, as `propagate_sub_cluster_labels` calls it, sub_clusters.py:178-180. -/
def propagateList [Add V] [LT V] [DecidableLT V] (inv : W → Option V) (zero : V) (es : List (Edge W)) (fuel : ℕ) (loc : List ℤ) :
    Option (List ℤ) :=
  (propagatePerCluster inv zero loc.length es fuel fun i => loc.getD i (-1)).map fun lab => (List.range loc.length).map lab

/-- Labels, cluster-local labels and the running id of `propagate_sub_cluster_labels`. -/
structure PropArrays where
  labels : ℕ → ℤ
  subLabels : ℕ → ℤ
  runningId : ℤ

/-- Body of the loop of `propagate_sub_cluster_labels`, sub_clusters.py:172-183, for one cluster with its samples; `prop` propagates
the labels of the samples of the cluster. -/
def propagateStep (s : PropArrays) (c : List ℕ × (List ℤ → Option (List ℤ))) : Option PropArrays :=
  let loc := c.1.map s.subLabels
  match npUnique loc with
  | [] => none
  | u :: us =>
    let hasNoise := u = -1 ∧ 1 < (u :: us).length
    let loc' := if hasNoise then c.2 loc else some loc
    loc'.map fun loc' =>
      ⟨scatter s.labels (c.1.zip (loc'.map (· + s.runningId))), scatter s.subLabels (c.1.zip loc'),
        s.runningId + ((u :: us).length : ℕ) - (if hasNoise then 1 else 0)⟩

/-- `propagate_sub_cluster_labels`, sub_clusters.py:170-185. -/
def propagateSub : List (List ℕ × (List ℤ → Option (List ℤ))) → PropArrays → Option PropArrays
  | [], s => some s
  | c :: cs, s => (propagateStep s c).bind (propagateSub cs)

/-! ## Branches -/

/-- The arrays of `apply_branch_threshold`. -/
structure BranchArrays (P : Type*) where
  labels : ℕ → ℤ
  probs : ℕ → P
  runningId : ℤ

/-- Body of the loop of `apply_branch_threshold`, branches.py:24-34, for one cluster: its samples, and whether it has a linkage tree.
`none`: a cluster without samples. -/
def branchStep (minCount : ℕ) (branch : ℕ → ℤ) (clusterProbs : ℕ → P) (s : BranchArrays P) (c : List ℕ × Bool) :
    Option (BranchArrays P) :=
  match npUnique (c.1.map branch) with
  | [] => none
  | u :: us =>
    let hasNoise := if u = -1 then 1 else 0
    let num := (u :: us).length - hasNoise
    if num ≤ minCount ∧ c.2 then
      some ⟨scatter s.labels (c.1.map fun p => (p, s.runningId)), scatter s.probs (c.1.map fun p => (p, clusterProbs p)), s.runningId + 1⟩
    else
      some ⟨scatter s.labels (c.1.map fun p => (p, branch p + hasNoise + s.runningId)), s.probs, s.runningId + (num + hasNoise : ℕ)⟩

/-- The loop of `apply_branch_threshold`. -/
def branchLoop (minCount : ℕ) (branch : ℕ → ℤ) (clusterProbs : ℕ → P) : List (List ℕ × Bool) → BranchArrays P → Option (BranchArrays P)
  | [], s => some s
  | c :: cs, s => (branchStep minCount branch clusterProbs s c).bind (branchLoop minCount branch clusterProbs cs)

/-- `apply_branch_threshold`, branches.py:13-34, given the labels and strengths before. -/
def applyBranchThreshold (sides : Bool) (labels branch : ℕ → ℤ) (probs clusterProbs : ℕ → P) (cs : List (List ℕ × Bool)) :
    Option (BranchArrays P) :=
  branchLoop (if sides then 1 else 2) branch clusterProbs cs ⟨labels, probs, 0⟩

/-! ## Calls -/

/-- A parameter of a Python function: its name and whether it has a default value. -/
structure PyParam where
  name : String
  hasDefault : Bool
  deriving DecidableEq

/-- What a Python call may do before the body of the function runs. -/
inductive CallError
  | tooManyArguments | unexpectedKeyword | missingArgument
  deriving DecidableEq

/-- Binding of arguments in a Python call with `npos` positional arguments and the keyword arguments `kws`. -/
def bindCall (ps : List PyParam) (npos : ℕ) (kws : List String) : Except CallError Unit :=
  if ps.length < npos then .error .tooManyArguments
  else if kws.any (fun k => ! (ps.drop npos).any fun p => p.name == k) then .error .unexpectedKeyword
  else if (ps.drop npos).any (fun p => ! p.hasDefault && ! kws.contains p.name) then .error .missingArgument
  else .ok ()

/-- The signature of `apply_branch_threshold`, branches.py:13-21. -/
def branchThresholdParams : List PyParam :=
  [⟨"labels", false⟩, ⟨"branch_labels", false⟩, ⟨"probabilities", false⟩, ⟨"cluster_probabilities", false⟩, ⟨"cluster_points", false⟩,
    ⟨"linkage_trees", false⟩, ⟨"label_sides_as_branches", true⟩]

/-- `find_branch_sub_clusters`, branches.py:37-69: the call of `apply_branch_threshold` with five positional arguments and one keyword
argument, after `find_sub_clusters` has returned `result` or raised an error. -/
def findBranchSubClusters {α ε : Type*} (result : Except ε α) (apply : α → α) : Except (ε ⊕ CallError) α :=
  match result with
  | .error e => .error (.inl e)
  | .ok r =>
    match bindCall branchThresholdParams 5 ["label_sides_as_branches"] with
    | .error e => .error (.inr e)
    | .ok () => .ok (apply r)

/-- `BranchDetector.fit`, branches.py:114-128, which passes the linkage trees as sixth argument. -/
def branchDetectorFit {α ε : Type*} (result : Except ε α) (apply : α → α) : Except (ε ⊕ CallError) α :=
  match result with
  | .error e => .error (.inl e)
  | .ok r =>
    match bindCall branchThresholdParams 6 ["label_sides_as_branches"] with
    | .error e => .error (.inr e)
    | .ok () => .ok (apply r)

end Verif
