import Verif.Model.Kruskal
import Mathlib.Data.List.Sort
import Mathlib.Order.BoundedOrder.Basic
import Mathlib.Algebra.Group.Defs

/-!
# Model of the public Kruskal entry points (`kruskal.py`) and of bridging (`precomputed.py`)

Weights live in a linear order with a top element `⊤`, standing for `+inf`.
-/

namespace Verif
variable {W : Type*}

/-! ## Constraint normalisation -/

/-- A scipy sparse `n × n` matrix as the code sees it: its shape, the stored columns of every row
(explicit zeros included) and the entry values (duplicates already summed; entries that are not stored are
zero). -/
structure SparseCL (V : Type*) where
  rows : ℕ
  cols : ℕ
  isSparse : Bool
  stored : ℕ → List ℕ
  val : ℕ → ℕ → V

/-- The dict built by `_resolve_cl_params` (kruskal.py:661-662); CSR index arrays are given as
the list of column indices of every row. -/
structure CLParams where
  csr : Option (ℕ → List ℕ)
  groups : Option (ℕ → ℤ)
  nGroups : ℕ

/-- No constraints. -/
def CLParams.none : CLParams := ⟨.none, .none, 0⟩

/-- Errors raised by the constraint validation, kruskal.py:547-554, 598-609, 654-658. -/
inductive CLError
  | notSparse | badShape | badLength | badValue | mutuallyExclusive
  deriving DecidableEq

/-- `_validate_cannot_link`, kruskal.py:515-566.  `cl_csr + cl_csr.T` (line 564) is scipy's CSR
addition, which stores exactly the positions with a non-zero sum, in ascending order per row.  With `validate=False`
the stored pattern is used as it is. -/
def validateCL {V : Type*} [AddCommMonoid V] [DecidableEq V] (n : ℕ) (validate : Bool) (m : SparseCL V) :
    Except CLError (ℕ → List ℕ) :=
  if ¬ validate then .ok m.stored
  else if ¬ m.isSparse then .error .notSparse
  else if ¬ (m.rows = n ∧ m.cols = n) then .error .badShape
  else .ok fun i => (List.range n).filter fun j => m.val i j + m.val j i ≠ 0

/-- `_validate_cannot_link_groups`, kruskal.py:569-618.  `len` is the length of the passed array, `g` its entries.
`n_groups = max + 1`, or `0` when all labels are `-1`. -/
def validateGroups (n len : ℕ) (g : ℕ → ℤ) : Except CLError ((ℕ → ℤ) × ℕ) :=
  if len ≠ n then .error .badLength
  else if (List.range n).any (fun i => g i < -1) then .error .badValue
  else .ok (g, (List.range n).foldl (fun m i => max m (g i + 1).toNat) 0)

/-- `_resolve_cl_params`, kruskal.py:621-675. -/
def resolveCL {V : Type*} [AddCommMonoid V] [DecidableEq V] (n : ℕ) (cannotLink : Option (SparseCL V))
    (validate : Bool) (groups : Option (ℕ × (ℕ → ℤ))) : Except CLError CLParams :=
  match cannotLink, groups with
  | some _, some _ => .error .mutuallyExclusive
  | some m, .none =>
    match validateCL n validate m with
    | .ok rows => .ok ⟨some rows, .none, 0⟩
    | .error e => .error e
  | .none, some (len, g) =>
    match validateGroups n len g with
    | .ok r => .ok ⟨.none, some r.1, r.2⟩
    | .error e => .error e
  | .none, .none => .ok CLParams.none

/-- `_run_kruskal_core`, kruskal.py:678-720: dispatch to one of the three cores.
`len(cl_indices) > 0` (line 715) is "some row is not empty". -/
def runKruskalCore (n : ℕ) (cl : CLParams) (es : List (Edge W)) : KState W :=
  let rest :=
    match cl.csr with
    | some rows =>
      if (List.range n).any (fun i => ¬ (rows i).isEmpty) then (constrainedCore n rows es).toKState
      else kruskalCore n es
    | .none => kruskalCore n es
  match cl.groups with
  | some g => if cl.nGroups > 0 then (groupCore n g cl.nGroups es).toKState else rest
  | .none => rest

/-! ## Edge lists -/

/-- The edges in the order of `np.argsort(weights, kind="stable")`
(kruskal.py:808, 939, 1024). Insertion sort is stable. -/
def sortEdges [LinearOrder W] (es : List (Edge W)) : List (Edge W) :=
  es.insertionSort fun a b => a.w ≤ b.w

/-- Mutual reachability as computed by the two `if`s of kruskal.py:446-451, 495-500 and by
`np.maximum` in kruskal.py:934-937. -/
def mrdW [LinearOrder W] (ci cj d : W) : W :=
  let m := ci
  let m := if cj > m then cj else m
  if d > m then d else m

/-- `_compute_mrd_csr_flat` and `row_indices`, kruskal.py:420-452, 796-806: all stored entries of a CSR
matrix with their mutual reachability weights. -/
def csrEdges [LinearOrder W] (n : ℕ) (rows : ℕ → List (ℕ × W)) (cd : ℕ → W) : List (Edge W) :=
  (List.range n).flatMap fun i => (rows i).map fun p => ⟨i, p.1, mrdW (cd i) (cd p.1) p.2⟩

/-- `np.triu_indices(n, k=1)` with the weights of kruskal.py:931-937. -/
def triuEdges [LinearOrder W] (n : ℕ) (D : ℕ → ℕ → W) (cd : ℕ → W) : List (Edge W) :=
  (List.range n).flatMap fun i =>
    ((List.range n).filter (i < ·)).map fun j => ⟨i, j, mrdW (cd i) (cd j) (D i j)⟩

/-- Core distances of `_kruskal_mst_brute`, kruskal.py:910-918; `np.partition(D, kth=k)[:, k]` is entry `k`
of the sorted row (the row contains the zero distance to the sample itself). -/
def bruteCore [LinearOrder W] [OrderTop W] [Zero W] (n ms : ℕ) (D : ℕ → ℕ → W) (i : ℕ) : W :=
  if ms ≤ 1 then 0
  else if ms < n then (((List.range n).map (D i)).insertionSort (· ≤ ·)).getD ms ⊤
  else ⊤

/-- `_build_mrd_edges_knn` followed by the filter, kruskal.py:455-508, 1016-1022.  `knn i` is the list of
(index, distance) pairs of row `i`; `none` is the padding index `-1`. -/
def knnEdges [LinearOrder W] [OrderTop W] (n : ℕ) (knn : ℕ → List (Option ℕ × W)) (cd : ℕ → W) :
    List (Edge W) :=
  ((List.range n).flatMap fun i => (knn i).map fun p =>
    match p.1 with
    | .none => ⟨i, i, ⊤⟩
    | some j => ⟨i, j, mrdW (cd i) (cd j) p.2⟩).filter fun e => e.u ≠ e.v ∧ e.w ≠ ⊤

/-! ## Components, bridging -/

/-- `np.unique(labels)` of an integer array of length `n`: sorted, without repetition. -/
def uniqueLabels (n : ℕ) (lab : ℕ → ℕ) : List ℕ :=
  (((List.range n).map lab).dedup).insertionSort (· ≤ ·)

/-- The sorted representatives of `bridge_forest_with_inf`, precomputed.py:336-346: the smallest node of every
component. `np.where(...)[0]` is ascending, its minimum is the first hit. -/
def bridgeReps (n : ℕ) (lab : ℕ → ℕ) : List ℕ :=
  ((uniqueLabels n lab).map fun c => ((List.range n).find? fun i => lab i = c).getD 0).insertionSort
    (· ≤ ·)

/-- `(rep[i], rep[i+1], inf)`, precomputed.py:349-355. -/
def bridgeEdges [LE W] [OrderTop W] (reps : List ℕ) : List (Edge W) :=
  (reps.zip reps.tail).map fun p => ⟨p.1, p.2, ⊤⟩

/-- `bridge_forest_with_inf`, precomputed.py:308-357. -/
def bridgeForest [LE W] [OrderTop W] (edges : List (Edge W)) (lab : ℕ → ℕ) (n : ℕ) : List (Edge W) :=
  if (uniqueLabels n lab).length = 1 then edges
  else if edges.length = 0 then bridgeEdges (bridgeReps n lab)
  else edges ++ bridgeEdges (bridgeReps n lab)

/-- `_finish_mst`, kruskal.py:723-752. -/
def finishMst [LE W] [OrderTop W] (s : KState W) (n : ℕ) : List (Edge W) :=
  if (uniqueLabels n (componentLabel n s.pred)).length > 1 then
    bridgeForest s.mst (componentLabel n s.pred) n
  else s.mst

/-- `kruskal_mst_from_csr`, kruskal.py:755-818: `(n_components, component_labels, mst_edges)`. -/
def kruskalFromCsr [LinearOrder W] (n : ℕ) (rows : ℕ → List (ℕ × W)) (cd : ℕ → W) (cl : CLParams) :
    ℕ × (ℕ → ℕ) × List (Edge W) :=
  let s := runKruskalCore n cl (sortEdges (csrEdges n rows cd))
  ((uniqueLabels n (componentLabel n s.pred)).length, componentLabel n s.pred, s.mst)

/-- `_kruskal_mst_brute`, kruskal.py:881-947 (spanning tree part).  `D` is the matrix returned by `cdist`. -/
def kruskalBrute [LinearOrder W] [OrderTop W] [Zero W] (n ms : ℕ) (D : ℕ → ℕ → W) (cl : CLParams) :
    List (Edge W) :=
  finishMst (runKruskalCore n cl (sortEdges (triuEdges n D (bruteCore n ms D)))) n

/-- `_kruskal_mst_knn`, kruskal.py:950-1034 (from the neighbour lists and core distances on). -/
def kruskalKnn [LinearOrder W] [OrderTop W] (n : ℕ) (knn : ℕ → List (Option ℕ × W)) (cd : ℕ → W)
    (cl : CLParams) : List (Edge W) :=
  finishMst (runKruskalCore n cl (sortEdges (knnEdges n knn cd))) n

/-! ## Unbridging -/

/-- `_find` of `unbridge_mst` (path halving), precomputed.py:389-393; first argument: fuel. -/
def halvingFind : ℕ → (ℕ → ℕ) → ℕ → (ℕ → ℕ) × ℕ
  | 0, p, x => (p, x)
  | f + 1, p, x =>
    if p x ≠ x then
      let p' := Function.update p x (p (p x))
      halvingFind f p' (p' x)
    else (p, x)

/-- Loop body of `unbridge_mst`, precomputed.py:395-399. -/
def unbridgeStep (n : ℕ) (p : ℕ → ℕ) (e : Edge W) : ℕ → ℕ :=
  let fu := halvingFind n p e.u
  let fv := halvingFind n fu.1 e.v
  if fu.2 ≠ fv.2 then Function.update fv.1 fv.2 fu.2 else fv.1

/-- `roots = [_find(i) for i in range(n)]`, precomputed.py:402: the array is threaded through. -/
def unbridgeRoots (n : ℕ) (p : ℕ → ℕ) : ℕ → (ℕ → ℕ) × List ℕ
  | 0 => (p, [])
  | i + 1 =>
    let r := unbridgeRoots n p i
    let f := halvingFind n r.1 i
    (f.1, r.2 ++ [f.2])

/-- `unbridge_mst`, precomputed.py:360-407.  `np.unique(roots, return_inverse=True)`: the label of a node is the
position of its root in the sorted list of distinct roots. -/
def unbridgeMst [LE W] [OrderTop W] [DecidableEq W] (edges : List (Edge W)) : List (Edge W) × List ℕ :=
  let n := edges.length + 1
  let fin := edges.filter fun e => e.w ≠ ⊤
  let p := fin.foldl (unbridgeStep n) fun x => x
  let roots := (unbridgeRoots n p n).2
  (fin, roots.map fun r => ((roots.dedup).insertionSort (· ≤ ·)).idxOf r)

end Verif
