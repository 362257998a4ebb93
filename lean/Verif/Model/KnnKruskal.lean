import Verif.Model.KruskalApi
import Verif.Model.TreeBoruvka

/-!
# Model of spanning trees from nearest neighbours, `kruskal.py:821-1034` and `nndescent.py`

Distances are elements of a linear order with `⊤` for `+inf`; conversions between single and double precision are left out.
-/

namespace Verif
variable {R W S : Type*}

/-- The number of neighbours asked for without sample weights, kruskal.py:996, 1007. -/
def knnQueryK (ms knnK : ℕ) : ℕ := if 1 < ms then max knnK ms + 1 else knnK + 1

/-- `parallel_tree_query(numba_tree, numba_tree.data, k)`: the rows of all `n` samples; `none` if a query does not return. -/
def queryRows [LinearOrder R] [LinearOrder W] [OrderTop W] (ar : Arith R W) (rt : W → W) (dims : ℕ) (pts : ℕ → ℕ → R) (t : KdTree R)
    (nNodes n k : ℕ) : Option (ℕ → List (W × Option ℕ)) :=
  ((List.range n).mapM fun i => treeQuery ar rt dims pts t nNodes k (pts i)).map fun l i => l.getD i []

/-- `knn_indices`, `knn_dists`: rows without their first entry, kruskal.py:991-992, 1002-1003, 1013-1014. -/
def knnLists (rows : ℕ → List (W × Option ℕ)) (i : ℕ) : List (Option ℕ × W) := (rows i).tail.map fun p => (p.2, p.1)

/-- Core distances without sample weights, kruskal.py:1001, 1012. -/
def knnCore [Zero W] [LE W] [OrderTop W] (ms : ℕ) (rows : ℕ → List (W × Option ℕ)) (i : ℕ) : W :=
  if 1 < ms then ((rows i)[ms]?.map Prod.fst).getD ⊤ else 0

/-- What the functions return: edges, neighbours and core distances. -/
structure MstResult (W : Type*) where
  edges : List (Edge W)
  neighbors : ℕ → List (Option ℕ)
  core : ℕ → W

/-- `_kruskal_mst_knn`, kruskal.py:950-1034, without sample weights.  `rt` is the square root, taken after the query (the order of the rows is that of
the squared distances). -/
def kruskalMstKnn [LinearOrder R] [LinearOrder W] [OrderTop W] [Zero W] (ar : Arith R W) (rt : W → W) (dims : ℕ) (pts : ℕ → ℕ → R) (t : KdTree R)
    (nNodes n ms knnK : ℕ) (cl : CLParams) : Option (MstResult W) :=
  (queryRows ar id dims pts t nNodes n (knnQueryK ms knnK)).map fun raw =>
    let rows := fun i => (raw i).map fun p => (rt p.1, p.2)
    ⟨kruskalKnn n (knnLists rows) (knnCore ms rows) cl,
      fun i => (((rows i).tail).take (if 1 < ms then ms else 1)).map Prod.snd, knnCore ms rows⟩

/-- `_kruskal_mst_knn`, kruskal.py:950-1034, with sample weights.  The query takes the square root itself. -/
def kruskalMstKnnW [Field S] [LinearOrder S] [FloorSemiring S] [LinearOrder R] [LinearOrder W] [OrderTop W] (ar : Arith R W) (rt : W → W) (dims : ℕ) (pts : ℕ → ℕ → R) (t : KdTree R)
    (nNodes n ms knnK : ℕ) (sw : ℕ → S) (cl : CLParams) : Option (MstResult W) :=
  (queryRows ar rt dims pts t nNodes n (max knnK (weightedK n ms sw) + 1)).bind fun rows =>
    ((List.range n).mapM fun i => sampleWeightCore n ms sw (rows i)).map fun c =>
      ⟨kruskalKnn n (knnLists rows) (fun i => c.getD i ⊤) cl, fun i => ((rows i).tail).map Prod.snd, fun i => c.getD i ⊤⟩

/-- The errors of `kruskal_mst_from_feature_matrix`: constraints, or sample weights without `knn_k`. -/
inductive FeatureError
  | constraint (e : CLError)
  | weightsNeedKnn
  deriving DecidableEq

/-- `kruskal_mst_from_feature_matrix`, kruskal.py:821-878: `none` as a value if a query does not return.  `D` are the distances of `cdist`; the
neighbours that the brute-force routine returns are left out. -/
def kruskalFromFeatures {V : Type*} [Field S] [LinearOrder S] [FloorSemiring S] [AddCommMonoid V] [DecidableEq V] [LinearOrder R] [LinearOrder W] [OrderTop W] [Zero W] (ar : Arith R W)
    (rt : W → W) (dims : ℕ) (pts : ℕ → ℕ → R) (t : KdTree R) (nNodes n ms : ℕ) (D : ℕ → ℕ → W) (knnK : Option ℕ) (sw : Option (ℕ → S))
    (cannotLink : Option (SparseCL V)) (validate : Bool) (groups : Option (ℕ × (ℕ → ℤ))) : Except FeatureError (Option (MstResult W)) :=
  match resolveCL n cannotLink validate groups with
  | .error e => .error (.constraint e)
  | .ok cl =>
    match knnK, sw with
    | none, some _ => .error .weightsNeedKnn
    | none, none => .ok (some ⟨kruskalBrute n ms D cl, fun _ => [], bruteCore n ms D⟩)
    | some k, none => .ok (kruskalMstKnn ar rt dims pts t nNodes n ms k cl)
    | some k, some sw => .ok (kruskalMstKnnW ar rt dims pts t nNodes n ms k sw cl)

/-! ## `nndescent.py` -/

/-- The number of neighbours, nndescent.py:215-217. -/
def nnK (ms : ℕ) (knnK : Option ℕ) : ℕ := max (knnK.getD (max (3 * ms) 15)) ms

/-- `build_knn_graph` from the result of `NNDescent` on, nndescent.py:86-90: the first entry of every row is removed. -/
def nnStrip (graph : ℕ → List (Option ℕ × W)) (i : ℕ) : List (Option ℕ × W) := (graph i).tail

/-- Core distances, nndescent.py:229-234, for rows of `k` neighbours. -/
def nnCore [Zero W] [LE W] [OrderTop W] (ms k : ℕ) (knn : ℕ → List (Option ℕ × W)) (i : ℕ) : W :=
  if ms ≤ 1 then 0 else if ms ≤ k then ((knn i)[ms - 1]?.map Prod.snd).getD ⊤ else ⊤

/-- `compute_mst_from_knn_graph` with `_kruskal_mst_from_knn`, nndescent.py:176-294.  `graph k` is what `NNDescent` returns when asked for `k` neighbours:
the samples themselves are among them. -/
def nnMst [LinearOrder W] [OrderTop W] [Zero W] (n ms : ℕ) (knnK : Option ℕ) (graph : ℕ → ℕ → List (Option ℕ × W)) : MstResult W :=
  let k := nnK ms knnK
  let knn := nnStrip (graph (k + 1))
  let core := nnCore ms k knn
  let s := kruskalCore n (sortEdges (knnEdges n knn core))
  let lab := componentLabel n s.pred
  ⟨if 1 < (uniqueLabels n lab).length then bridgeForest s.mst lab n else s.mst,
    fun i => ((knn i).take (if 0 < ms then ms else 1)).map Prod.fst, core⟩

end Verif
