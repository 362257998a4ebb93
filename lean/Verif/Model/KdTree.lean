import Verif.Model.Heap
import Mathlib.Data.Prod.Lex
import Mathlib.Order.BoundedOrder.Basic

/-!
# Model of `numba_kdtree.py`: construction of the tree and k-nearest-neighbour queries

Points are `pts : ℕ → ℕ → R` (sample, feature).  Arithmetic on distances is abstract, so that it can be read as exact or as
rounding floating-point arithmetic; what is assumed of it is in `Spec/KdTree.lean`.
-/

namespace Verif
variable {R W α K : Type*}

/-- The arithmetic of the distance computations.  `R` are coordinates, `W` are differences and (squared) distances. -/
structure Arith (R W : Type*) where
  /-- `x - y` -/
  diff : R → R → W
  /-- `x * x` -/
  sq : W → W
  /-- `x + y` -/
  add : W → W → W
  /-- `0.0` -/
  zero : W

/-- `_compare_indices`, numba_kdtree.py:164-180. -/
def compareIndices [LinearOrder R] (pts : ℕ → ℕ → R) (axis i j : ℕ) : ℤ :=
  if pts i axis < pts j axis then -1
  else if pts i axis > pts j axis then 1
  else if i < j then -1 else if i > j then 1 else 0

/-- The key by which `_compare_indices` orders: value first, then index (`compareIndices_neg` etc. show that this is the same
order).  The sorting functions below compare by keys. -/
def idxKey (pts : ℕ → ℕ → R) (axis i : ℕ) : R ×ₗ ℕ := toLex (pts i axis, i)

/-- The inner loop of `_insertion_sort_indices` and the store after it, numba_kdtree.py:197-201.  The first argument is
`j + 1`. -/
def insertLoop [LinearOrder K] (f : α → K) (left : ℕ) (key : α) : ℕ → (ℕ → α) → (ℕ → α)
  | 0, a => Function.update a 0 key
  | j + 1, a =>
    if left ≤ j ∧ f key < f (a j) then insertLoop f left key j (Function.update a (j + 1) (a j))
    else Function.update a (j + 1) key

/-- `_insertion_sort_indices`, numba_kdtree.py:192-201. -/
def insertionSortArr [LinearOrder K] (f : α → K) (left right : ℕ) (a : ℕ → α) : ℕ → α :=
  (List.range' (left + 1) (right - (left + 1))).foldl (fun a i => insertLoop f left (a i) i a) a

/-- `_median_of_three_pivot`, numba_kdtree.py:280-300.  The local copies `idx_left`, `idx_mid`, `idx_right` always equal the array
entries, so that the array is read instead. -/
def medianOfThree [LinearOrder K] (f : α → K) (left right : ℕ) (a : ℕ → α) : (ℕ → α) × ℕ :=
  let mid := (left + right - 1) / 2
  let a := if f (a mid) < f (a left) then swapAt a left mid else a
  let a :=
    if f (a (right - 1)) < f (a mid) then
      let a := swapAt a mid (right - 1)
      if f (a mid) < f (a left) then swapAt a left mid else a
    else a
  (a, mid)

/-- The first inner loop of `_partition_indices`, numba_kdtree.py:327-331; `jj` is `j + 1`, the first argument fuel. -/
def scanUp [LinearOrder K] (f : α → K) (pv : K) (a : ℕ → α) : ℕ → ℕ → ℕ → ℕ
  | 0, i, _ => i
  | g + 1, i, jj => if i < jj ∧ f (a i) < pv then scanUp f pv a g (i + 1) jj else i

/-- The second inner loop of `_partition_indices`, numba_kdtree.py:334-338; `jj` is `j + 1`, the first argument fuel. -/
def scanDown [LinearOrder K] (f : α → K) (pv : K) (a : ℕ → α) : ℕ → ℕ → ℕ → ℕ
  | 0, _, jj => jj
  | g + 1, i, jj => if i < jj ∧ pv ≤ f (a (jj - 1)) then scanDown f pv a g i (jj - 1) else jj

/-- The outer loop of `_partition_indices`, numba_kdtree.py:325-346; `jj` is `j + 1`, the first argument fuel. -/
def partLoop [LinearOrder K] (f : α → K) (pv : K) : ℕ → (ℕ → α) → ℕ → ℕ → (ℕ → α) × ℕ
  | 0, a, i, _ => (a, i)
  | g + 1, a, i, jj =>
    let i := scanUp f pv a jj i jj
    let jj := scanDown f pv a jj i jj
    if jj ≤ i + 1 then (a, i)
    else partLoop f pv g (swapAt a i (jj - 1)) (i + 1) (jj - 1)

/-- `_partition_indices`, numba_kdtree.py:313-350. -/
def partitionArr [LinearOrder K] (f : α → K) (left right pivot : ℕ) (a : ℕ → α) : (ℕ → α) × ℕ :=
  let a := swapAt a pivot (right - 1)
  let r := partLoop f (f (a (right - 1))) right a left (right - 1)
  (swapAt r.1 r.2 (right - 1), r.2)

/-- `_introselect_impl`, numba_kdtree.py:361-387; the first argument is `depth_limit`. -/
def introImpl [LinearOrder K] (f : α → K) : ℕ → (ℕ → α) → ℕ → ℕ → ℕ → (ℕ → α)
  | 0, a, left, right, _ =>
    if right - left > 16 then heapSort f left right a else insertionSortArr f left right a
  | depth + 1, a, left, right, nth =>
    if right - left > 16 then
      let m := medianOfThree f left right a
      let r := partitionArr f left right m.2 m.1
      if nth < r.2 then introImpl f depth r.1 left r.2 nth
      else if nth > r.2 then introImpl f depth r.1 (r.2 + 1) right nth
      else r.1
    else insertionSortArr f left right a

/-- `_introselect`, numba_kdtree.py:397-407. -/
def introselect [LinearOrder K] (f : α → K) (left right nth : ℕ) (a : ℕ → α) : ℕ → α :=
  if right - left ≤ 16 then insertionSortArr f left right a
  else introImpl f (2 * Nat.log2 (right - left)) a left right nth

/-- The tree: `NumbaKDTree`, numba_kdtree.py:13-33, without `radius`, which nothing reads. -/
structure KdTree (R : Type*) where
  idx : ℕ → ℕ
  start : ℕ → ℕ
  stop : ℕ → ℕ
  leaf : ℕ → Bool
  lo : ℕ → ℕ → R
  hi : ℕ → ℕ → R

/-- The smallest and the largest value of one feature over `idx[s:e]`, numba_kdtree.py:104-116.  The code starts the scan at
`±inf`; here it starts at the first point, which is the same for the non-empty ranges the code uses. -/
def colMin [LinearOrder R] (pts : ℕ → ℕ → R) (idx : ℕ → ℕ) (s e j : ℕ) : R :=
  (List.range' (s + 1) (e - (s + 1))).foldl (fun m i => min m (pts (idx i) j)) (pts (idx s) j)

/-- See `colMin`. -/
def colMax [LinearOrder R] (pts : ℕ → ℕ → R) (idx : ℕ → ℕ) (s e j : ℕ) : R :=
  (List.range' (s + 1) (e - (s + 1))).foldl (fun m i => max m (pts (idx i) j)) (pts (idx s) j)

/-- `_init_node`, numba_kdtree.py:79-126. -/
def initNode [LinearOrder R] (pts : ℕ → ℕ → R) (t : KdTree R) (v s e : ℕ) : KdTree R :=
  { t with
    start := Function.update t.start v s
    stop := Function.update t.stop v e
    lo := Function.update t.lo v (colMin pts t.idx s e)
    hi := Function.update t.hi v (colMax pts t.idx s e) }

/-- `_find_node_split_dim`, numba_kdtree.py:133-155; `dims` is the number of features. -/
def splitDim [LinearOrder R] [LinearOrder W] (ar : Arith R W) (pts : ℕ → ℕ → R) (dims : ℕ) (idx : ℕ → ℕ) (s e : ℕ) : ℕ :=
  ((List.range dims).foldl
    (fun (r : ℕ × W) j =>
      let spread := ar.diff (colMax pts idx s e j) (colMin pts idx s e j)
      if spread > r.2 then (j, spread) else r) (0, ar.zero)).1

/-- `_recursive_build_tree`, numba_kdtree.py:414-475; the first argument is fuel. -/
def buildRec [LinearOrder R] [LinearOrder W] (ar : Arith R W) (pts : ℕ → ℕ → R) (dims nNodes : ℕ) :
    ℕ → KdTree R → ℕ → ℕ → ℕ → KdTree R
  | 0, t, _, _, _ => t
  | g + 1, t, s, e, v =>
    let mid := (e - s) / 2
    let t := initNode pts t v s e
    if 2 * v + 1 ≥ nNodes then { t with leaf := Function.update t.leaf v true }
    else if e - s < 2 then { t with leaf := Function.update t.leaf v true }
    else
      let axis := splitDim ar pts dims t.idx s e
      let t := { t with
        leaf := Function.update t.leaf v false
        idx := introselect (idxKey pts axis) s e (s + mid) t.idx }
      let t := buildRec ar pts dims nNodes g t s (s + mid) (2 * v + 1)
      buildRec ar pts dims nNodes g t (s + mid) e (2 * v + 2)

/-- The number of levels, numba_kdtree.py:489: `int(log2(max(1, (n - 1) / leaf_size)) + 1)`.  The quotient may be rounded down
first, since the logarithm is rounded down afterwards. -/
def numLevels (n leafSize : ℕ) : ℕ := Nat.log2 (max 1 ((n - 1) / leafSize)) + 1

/-- `n_nodes`, numba_kdtree.py:490. -/
def numNodes (n leafSize : ℕ) : ℕ := 2 ^ numLevels n leafSize - 1

/-- `build_kdtree`, numba_kdtree.py:478-518; `none` is the `ValueError`.  `zero` fills the bounds before they are computed. -/
def buildKdTree [LinearOrder R] [LinearOrder W] (ar : Arith R W) (zero : R) (pts : ℕ → ℕ → R) (dims n leafSize : ℕ) :
    Option (KdTree R) :=
  if leafSize < 1 then none
  else
    let m := numNodes n leafSize
    some (buildRec ar pts dims m m ⟨id, fun _ => 0, fun _ => 0, fun _ => false, fun _ _ => zero, fun _ _ => zero⟩ 0 n 0)

/-- `rdist`, numba_kdtree.py:539-546.  The loop counter is declared 16 bits wide, so that the model agrees with the code for
fewer than 65536 features. -/
def rdist (ar : Arith R W) (dims : ℕ) (x y : ℕ → R) : W :=
  (List.range dims).foldl (fun r i => ar.add r (ar.sq (ar.diff (x i) (y i)))) ar.zero

/-- `point_to_node_lower_bound_rdist`, numba_kdtree.py:566-575.  All callers pass the lower bounds as `upper` and the upper
bounds as `lower`; here the arguments are named by what they are. -/
def boxDist [LinearOrder R] (ar : Arith R W) (dims : ℕ) (lo hi pt : ℕ → R) : W :=
  (List.range dims).foldl
    (fun r i =>
      let dLo := if lo i > pt i then ar.diff (lo i) (pt i) else ar.zero
      let dHi := if pt i > hi i then ar.diff (pt i) (hi i) else ar.zero
      ar.add r (ar.sq (ar.add dLo dHi))) ar.zero

/-- The leaf case of `tree_query_recursion`, numba_kdtree.py:728-732. -/
def queryLeaf [LinearOrder W] (ar : Arith R W) (dims : ℕ) (pts : ℕ → ℕ → R) (pt : ℕ → R) (k : ℕ) :
    List ℕ → (ℕ → W × Option ℕ) → Option (ℕ → W × Option ℕ)
  | [], h => some h
  | q :: qs, h =>
    let d := rdist ar dims pt (pts q)
    if d < (h 0).1 then (heapPush k h d (some q)).bind fun h => queryLeaf ar dims pts pt k qs h
    else queryLeaf ar dims pts pt k qs h

/-- `tree_query_recursion`, numba_kdtree.py:705-763; the first argument is fuel, `bound` is `dist_lower_bound`. -/
def queryRec [LinearOrder R] [LinearOrder W] (ar : Arith R W) (dims : ℕ) (pts : ℕ → ℕ → R) (t : KdTree R) (pt : ℕ → R) (k : ℕ) :
    ℕ → ℕ → W → (ℕ → W × Option ℕ) → Option (ℕ → W × Option ℕ)
  | 0, _, _, _ => none
  | g + 1, v, bound, h =>
    if bound > (h 0).1 then some h
    else if t.leaf v then
      queryLeaf ar dims pts pt k ((List.range' (t.start v) (t.stop v - t.start v)).map t.idx) h
    else
      let left := 2 * v + 1
      let right := left + 1
      let dl := boxDist ar dims (t.lo left) (t.hi left) pt
      let dr := boxDist ar dims (t.lo right) (t.hi right) pt
      if dl ≤ dr then
        (queryRec ar dims pts t pt k g left dl h).bind fun h => queryRec ar dims pts t pt k g right dr h
      else
        (queryRec ar dims pts t pt k g right dr h).bind fun h => queryRec ar dims pts t pt k g left dl h

/-- One row of `parallel_tree_query`, numba_kdtree.py:774-792.  `rt` is `np.sqrt`, or the identity with `output_rdist=True`.
Threads work on different rows. -/
def treeQuery [LinearOrder R] [LinearOrder W] [OrderTop W] (ar : Arith R W) (rt : W → W) (dims : ℕ) (pts : ℕ → ℕ → R)
    (t : KdTree R) (nNodes k : ℕ) (pt : ℕ → R) : Option (List (W × Option ℕ)) :=
  (queryRec ar dims pts t pt k nNodes 0 (boxDist ar dims (t.lo 0) (t.hi 0) pt) (fun _ => (⊤, none))).map fun h =>
    (List.range k).map (drainHeap Prod.fst 0 k fun i => (rt (h i).1, (h i).2))

end Verif
