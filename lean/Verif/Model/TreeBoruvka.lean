import Verif.Model.KdTree
import Verif.Model.CoreGraph
import Verif.Model.KruskalApi
import Mathlib.Logic.Relation
import Mathlib.Algebra.Order.Floor.Defs
import Mathlib.Algebra.Field.Defs

/-!
# Model of the tree-based Borůvka routine, `boruvka.py`

The threads of one query share the array `component_nearest_neighbor_dist`, on which they race.  A thread is a program that
reads from and writes to the slot of its component; everything else it touches is its own or is not written during the query.
-/

namespace Verif
variable {R W S α β : Type*}

/-! ## Threads -/

/-- A program of a thread: it returns, or reads its slot, or writes its slot. -/
inductive QProg (W α : Type*) where
  | ret (a : α) : QProg W α
  | read (k : W → QProg W α) : QProg W α
  | write (w : W) (k : QProg W α) : QProg W α

/-- One program after the other. -/
def QProg.bind : QProg W α → (α → QProg W β) → QProg W β
  | .ret a, f => f a
  | .read k, f => .read fun w => (k w).bind f
  | .write w k, f => .write w (k.bind f)

/-- All threads: what is left of their programs, and the values written to each slot so far, latest first. -/
structure QConfig (W α : Type*) where
  prog : ℕ → QProg W α
  hist : ℕ → List W

/-- Which values a read may return.  `anyVis`: +inf, with which the slots are filled, or any value written to the slot before;
this covers every memory model in which reads do not see the future.  `lastVis`: the latest value. -/
def anyVis [LE W] [OrderTop W] (h : List W) (w : W) : Prop := w = ⊤ ∨ w ∈ h

/-- See `anyVis`. -/
def lastVis [LE W] [OrderTop W] (h : List W) (w : W) : Prop := w = h.headD ⊤

/-- One step of one of the threads `lo ≤ i < hi`; `slot i` is the slot of thread `i`. -/
inductive QStep (vis : List W → W → Prop) (slot : ℕ → ℕ) (lo hi : ℕ) : QConfig W α → QConfig W α → Prop
  | read (c : QConfig W α) (i : ℕ) (k : W → QProg W α) (w : W) : lo ≤ i → i < hi → c.prog i = .read k → vis (c.hist (slot i)) w →
      QStep vis slot lo hi c ⟨Function.update c.prog i (k w), c.hist⟩
  | write (c : QConfig W α) (i : ℕ) (w : W) (k : QProg W α) : lo ≤ i → i < hi → c.prog i = .write w k →
      QStep vis slot lo hi c ⟨Function.update c.prog i k, Function.update c.hist (slot i) (w :: c.hist (slot i))⟩

/-- `prange(lo, hi)`: the threads `lo ≤ i < hi` run in any interleaving until all have returned. -/
def QPhase (vis : List W → W → Prop) (slot : ℕ → ℕ) (lo hi : ℕ) (c c' : QConfig W α) : Prop :=
  Relation.ReflTransGen (QStep vis slot lo hi) c c' ∧ ∀ i, lo ≤ i → i < hi → ∃ a, c'.prog i = .ret a

/-! ## The query -/

/-- What a query reads and nobody writes meanwhile: the tree with its number of nodes, core distances, the component of every
point and of every node (`none` is `-1`). -/
structure QCtx (R W : Type*) where
  ar : Arith R W
  dims : ℕ
  pts : ℕ → ℕ → R
  t : KdTree R
  nNodes : ℕ
  core : ℕ → W
  comp : ℕ → ℕ
  nodeComp : ℕ → Option ℕ

/-- The leaf case of `component_aware_query_recursion`, boruvka.py:197-212, for the points `qs` of the leaf; `i` is the query point.  A
heap is `heap_p[0]` with `heap_i[0]`. -/
def leafProg [LinearOrder W] (x : QCtx R W) (i : ℕ) : List ℕ → W × Option ℕ → QProg W (W × Option ℕ)
  | [], h => .ret h
  | q :: qs, h =>
    if x.comp q ≠ x.comp i then
      .read fun b =>
        if x.core q < b then
          let d := max (max (rdist x.ar x.dims (x.pts i) (x.pts q)) (x.core i)) (x.core q)
          if d < h.1 then
            .read fun b' => if d < b' then .write d (leafProg x i qs (d, some q)) else leafProg x i qs (d, some q)
          else leafProg x i qs h
        else leafProg x i qs h
    else leafProg x i qs h

/-- `component_aware_query_recursion`, boruvka.py:154-287; the first number is fuel (the recursion is no deeper than the number of
nodes), then come the node, `dist_lower_bound` and the heap. -/
def nodeProg [LinearOrder R] [LinearOrder W] (x : QCtx R W) (i : ℕ) : ℕ → ℕ → W → W × Option ℕ → QProg W (W × Option ℕ)
  | 0, _, _, h => .ret h
  | g + 1, v, bound, h =>
    if bound > h.1 then .ret h
    else
      .read fun b =>
        if bound > b then .ret h
        else
          .read fun b' =>
            if x.core i > b' then .ret h
            else if x.nodeComp v = some (x.comp i) then .ret h
            else if x.t.leaf v then
              leafProg x i ((List.range' (x.t.start v) (x.t.stop v - x.t.start v)).map x.t.idx) h
            else
              let left := 2 * v + 1
              let right := left + 1
              let dl := boxDist x.ar x.dims (x.t.lo left) (x.t.hi left) (x.pts i)
              let dr := boxDist x.ar x.dims (x.t.lo right) (x.t.hi right) (x.pts i)
              if dl ≤ dr then (nodeProg x i g left dl h).bind fun h => nodeProg x i g right dr h
              else (nodeProg x i g right dr h).bind fun h => nodeProg x i g left dl h

/-- The body of the parallel loop of `boruvka_tree_query`, boruvka.py:310-329. -/
def pointProg [LinearOrder R] [LinearOrder W] [OrderTop W] (x : QCtx R W) (i : ℕ) : QProg W (W × Option ℕ) :=
  nodeProg x i x.nNodes 0 (boxDist x.ar x.dims (x.t.lo 0) (x.t.hi 0) (x.pts i)) (⊤, none)

/-- The possible results of `boruvka_tree_query`, boruvka.py:300-331, on `n` points. -/
def QueryResult [LinearOrder R] [LinearOrder W] [OrderTop W] (vis : List W → W → Prop) (x : QCtx R W) (n : ℕ)
    (cand : ℕ → W × Option ℕ) : Prop :=
  ∃ c, QPhase vis x.comp 0 n ⟨pointProg x, fun _ => []⟩ c ∧ ∀ i < n, c.prog i = .ret (cand i)

/-! ## The query with `reproducible=True` -/

/-- The body of the parallel loop of `boruvka_tree_query_reproducible`, boruvka.py:430-460: as before, and at the end the bound of
the component is read once more. -/
def reproProg [LinearOrder R] [LinearOrder W] [OrderTop W] (x : QCtx R W) (i : ℕ) : QProg W ((W × Option ℕ) × W) :=
  (pointProg x i).bind fun h => .read fun b => .ret (h, b)

/-- `update_component_bounds_from_block`, boruvka.py:378-382, for the points `is` of the block with the bounds `b`. -/
inductive Publish [LT W] (vis : List W → W → Prop) (slot : ℕ → ℕ) (b : ℕ → W) : List ℕ → (ℕ → List W) → (ℕ → List W) → Prop
  | nil (h : ℕ → List W) : Publish vis slot b [] h h
  | lower (i : ℕ) (is : List ℕ) (h h' : ℕ → List W) (w : W) : vis (h (slot i)) w → b i < w →
      Publish vis slot b is (Function.update h (slot i) (b i :: h (slot i))) h' → Publish vis slot b (i :: is) h h'
  | keep (i : ℕ) (is : List ℕ) (h h' : ℕ → List W) (w : W) : vis (h (slot i)) w → ¬ b i < w →
      Publish vis slot b is h h' → Publish vis slot b (i :: is) h h'

/-- The loop over the blocks from `start` on, boruvka.py:421-469: the threads of one block in any interleaving, then the
sequential update, then the next block. -/
inductive Blocks [LT W] (vis : List W → W → Prop) (slot : ℕ → ℕ) (n size : ℕ) :
    ℕ → QConfig W ((W × Option ℕ) × W) → QConfig W ((W × Option ℕ) × W) → Prop
  | done (start : ℕ) (c : QConfig W ((W × Option ℕ) × W)) : n ≤ start → Blocks vis slot n size start c c
  | block (start : ℕ) (c c' c'' : QConfig W ((W × Option ℕ) × W)) (r : ℕ → (W × Option ℕ) × W) (h : ℕ → List W) : start < n →
      QPhase vis slot start (min (start + size) n) c c' →
      (∀ i, start ≤ i → i < min (start + size) n → c'.prog i = .ret (r i)) →
      Publish vis slot (fun i => (r i).2) (List.range' start (min (start + size) n - start)) c'.hist h →
      Blocks vis slot n size (start + size) ⟨c'.prog, h⟩ c'' → Blocks vis slot n size start c c''

/-- `calculate_block_size`, boruvka.py:335-353. -/
def blockSize (nComp n threads : ℕ) : ℕ :=
  let size :=
    if nComp = 0 then (if n < 10 then threads * 512 else if n < 100 then threads * 128 else if n < 1000 then threads * 32 else threads * 8)
    else if n < 10 * nComp then threads * 512
    else if n < 100 * nComp then threads * 128
    else if n < 1000 * nComp then threads * 32
    else threads * 8
  max threads (min size (n / 4 + 1))

/-- The possible results of `boruvka_tree_query_reproducible`, boruvka.py:405-471. -/
def ReproResult [LinearOrder R] [LinearOrder W] [OrderTop W] (vis : List W → W → Prop) (x : QCtx R W) (n size : ℕ)
    (cand : ℕ → W × Option ℕ) : Prop :=
  ∃ c, Blocks vis x.comp n size 0 ⟨reproProg x, fun _ => []⟩ c ∧ ∀ i < n, ∃ b, c.prog i = .ret (cand i, b)

/-! ## Rounds -/

/-- A row of the result: `(u, v, weight)`; `v = none` is the index `-1`. -/
structure TEdge (W : Type*) where
  u : ℕ
  v : Option ℕ
  w : W

/-- The edge as the disjoint set sees it: index `-1` is the last entry of the array. -/
def TEdge.toEdge (n : ℕ) (e : TEdge W) : Edge W := ⟨e.u, e.v.getD (n - 1), e.w⟩

/-- `component_edges[...]`, boruvka.py:44-59, as `dictMin`.  There is no NaN in the model. -/
def dictMinT [LT W] [DecidableLT W] : List (ℕ × TEdge W) → ℕ → TEdge W → List (ℕ × TEdge W)
  | [], k, e => [(k, e)]
  | p :: D, k, e => if p.1 = k then (if e.w < p.2.w then (k, e) :: D else p :: D) else p :: dictMinT D k e

/-- Loop body of the second loop of `merge_components`, boruvka.py:65-76, and of `initialize_boruvka_from_knn`, boruvka.py:509-522. -/
def mergeStepT (n : ℕ) (s : RankDS × List (TEdge W)) (e : TEdge W) : RankDS × List (TEdge W) :=
  let fu := dsFind n s.1.parent (e.toEdge n).u
  let fv := dsFind n fu.1 (e.toEdge n).v
  let d : RankDS := { s.1 with parent := fv.1 }
  if fu.2 ≠ fv.2 then (dsUnionByRank n d fu.2 fv.2, s.2 ++ [e]) else (d, s.2)

/-- The dictionary of `merge_components`, boruvka.py:38-59. -/
def selectT [LT W] [DecidableLT W] (n : ℕ) (comp : ℕ → ℕ) (cand : ℕ → W × Option ℕ) : List (ℕ × TEdge W) :=
  (List.range n).foldl (fun D i => dictMinT D (comp i) ⟨i, (cand i).2, (cand i).1⟩) []

/-- `merge_components`, boruvka.py:35-78. -/
def mergeT [LT W] [DecidableLT W] (n : ℕ) (d : RankDS) (comp : ℕ → ℕ) (cand : ℕ → W × Option ℕ) : RankDS × List (TEdge W) :=
  ((selectT n comp cand).map Prod.snd).foldl (mergeStepT n) (d, [])

/-- Body of the second loop of `update_component_vectors`, boruvka.py:98-124. -/
def nodeCompStep (t : KdTree R) (comp : ℕ → ℕ) (nc : ℕ → Option ℕ) (i : ℕ) : ℕ → Option ℕ :=
  if t.leaf i then
    let c := comp (t.idx (t.start i))
    if (List.range' (t.start i + 1) (t.stop i - (t.start i + 1))).all (fun j => comp (t.idx j) = c) then Function.update nc i (some c)
    else nc
  else if nc (2 * i + 1) = nc (2 * i + 1 + 1) then Function.update nc i (nc (2 * i + 1))
  else nc

/-- The second loop of `update_component_vectors`, boruvka.py:98-124: from the last node to the first. -/
def updateNodes (t : KdTree R) (nNodes : ℕ) (comp : ℕ → ℕ) (nc : ℕ → Option ℕ) : ℕ → Option ℕ :=
  (List.range nNodes).reverse.foldl (nodeCompStep t comp) nc

/-- The loop over `j` in `initialize_boruvka_from_knn`, boruvka.py:493-503, over the entries after the first; index `-1` reads the
last core distance. -/
def initRow [LinearOrder W] (n : ℕ) (core : ℕ → W) (i : ℕ) : List (W × Option ℕ) → Option (TEdge W)
  | [] => none
  | p :: ps => if core i ≥ core (p.2.getD (n - 1)) then some ⟨i, p.2, max (core i) p.1⟩ else initRow n core i ps

/-- `initialize_boruvka_from_knn`, boruvka.py:486-524; `rows i` is row `i` of the neighbours with their distances. -/
def initT [LinearOrder W] (n : ℕ) (core : ℕ → W) (rows : ℕ → List (W × Option ℕ)) (d : RankDS) : RankDS × List (TEdge W) :=
  ((List.range n).filterMap fun i => initRow n core i (rows i).tail).foldl (mergeStepT n) (d, [])

/-- Variables of `parallel_boruvka`. -/
structure TState (W : Type*) where
  ds : RankDS
  comp : ℕ → ℕ
  nodeComp : ℕ → Option ℕ
  nComp : ℕ
  edges : List (TEdge W)

/-- Core distances of `parallel_boruvka` without sample weights, boruvka.py:584, 592: the last column, or zero. -/
def treeCore (zero : W) (ms : ℕ) (rows : ℕ → List (W × Option ℕ)) (i : ℕ) : W :=
  if 1 < ms then ((rows i).getLast?.map Prod.fst).getD zero else zero

/-- The number of neighbours asked for, boruvka.py:582, 594. -/
def treeK (ms : ℕ) : ℕ := if 1 < ms then ms + 1 else 2

/-- The state before the loop of `parallel_boruvka`, boruvka.py:559-608, without sample weights. -/
def treeStart [LinearOrder W] (t : KdTree R) (nNodes n : ℕ) (core : ℕ → W) (rows : ℕ → List (W × Option ℕ)) : TState W :=
  let r := initT n core rows dsRankCreate
  let comp := fun i => (dsFind n r.1.parent i).2
  ⟨r.1, comp, updateNodes t nNodes comp (fun _ => none), (uniqueLabels n comp).length, r.2⟩

/-- One iteration of the loop of `parallel_boruvka` after the query, boruvka.py:624-640. -/
def treeRound [LinearOrder W] (t : KdTree R) (nNodes n : ℕ) (s : TState W) (cand : ℕ → W × Option ℕ) : TState W :=
  let r := mergeT n s.ds s.comp cand
  let comp := fun i => (dsFind n r.1.parent i).2
  ⟨r.1, comp, updateNodes t nNodes comp s.nodeComp, s.nComp - r.2.length, s.edges ++ r.2⟩

/-- The loop of `parallel_boruvka`, boruvka.py:610-640; `query s cand` says which results the query may give in state `s`. -/
inductive TreeLoop [LinearOrder W] (t : KdTree R) (nNodes n : ℕ) (query : TState W → (ℕ → W × Option ℕ) → Prop) :
    TState W → TState W → Prop
  | done (s : TState W) : ¬ 1 < s.nComp → TreeLoop t nNodes n query s s
  | round (s s' : TState W) (cand : ℕ → W × Option ℕ) : 1 < s.nComp → query s cand →
      TreeLoop t nNodes n query (treeRound t nNodes n s cand) s' → TreeLoop t nNodes n query s s'

/-- The query of the loop, boruvka.py:611-622; `repro` is the number of threads with `reproducible=True`. -/
def loopQuery [LinearOrder R] [LinearOrder W] [OrderTop W] (vis : List W → W → Prop) (ar : Arith R W) (dims : ℕ) (pts : ℕ → ℕ → R)
    (t : KdTree R) (nNodes n : ℕ) (core : ℕ → W) (repro : Option ℕ) (s : TState W) (cand : ℕ → W × Option ℕ) : Prop :=
  match repro with
  | none => QueryResult vis ⟨ar, dims, pts, t, nNodes, core, s.comp, s.nodeComp⟩ n cand
  | some threads =>
    ReproResult vis ⟨ar, dims, pts, t, nNodes, core, s.comp, s.nodeComp⟩ n (blockSize s.nComp n threads) cand

/-- The possible results of `parallel_boruvka`, boruvka.py:552-647, without sample weights: the edges and the core distances.  `rt`
is the square root. -/
def TreeBoruvka [LinearOrder R] [LinearOrder W] [OrderTop W] (vis : List W → W → Prop) (ar : Arith R W) (rt : W → W) (dims : ℕ)
    (pts : ℕ → ℕ → R) (t : KdTree R) (nNodes n ms : ℕ) (repro : Option ℕ) (edges : List (TEdge W)) (core : ℕ → W) : Prop :=
  ∃ rows : ℕ → List (W × Option ℕ), (∀ i < n, treeQuery ar id dims pts t nNodes (treeK ms) (pts i) = some (rows i)) ∧
    ∃ s, TreeLoop t nNodes n (loopQuery vis ar dims pts t nNodes n (treeCore ar.zero ms rows) repro)
        (treeStart t nNodes n (treeCore ar.zero ms rows) rows) s ∧
      edges = s.edges.map (fun e => ⟨e.u, e.v, rt e.w⟩) ∧ ∀ i, core i = rt (treeCore ar.zero ms rows i)

/-! ## Sample weights -/

/-- The loop of `sample_weight_core_distance`, boruvka.py:532-537, over the entries of the row not yet read; `last` is
`distances[i, j - 1]`.  Sample weights and their sums are exact here; index `-1` reads the last weight. -/
def weightScan [Add S] [NatCast S] [LT S] [DecidableLT S] (n ms : ℕ) (sw : ℕ → S) : S → Option W → List (W × Option ℕ) → Option W
  | _, last, [] => last
  | total, last, p :: ps => if total < (ms : S) then weightScan n ms sw (total + sw (p.2.getD (n - 1))) (some p.1) ps else last

/-- `sample_weight_core_distance`, boruvka.py:528-539, for one row.  If no entry is read, index `-1` is the last one; `none`: the
row is empty. -/
def sampleWeightCore [AddMonoidWithOne S] [LT S] [DecidableLT S] (n ms : ℕ) (sw : ℕ → S) (row : List (W × Option ℕ)) : Option W :=
  weightScan n ms sw 0 (row.getLast?.map Prod.fst) row

/-- The number of neighbours asked for with sample weights, `int(2 * (min_samples / mean))`, boruvka.py:565-568, without rounding
errors. -/
def weightedK [Field S] [LinearOrder S] [FloorSemiring S] (n ms : ℕ) (sw : ℕ → S) : ℕ := ⌊2 * ((ms : S) / (((List.range n).map sw).sum / n))⌋₊

/-- The possible results of `parallel_boruvka`, boruvka.py:552-647, with more than one sample weight.  The neighbours are asked for
without `output_rdist`, so their distances are passed through `rt`. -/
def TreeBoruvkaW [Field S] [LinearOrder S] [FloorSemiring S] [LinearOrder R] [LinearOrder W] [OrderTop W] (vis : List W → W → Prop) (ar : Arith R W) (rt : W → W) (dims : ℕ)
    (pts : ℕ → ℕ → R) (t : KdTree R) (nNodes n ms : ℕ) (sw : ℕ → S) (repro : Option ℕ) (edges : List (TEdge W)) (core : ℕ → W) : Prop :=
  ∃ (rows : ℕ → List (W × Option ℕ)) (c : ℕ → W),
    (∀ i < n, treeQuery ar rt dims pts t nNodes (weightedK n ms sw) (pts i) = some (rows i)) ∧
    (∀ i < n, sampleWeightCore n ms sw (rows i) = some (c i)) ∧
    ∃ s, TreeLoop t nNodes n (loopQuery vis ar dims pts t nNodes n c repro) (treeStart t nNodes n c rows) s ∧
      edges = s.edges.map (fun e => ⟨e.u, e.v, rt e.w⟩) ∧ ∀ i, core i = rt (c i)

end Verif
