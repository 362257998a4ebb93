import Verif.Model.DisjointSet
import Verif.Spec.Graph
import Mathlib.Order.BoundedOrder.Basic
import Mathlib.Data.List.Range

/-!
# Model of the Borůvka routine on sparse graphs, `core_graph.py`

The flat CSR arrays are modelled as such, so that what is read at `indptr[i]` does not depend on row `i` being non-empty.
-/

namespace Verif
variable {W : Type*}

/-- A graph in compressed sparse row form: `indptr`, and `indices` zipped with the weights; core_graph.py:10
(`CoreGraph`; its `distances` take no part in the spanning tree). -/
structure Csr (W : Type*) where
  indptr : ℕ → ℕ
  ent : List (ℕ × W)

/-- `indices[indptr[i]:indptr[i+1]]` zipped with the weights. -/
def Csr.row (c : Csr W) (i : ℕ) : List (ℕ × W) := (c.ent.drop (c.indptr i)).take (c.indptr (i + 1) - c.indptr i)

/-- The two working arrays of `boruvka_mst` (core_graph.py:177-182): `indices` with `-1` as `none`, and `distances`. -/
structure WorkArrays (W : Type*) where
  idx : ℕ → Option ℕ
  dst : ℕ → W

/-- The copies made at core_graph.py:181-182. -/
def Csr.work [LE W] [OrderTop W] (c : Csr W) : WorkArrays W :=
  ⟨fun p => (c.ent[p]?).map Prod.fst, fun p => ((c.ent[p]?).map Prod.snd).getD ⊤⟩

/-- `component_edges[from_component] = ...` unless an entry that is at least as light is present, core_graph.py:123-127.  The
dictionary is a list of key/value pairs in insertion order. -/
def dictMin [LT W] [DecidableLT W] : List (ℕ × Edge W) → ℕ → Edge W → List (ℕ × Edge W)
  | [], k, e => [(k, e)]
  | p :: D, k, e => if p.1 = k then (if e.w < p.2.w then (k, e) :: D else p :: D) else p :: dictMin D k e

/-- Loop body of `select_components`, core_graph.py:116-127. -/
def selectStep [LT W] [DecidableLT W] (nnz : ℕ) (indptr : ℕ → ℕ) (a : WorkArrays W) (comp : ℕ → ℕ)
    (D : List (ℕ × Edge W)) (parent : ℕ) : List (ℕ × Edge W) :=
  let start := indptr parent
  if start = nnz then D
  else match a.idx start with
    | none => D
    | some nb => dictMin D (comp parent) ⟨parent, nb, a.dst start⟩

/-- `select_components`, core_graph.py:109-129. -/
def selectComponents [LT W] [DecidableLT W] (n nnz : ℕ) (indptr : ℕ → ℕ) (a : WorkArrays W) (comp : ℕ → ℕ) :
    List (ℕ × Edge W) :=
  (List.range n).foldl (selectStep nnz indptr a comp) []

/-- Loop body of `merge_components`, core_graph.py:138-149. -/
def mergeStep (n : ℕ) (s : RankDS × List (Edge W)) (p : ℕ × Edge W) : RankDS × List (Edge W) :=
  let fu := dsFind n s.1.parent p.2.u
  let fv := dsFind n fu.1 p.2.v
  let d : RankDS := { s.1 with parent := fv.1 }
  if fu.2 ≠ fv.2 then (dsUnionByRank n d fu.2 fv.2, s.2 ++ [p.2]) else (d, s.2)

/-- `merge_components`, core_graph.py:132-151. -/
def mergeComponents (n : ℕ) (d : RankDS) (D : List (ℕ × Edge W)) : RankDS × List (Edge W) :=
  D.foldl (mergeStep n) (d, [])

/-- State of the inner loop of `update_graph_components`: the arrays, `counter`, and whether `break` was executed. -/
structure CompactState (W : Type*) where
  arr : WorkArrays W
  counter : ℕ
  stop : Bool

/-- Body of the inner loop of `update_graph_components`, core_graph.py:160-167. -/
def compactStep (comp : ℕ → ℕ) (point start : ℕ) (s : CompactState W) (i : ℕ) : CompactState W :=
  if s.stop then s
  else match s.arr.idx i with
    | none => { s with stop := true }
    | some child =>
      if comp child ≠ comp point then
        { s with
          arr := ⟨Function.update s.arr.idx (start + s.counter) (s.arr.idx i),
            Function.update s.arr.dst (start + s.counter) (s.arr.dst i)⟩
          counter := s.counter + 1 }
      else s

/-- One iteration of the outer loop of `update_graph_components`, core_graph.py:156-169. -/
def compactRow [LE W] [OrderTop W] (indptr : ℕ → ℕ) (comp : ℕ → ℕ) (a : WorkArrays W) (point : ℕ) : WorkArrays W :=
  let start := indptr point
  let stop := indptr (point + 1)
  let s := (List.range' start (stop - start)).foldl (compactStep comp point start) ⟨a, 0, false⟩
  ⟨fun p => if start + s.counter ≤ p ∧ p < stop then none else s.arr.idx p,
    fun p => if start + s.counter ≤ p ∧ p < stop then ⊤ else s.arr.dst p⟩

/-- `update_graph_components`, core_graph.py:154-169.  The iterations of the parallel loop touch disjoint parts of the arrays,
here they run one after the other. -/
def compactAll [LE W] [OrderTop W] (n : ℕ) (indptr : ℕ → ℕ) (comp : ℕ → ℕ) (a : WorkArrays W) : WorkArrays W :=
  (List.range n).foldl (compactRow indptr comp) a

/-- Variables of the loop of `boruvka_mst`. -/
structure BState (W : Type*) where
  ds : RankDS
  comp : ℕ → ℕ
  nComp : ℕ
  arr : WorkArrays W
  edges : List (Edge W)

/-- The `while` loop of `boruvka_mst`, core_graph.py:189-200 (fuel first).  `update_point_components` (core_graph.py:13-16) is
`comp i = ds_find(i)`; concurrent finds do not disturb each other (`C11_concurrent_finds`). -/
def boruvkaLoop [LinearOrder W] [OrderTop W] (n nnz : ℕ) (indptr : ℕ → ℕ) : ℕ → BState W → BState W
  | 0, s => s
  | f + 1, s =>
    if 1 < s.nComp then
      let r := mergeComponents n s.ds (selectComponents n nnz indptr s.arr s.comp)
      if r.2.length = 0 then { s with ds := r.1 }
      else
        let comp := fun i => (dsFind n r.1.parent i).2
        boruvkaLoop n nnz indptr f ⟨r.1, comp, s.nComp - r.2.length, compactAll n indptr comp s.arr, s.edges ++ r.2⟩
    else s

/-- `boruvka_mst`, core_graph.py:172-208: `(n_components, point_components, edges)`. -/
def boruvkaMst [LinearOrder W] [OrderTop W] (n : ℕ) (c : Csr W) : ℕ × (ℕ → ℕ) × List (Edge W) :=
  let s := boruvkaLoop n c.ent.length c.indptr n ⟨dsRankCreate, fun i => i, n, c.work, []⟩
  (s.nComp, s.comp, s.edges)

end Verif
