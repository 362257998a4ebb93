import Verif.Model.KruskalApi
import Verif.Model.CoreGraph

/-!
# Model of `precomputed.py` (sparse precomputed graphs)

Weights are elements of a linear order with `⊤` for `+inf` and `0`.  `rnd` is the rounding to float32 of the Borůvka path.
-/

namespace Verif
variable {W : Type*}

/-- A scipy sparse matrix in coordinate form: shape and stored entries (row, column, value), duplicates allowed. -/
structure Coo (W : Type*) where
  isSparse : Bool
  rows : ℕ
  cols : ℕ
  entries : List (Edge W)

/-- The errors of `validate_precomputed_sparse_graph`. -/
inductive PreError
  | notSparse | notSquare | notFinite | negative
  deriving DecidableEq

/-- `validate_precomputed_sparse_graph`, precomputed.py:30-67.  `finite` is `np.isfinite`. -/
def validatePre [LT W] [DecidableLT W] [Zero W] (finite : W → Bool) (m : Coo W) : Except PreError Unit :=
  if ¬ m.isSparse then .error .notSparse
  else if m.rows ≠ m.cols then .error .notSquare
  else if m.entries.any fun e => ¬ finite e.w then .error .notFinite
  else if m.entries.any fun e => e.w < 0 then .error .negative
  else .ok ()

/-- The integer key of a canonical pair, precomputed.py:114. -/
def pairKey (n : ℕ) (e : Edge W) : ℕ := e.u * n + e.v

/-- `group_starts` and `minimum.reduceat`, precomputed.py:114-120: runs of equal keys become one entry with the smallest
value. -/
def reduceMin [LinearOrder W] (n : ℕ) : List (Edge W) → List (Edge W)
  | [] => []
  | e :: es =>
    match reduceMin n es with
    | [] => [e]
    | h :: t => if pairKey n e = pairKey n h then ⟨e.u, e.v, min e.w h.w⟩ :: t else e :: h :: t

/-- The order of `np.lexsort((v, u))`, precomputed.py:108. -/
def pairLexLe (a b : Edge W) : Prop := a.u < b.u ∨ (a.u = b.u ∧ a.v ≤ b.v)

instance : DecidableRel (pairLexLe (W := W)) := fun a b => by unfold pairLexLe; infer_instance

/-- The mirrored entry, precomputed.py:124-130. -/
def swapEdge (e : Edge W) : Edge W := ⟨e.v, e.u, e.w⟩

/-- `_symmetrize_min_csr`, precomputed.py:70-144.  Both sorts are stable insertion sorts; `indptr[i]` is the running sum of
`bincount`. -/
def symmetrizeMin [LinearOrder W] (n : ℕ) (coo : List (Edge W)) : Csr W :=
  let off := coo.filter fun e => e.u ≠ e.v
  if off.length = 0 then ⟨fun _ => 0, []⟩
  else
    let canon := off.map fun e : Edge W => (⟨min e.u e.v, max e.u e.v, e.w⟩ : Edge W)
    let m := reduceMin n (canon.insertionSort pairLexLe)
    let sym := (m ++ m.map swapEdge).insertionSort fun a b : Edge W => a.u ≤ b.u
    ⟨fun i => ((List.range i).map fun r => sym.countP fun e => e.u = r).sum, sym.map fun e => (e.v, e.w)⟩

/-- A row in the order of `np.argsort(row_data)`, precomputed.py:187 (numpy leaves the order of ties open). -/
def sortRow [LinearOrder W] (row : List (ℕ × W)) : List (ℕ × W) := row.insertionSort fun a b : ℕ × W => a.2 ≤ b.2

/-- Core distance of one node in `_core_distances_csr`, precomputed.py:174-197. -/
def csrCore [LinearOrder W] [OrderTop W] [Zero W] (minSamples : ℕ) (row : List (ℕ × W)) : W :=
  if row.length = 0 then (if 1 < minSamples then ⊤ else 0)
  else if 1 < minSamples then
    (if minSamples ≤ row.length then (((sortRow row)[minSamples - 1]?).map Prod.snd).getD ⊤ else ⊤)
  else 0

/-- Neighbour row of one node in `_core_distances_csr`, precomputed.py:170-171, 189-191: `k = max(1, min_samples)` entries,
`none` is `-1`. -/
def csrNeighbors [LinearOrder W] (minSamples : ℕ) (row : List (ℕ × W)) : List (Option ℕ) :=
  let k := max 1 minSamples
  ((sortRow row).take k).map (fun p => some p.1) ++ List.replicate (k - row.length) none

/-- One row of `_build_core_graph_csr`, precomputed.py:233-263: mutual reachability rounded to float32, sorted by neighbour and
then stably by weight. -/
def coreGraphRow [LinearOrder W] (rnd : W → W) (cd : ℕ → W) (i : ℕ) (row : List (ℕ × W)) : List (ℕ × W) :=
  sortRow ((row.map fun p => (p.1, rnd (max (max (cd i) (cd p.1)) p.2))).insertionSort fun a b : ℕ × W => a.1 ≤ b.1)

/-- `_build_core_graph_csr`, precomputed.py:202-265.  Row `i` is written to the positions it had before, so the flat arrays are
the concatenation of the new rows. -/
def buildCoreGraph [LinearOrder W] (rnd : W → W) (n : ℕ) (c : Csr W) (cd : ℕ → W) : Csr W :=
  ⟨c.indptr, (List.range n).flatMap fun i => coreGraphRow rnd cd i (c.row i)⟩

/-- `_patch_mst_weights` for one edge, precomputed.py:294-304.  `> 1e200` is `= ⊤`: the weights are float32 values. -/
def patchEdge [LinearOrder W] [OrderTop W] [Zero W] (c : Csr W) (cd : ℕ → W) (e : Edge W) : Edge W :=
  if e.w = ⊤ then e
  else
    let base := (((c.row e.u).find? fun p => p.1 = e.v).map Prod.snd).getD 0
    ⟨e.u, e.v, max (max (cd e.u) (cd e.v)) base⟩

/-- `compute_mst_from_precomputed_sparse`, precomputed.py:410-476 (after validation; `neighbors` is `csrNeighbors`). -/
def preBoruvka [LinearOrder W] [OrderTop W] [Zero W] (rnd : W → W) (n : ℕ) (coo : List (Edge W)) (minSamples : ℕ) :
    List (Edge W) :=
  let c := symmetrizeMin n coo
  let cd := fun i => csrCore minSamples (c.row i)
  let r := boruvkaMst n (buildCoreGraph rnd n c cd)
  let mst := if 1 < r.1 then bridgeForest r.2.2 r.2.1 n else r.2.2
  mst.map (patchEdge c cd)

/-- `compute_mst_from_precomputed_sparse_kruskal`, precomputed.py:479-557 (after validation). -/
def preKruskal [LinearOrder W] [OrderTop W] [Zero W] (n : ℕ) (coo : List (Edge W)) (minSamples : ℕ) (cl : CLParams) :
    List (Edge W) :=
  let c := symmetrizeMin n coo
  let cd := fun i => csrCore minSamples (c.row i)
  let r := kruskalFromCsr n (fun i => c.row i) cd cl
  if 1 < r.1 then bridgeForest r.2.2 r.2.1 n else r.2.2

end Verif
