import Verif.Model.LensGraph

/-!
# The core graph of a lens (specification)
-/

namespace Verif
variable {W D : Type*}

/-- The edges of the core graph with their lens weights: every point to each of its neighbours, and the spanning tree. -/
def lensEdges [LinearOrder W] (n : ℕ) (nb : ℕ → List (Option ℕ)) (mst : List (Edge D)) (lens : ℕ → W) : List (Edge W) :=
  ((List.range n).flatMap fun u => (nb u).filterMap fun c => c.map fun v => ⟨u, v, max (lens u) (lens v)⟩) ++
    mst.map fun e => ⟨e.u, e.v, max (lens e.u) (lens e.v)⟩

/-- `c` is the core graph of a lens: row `u` has exactly one entry for each neighbour of `u` and each other end of a spanning tree edge from
`u`, none else; its weight is the larger lens value; its distance is the larger core distance for neighbours, the tree's distance otherwise;
the rows are sorted by weight and stored one after the other. -/
structure LensGraphOf [LinearOrder W] [LinearOrder D] (n : ℕ) (nb : ℕ → List (Option ℕ)) (core : ℕ → D) (mst : List (Edge D)) (lens : ℕ → W)
    (c : LensCsr W D) : Prop where
  once : ∀ u < n, ((c.row u).map Prod.fst).Nodup
  mem : ∀ u < n, ∀ v, v ∈ (c.row u).map Prod.fst ↔ some v ∈ nb u ∨ ∃ e ∈ mst, e.u = u ∧ e.v = v
  weight : ∀ u < n, ∀ v w d, (v, w, d) ∈ c.row u → w = max (lens u) (lens v)
  distKnn : ∀ u < n, ∀ v w d, (v, w, d) ∈ c.row u → some v ∈ nb u → d = max (core u) (core v)
  distMst : ∀ u < n, ∀ v w d, (v, w, d) ∈ c.row u → some v ∉ nb u → (mst.find? fun e => e.u = u ∧ e.v = v).map Edge.w = some d
  sorted : ∀ u < n, (c.row u).Pairwise fun a b => a.2.1 ≤ b.2.1
  ptr : ∀ i, c.indptr i = ((List.range (min i n)).map fun j => (c.row j).length).sum
  ent : c.ent = (List.range n).flatMap c.row

/-- No point is its own neighbour, indices are in range. -/
structure LensInput (n : ℕ) (nb : ℕ → List (Option ℕ)) (mst : List (Edge D)) : Prop where
  knn : ∀ u < n, ∀ v, some v ∈ nb u → v < n ∧ v ≠ u
  mst : ∀ e ∈ mst, e.u < n ∧ e.v < n ∧ e.u ≠ e.v

/-- Every point has a neighbour or is the first end of a tree edge. -/
def NoEmptyRow (n : ℕ) (nb : ℕ → List (Option ℕ)) (mst : List (Edge D)) : Prop :=
  ∀ u < n, (∃ v, some v ∈ nb u) ∨ ∃ e ∈ mst, e.u = u

/-- What is needed of `np.argsort` on the rows: a rearrangement by ascending weight. -/
structure SortsRows [LE W] (sortRow : LensRow W D → LensRow W D) : Prop where
  perm : ∀ r, (sortRow r).Perm r
  sorted : ∀ r, (sortRow r).Pairwise fun a b => a.2.1 ≤ b.2.1

end Verif
