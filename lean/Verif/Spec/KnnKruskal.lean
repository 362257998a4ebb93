import Verif.Spec.Graph
import Mathlib.Order.BoundedOrder.Basic
import Mathlib.Order.Lattice

/-!
# Independent specification: the graph of nearest neighbours
-/

namespace Verif
variable {W : Type*}

/-- `e` goes from a sample to another one that is in its list of neighbours; its weight is the largest of the two core distances and the distance, and is
not infinite. -/
structure KnnEdge [LinearOrder W] [OrderTop W] (n : ℕ) (knn : ℕ → List (Option ℕ × W)) (core : ℕ → W) (e : Edge W) : Prop where
  sample : e.u < n
  other : e.u ≠ e.v
  neighbour : ∃ d, (some e.v, d) ∈ knn e.u ∧ e.w = max (max (core e.u) (core e.v)) d
  finite : e.w < ⊤

/-- `tree` spans all `n` samples; it consists of a minimum spanning forest of `g` and of infinite edges between the components of `g`, one fewer than there
are components. -/
structure BridgedForest [LinearOrder W] [OrderTop W] (n : ℕ) (g tree : List (Edge W)) : Prop where
  spans : SpanningTree n tree
  parts : ∃ forest bridges, tree = forest ++ bridges ∧ MinSpanningForest g forest ∧ (∀ e ∈ forest, e.w < ⊤) ∧ (∀ e ∈ bridges, e.w = ⊤) ∧
    bridges.length + 1 = compCount n g

end Verif
