import Verif.Spec.Graph
import Mathlib.Algebra.Order.Monoid.Unbundled.WithTop

/-!
# Specification: distances with errors

Nothing here refers to the code.
-/

namespace Verif
variable {K : Type*}

/-- The distances between the first `n` rows differ by at most `δ` (where one is infinite, so is the other). -/
def CloseDist [Add K] [LE K] (n : ℕ) (δ : K) (d d' : ℕ → ℕ → WithTop K) : Prop :=
  ∀ i, i < n → ∀ j, j < n → d i j ≤ d' i j + δ ∧ d' i j ≤ d i j + δ

/-- Edges of different lengths differ in length by more than `2 δ`, and no two edges have the same length. -/
def WellSeparated [Add K] [LT K] (δ : K) (t : List (Edge (WithTop K))) : Prop :=
  (t.map Edge.w).Nodup ∧ ∀ e ∈ t, ∀ f ∈ t, e.w < f.w → e.w + δ + δ < f.w

end Verif
