import Verif.Spec.Graph

/-!
# Specification: some rows of a data set

Nothing here refers to the code.
-/

namespace Verif
variable {W K : Type*}

/-- The second data set consists of some of the rows of the first, with the same distances and weights; row `a` of the second is row `σ a` of the first. -/
structure Kept (n n' : ℕ) (d d' : ℕ → ℕ → W) (wt wt' : ℕ → K) (σ : ℕ → ℕ) : Prop where
  range : ∀ a, a < n' → σ a < n
  inj : ∀ a b, a < n' → b < n' → σ a = σ b → a = b
  dist : ∀ a b, a < n' → b < n' → d' a b = d (σ a) (σ b)
  weight : ∀ a, a < n' → wt' a = wt (σ a)

end Verif
