import Verif.Spec.Graph

/-!
# Specification: weighted rows written out as copies

Nothing here refers to the code.
-/

namespace Verif
variable {W K : Type*}

/-- A data set of `N` rows in which row `x` of a weighted data set occurs `wt x` times; row `a` is a copy of row `π a`, and copies are as far from other rows as the
original.  The distance between copies of one row is arbitrary. -/
structure Copies [NatCast K] (n N : ℕ) (d d' : ℕ → ℕ → W) (wt : ℕ → K) (π : ℕ → ℕ) : Prop where
  range : ∀ a, a < N → π a < n
  onto : ∀ x, x < n → ∃ a, a < N ∧ π a = x
  count : ∀ x, x < n → wt x = (((Finset.range N).filter fun a => π a = x).card : K)
  dist : ∀ a b, a < N → b < N → π a ≠ π b → d' a b = d (π a) (π b)

end Verif
