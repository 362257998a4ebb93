import Mathlib.Order.Basic
import Mathlib.Order.Defs.LinearOrder

/-!
# Denser data
-/

namespace Verif

/-- The data with `n` rows and distances `D` are at least as dense as those with `m` rows and distances `D'`: they contain row `i` as row `f i`, no two of these rows are farther
apart than before, and there may be further rows. -/
structure Denser {W : Type*} [LE W] (m n : ℕ) (D' D : ℕ → ℕ → W) (f : ℕ → ℕ) : Prop where
  lt : ∀ i, i < m → f i < n
  inj : ∀ i, i < m → ∀ j, j < m → f i = f j → i = j
  le : ∀ i, i < m → ∀ j, j < m → D (f i) (f j) ≤ D' i j

end Verif
