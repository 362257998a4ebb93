import Mathlib.Data.Int.Order.Basic
import Mathlib.Data.Nat.Notation
import Mathlib.Data.List.Dedup

/-!
# Specification of cluster-local labels
-/

namespace Verif

/-- Labels are `-1` (noise) or count from 0 without gaps. -/
structure DenseLabels (l : List ℤ) : Prop where
  ge : ∀ x ∈ l, -1 ≤ x
  below : ∀ x ∈ l, ∀ y, 0 ≤ y → y < x → y ∈ l

/-- Number of branches: different labels other than noise. -/
def branchCount (l : List ℤ) : ℕ := (l.filter (· ≠ -1)).dedup.length

end Verif
