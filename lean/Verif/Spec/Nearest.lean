import Mathlib.Data.Nat.Notation
import Mathlib.Order.Defs.LinearOrder
import Mathlib.Data.List.Basic

/-!
# Keeping the smallest entries

What it means for a list of (priority, index) pairs to hold the smallest ones of a larger list.
-/

namespace Verif
variable {W J : Type*}

/-- The entries `0, …, size - 1` of an array. -/
def entries {α : Type*} (size : ℕ) (h : ℕ → α) : List α := (List.range size).map h

/-- `kept` are entries of `all`, each used at most once, and no entry that is left out is smaller than one that is kept. -/
def SmallestOf [LE W] (kept all : List (W × J)) : Prop :=
  ∃ rest, (kept ++ rest).Perm all ∧ ∀ x ∈ kept, ∀ y ∈ rest, x.1 ≤ y.1

/-- Max-heap order on the entries `0, …, size - 1`: no entry exceeds its parent. -/
def HeapOrder [LE W] (size : ℕ) (h : ℕ → W × J) : Prop :=
  ∀ c, 0 < c → c < size → (h c).1 ≤ (h ((c - 1) / 2)).1

end Verif
