import Mathlib.Data.Nat.Notation
import Mathlib.Data.Int.Notation
import Mathlib.Data.Finset.Card
import Mathlib.Data.Rat.Defs

/-!
# Specification: peaks, similarity, parents between layers of labels
-/

namespace Verif

/-- The stretch `l … r` is a strict local maximum of `x 0 … x (n-1)`: constant, and lower on both sides. -/
structure PlateauMax {W : Type*} [LT W] (n : ℕ) (x : ℕ → W) (l r : ℕ) : Prop where
  pos : 0 < l
  le : l ≤ r
  lt : r + 1 < n
  flat : ∀ j, l ≤ j → j ≤ r → x j = x l
  left : x (l - 1) < x l
  right : x (r + 1) < x l

/-- The Jaccard index of two finite sets; of two empty sets it is 0. -/
def jaccard (A B : Finset ℕ) : ℚ := ((A ∩ B).card : ℚ) / ((A ∪ B).card : ℚ)


/-- Cluster `v` of layer `ul` and cluster `c` of layer `ll` have a sample in common. -/
def Shares (labels : ℕ → List ℤ) (ul : ℕ) (v : ℤ) (ll : ℕ) (c : ℤ) : Prop := ∃ i : ℕ, (labels ul)[i]? = some v ∧ (labels ll)[i]? = some c

/-- Cluster `p` of layer `pl` is the parent of cluster `c` of layer `cl`: of all clusters in later layers that share a sample it is the one
in the nearest layer, and there the one with the smallest label. -/
def LayerParent (L : ℕ) (labels : ℕ → List ℤ) (pl : ℕ) (p : ℤ) (cl : ℕ) (c : ℤ) : Prop :=
  (cl < pl ∧ pl < L ∧ 0 ≤ p ∧ Shares labels pl p cl c) ∧
    ∀ pl' p', cl < pl' → pl' < L → 0 ≤ p' → Shares labels pl' p' cl c → pl < pl' ∨ (pl = pl' ∧ p ≤ p')

/-- Labels are -1 or numbered without a gap. -/
def DenseLayer (l : List ℤ) : Prop := ∀ x ∈ l, -1 ≤ x ∧ ∀ v, 0 ≤ v → v ≤ x → v ∈ l

end Verif
