import Verif.Model.KruskalApi

/-!
# The neighbour lists of `_kruskal_mst_brute`, kruskal.py:921-930

`np.argpartition` and `np.argsort` (not stable) leave the order of equal distances open, so the model is a relation: all rows that some
implementation of the two may give.
-/

namespace Verif
variable {W : Type*}

/-- `k_out`, kruskal.py:922. -/
def bruteOut (n ms : ℕ) : ℕ := min (max 1 ms) (n - 1)

/-- Row `i` of `part`, kruskal.py:923-924: `k_part` different indices such that no other index has a smaller distance. -/
structure ArgPartition [LinearOrder W] (n k : ℕ) (d : ℕ → W) (part : List ℕ) : Prop where
  nodup : part.Nodup
  lt : ∀ a ∈ part, a < n
  length : part.length = k
  least : ∀ a ∈ part, ∀ b < n, b ∉ part → d a ≤ d b

/-- Row `i` of `neighbors`, kruskal.py:922-930: the partition, sorted by distance, without its first entry ("skip self"). -/
def BruteNeighbors [LinearOrder W] (n ms : ℕ) (D : ℕ → ℕ → W) (i : ℕ) (out : List ℕ) : Prop :=
  ∃ part sorted : List ℕ, ArgPartition n (min (bruteOut n ms + 1) n) (D i) part ∧ sorted.Perm part ∧
    (sorted.map (D i)).Pairwise (· ≤ ·) ∧ out = (sorted.drop 1).take (bruteOut n ms)

end Verif
