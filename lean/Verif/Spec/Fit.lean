import Verif.Spec.Dendrogram

/-!
# Specification for trees over all rows
-/

namespace Verif
variable {W S : Type*}

open Classical in
/-- `rows` is a complete dendrogram over the samples `0 … n-1` with sample weights `wt`; the two merged nodes may come in either order. -/
structure MergeTree [AddCommMonoid S] (n : ℕ) (wt : ℕ → S) (rows : List (LRow W S)) : Prop where
  /-- one merge less than samples -/
  length : rows.length + 1 = n
  /-- merges only join two existing nodes -/
  lt : ∀ i row, rows[i]? = some row → row.l < n + i ∧ row.r < n + i
  /-- no node is merged twice -/
  once : (rows.flatMap fun row => [row.l, row.r]).Nodup
  /-- the recorded size is the total weight of the samples below -/
  size : ∀ i row, rows[i]? = some row →
    row.s = ((Finset.range n).filter fun x => Below n rows (n + i) x).sum wt

/-- The rows `idx` (ascending) and `outliers` together are all rows `0 … n-1`, each once. -/
structure SplitRows (n : ℕ) (idx outliers : List ℕ) : Prop where
  asc : idx.Pairwise (· < ·)
  all : (idx ++ outliers).Perm (List.range n)

end Verif
