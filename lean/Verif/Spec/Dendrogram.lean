import Verif.Spec.Graph
import Mathlib.Algebra.BigOperators.Group.Finset.Basic

/-!
# Independent specification: dendrograms given as a list of merges

Nodes `0 … n-1` are samples, row `i` of the list describes the merge creating node `n + i`.
-/

namespace Verif
variable {W S : Type*}

/-- One merge: the two merged nodes, the height, the recorded size. -/
structure LRow (W S : Type*) where
  l : ℕ
  r : ℕ
  d : W
  s : S
deriving DecidableEq, Repr

/-- Sample `x` lies below node `v`. -/
inductive Below (n : ℕ) (rows : List (LRow W S)) : ℕ → ℕ → Prop
  | leaf {x : ℕ} : x < n → Below n rows x x
  | left {i x : ℕ} {row : LRow W S} : rows[i]? = some row → Below n rows row.l x → Below n rows (n + i) x
  | right {i x : ℕ} {row : LRow W S} : rows[i]? = some row → Below n rows row.r x → Below n rows (n + i) x

open Classical in
/-- `rows` is a complete dendrogram over the samples `0 … n-1` with sample weights `wt`. -/
structure Dendrogram [AddCommMonoid S] (n : ℕ) (wt : ℕ → S) (rows : List (LRow W S)) : Prop where
  /-- one merge less than samples -/
  length : rows.length + 1 = n
  /-- merges only join two existing nodes, the larger id first -/
  lt : ∀ i row, rows[i]? = some row → row.r < row.l ∧ row.l < n + i
  /-- no node is merged twice -/
  once : (rows.flatMap fun row => [row.l, row.r]).Nodup
  /-- the recorded size is the total weight of the samples below -/
  size : ∀ i row, rows[i]? = some row →
    row.s = ((Finset.range n).filter fun x => Below n rows (n + i) x).sum wt

end Verif
