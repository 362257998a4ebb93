import Verif.Spec.Dendrogram

/-!
# Independent specification: merges of two large parts
-/

namespace Verif
variable {W S : Type*}

open Classical in
/-- The total weight of the samples below node `v`. -/
noncomputable def weightBelow [AddCommMonoid S] (n : ℕ) (wt : ℕ → S) (rows : List (LRow W S)) (v : ℕ) : S :=
  ((Finset.range n).filter fun x => Below n rows v x).sum wt

/-- Merge `i` joins two parts that both weigh at least `s`. -/
def BigMerge [AddCommMonoid S] [LE S] (n : ℕ) (wt : ℕ → S) (rows : List (LRow W S)) (s : S) (i : ℕ) : Prop :=
  ∃ row, rows[i]? = some row ∧ s ≤ weightBelow n wt rows row.l ∧ s ≤ weightBelow n wt rows row.r

open Classical in
/-- The number of such merges. -/
noncomputable def bigMerges [AddCommMonoid S] [LE S] (n : ℕ) (wt : ℕ → S) (rows : List (LRow W S)) (s : S) : ℕ :=
  ((Finset.range rows.length).filter fun i => BigMerge n wt rows s i).card

end Verif
