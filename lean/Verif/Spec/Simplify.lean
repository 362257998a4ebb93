import Verif.Spec.Condensed

/-!
# Specification: persistence of clusters
-/

namespace Verif
variable {L S : Type*}

/-- The cluster listed in `row` lives on for at least `thr` after it appeared: some sample below it leaves that much later. -/
def Persists [LE L] [Sub L] (n : ℕ) (rows : List (CRow L S)) (thr : L) (row : CRow L S) : Prop :=
  ∃ s ∈ rows, s.child < n ∧ CDesc rows row.child s.parent ∧ thr ≤ s.lam - row.lam

/-- The rows of each cluster are listed in the order of their lambdas. -/
def LamSorted [LE L] (rows : List (CRow L S)) : Prop := rows.Pairwise fun r r' => r.parent = r'.parent → r.lam ≤ r'.lam

end Verif
