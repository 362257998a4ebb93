import Verif.Spec.FindSub
import Verif.Spec.SubClusters

/-!
# Branches of clusters (specification)
-/

namespace Verif
variable {D : Type*}

/-- The rows of cluster `c`, ascending: `idx` are the rows that are kept, `lab` their clusters. -/
def rowsIn (idx : List ℕ) (lab : ℕ → ℤ) (c : ℤ) : List ℕ := idx.filter fun i => lab i = c

/-- The samples of cluster `c` form one piece (neighbours and tree edges number the kept rows), and there are at most two branches, at most one with
`label_sides_as_branches`; `sub` are the branch labels. -/
def OneBranch (sides : Bool) (idx : List ℕ) (lab : ℕ → ℤ) (nb : ℕ → List (Option ℕ)) (mst : List (Edge D)) (sub : ℕ → ℤ) (c : ℤ) : Prop :=
  (∀ p < idx.length, ∀ q < idx.length, atFinite idx lab p = c → atFinite idx lab q = c → LinkedIn idx.length (atFinite idx lab) nb mst c p q) ∧
    branchCount ((rowsIn idx lab c).map sub) ≤ if sides then 1 else 2

end Verif
