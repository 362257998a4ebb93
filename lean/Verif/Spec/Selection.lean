import Verif.Spec.Condensed
import Mathlib.Algebra.Ring.Defs
import Mathlib.Algebra.BigOperators.Group.List.Defs

/-!
# Independent specification: selecting clusters of a condensed tree
-/

namespace Verif
variable {L S V : Type*}

/-- No selected cluster lies below another selected cluster. -/
def NonNested (rows : List (CRow L S)) (sel : List ℕ) : Prop :=
  ∀ a ∈ sel, ∀ b ∈ sel, CDesc rows a b → a = b

/-- Cluster `c` has no child cluster. -/
def Childless (n : ℕ) (rows : List (CRow L S)) (c : ℕ) : Prop := ∀ row ∈ rows, row.parent = c → row.child < n

/-- Stability of cluster `c`: lambda times size of everything that leaves it, minus lambda times size of `c` itself when it
appears (nothing for the top cluster, which has no row). -/
def stability [Ring V] (rows : List (CRow V V)) (c : ℕ) : V :=
  ((rows.filter fun row => decide (row.parent = c)).map fun row => row.lam * row.size).sum -
    ((rows.filter fun row => decide (row.child = c)).map fun row => row.lam * row.size).sum

end Verif
