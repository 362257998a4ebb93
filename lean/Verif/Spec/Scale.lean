import Verif.Spec.Condensed
import Verif.Spec.Dendrogram

/-!
# Rows with other distances
-/

namespace Verif
variable {W V L M S : Type*}

/-- The row with another lambda. -/
def CRow.mapLam (g : L → M) (row : CRow L S) : CRow M S := ⟨row.parent, row.child, g row.lam, row.size⟩

/-- The row with another distance. -/
def LRow.mapD (g : W → V) (row : LRow W S) : LRow V S := ⟨row.l, row.r, g row.d, row.s⟩

end Verif
