import Verif.Spec.Graph
import Verif.Spec.Condensed
import Verif.Spec.Dendrogram
import Mathlib.Logic.Equiv.Defs

/-!
# Graphs and trees that are the same up to the names of the samples
-/

namespace Verif
variable {W L S : Type*}

/-- At every length `t` the edges of `g` up to `t` and those of `g'` connect the same samples; sample `x` of `g` is sample `f x` of `g'`. -/
def SameComponents [LE W] [DecidableLE W] (n : ℕ) (f : ℕ → ℕ) (g g' : List (Edge W)) : Prop :=
  ∀ t x y, x < n → y < n → (Conn (upTo t g) x y ↔ Conn (upTo t g') (f x) (f y))

/-- A renaming of the samples, extended to all nodes. -/
def onNodes (n : ℕ) (f : ℕ → ℕ) (v : ℕ) : ℕ := if v < n then f v else v

/-- The row with the children renamed, the larger one first again. -/
def renRow (n : ℕ) (f : ℕ → ℕ) (row : LRow W S) : LRow W S :=
  ⟨max (onNodes n f row.l) (onNodes n f row.r), min (onNodes n f row.l) (onNodes n f row.r), row.d, row.s⟩

/-- A node, if it is not a sample. -/
def innerNode (n v : ℕ) : Option ℕ := if n ≤ v then some v else none

/-- The row with its sample renamed. -/
def renCRow (n : ℕ) (f : ℕ → ℕ) (row : CRow L S) : CRow L S := { row with child := onNodes n f row.child }

/-- The row without the name of its sample. -/
def anonRow (n : ℕ) (row : CRow L S) : ℕ × Option ℕ × L × S := (row.parent, innerNode n row.child, row.lam, row.size)

end Verif
