import Verif.Spec.LeafExact

/-!
# Specification: ties that do not matter for the leaf clusters

Nothing here refers to the code.
-/

namespace Verif
variable {W K : Type*} [LinearOrder W]

/-- `u` and `v` are connected at the distance `τ`, and not below. -/
def JoinedAt (g : List (Edge W)) (τ : W) (u v : ℕ) : Prop := Conn (upTo τ g) u v ∧ ¬ Conn (below τ g) u v

/-- At most two parts of the data are joined at the distance `τ`. -/
def OneJoin (n : ℕ) (g : List (Edge W)) (τ : W) : Prop :=
  ∀ u v u' v', u < n → v < n → u' < n → v' < n → JoinedAt g τ u v → JoinedAt g τ u' v' →
    Conn (below τ g) u u' ∧ Conn (below τ g) v v' ∨ Conn (below τ g) u v' ∧ Conn (below τ g) v u'

open Classical in
/-- At every distance at most two parts are joined, or everything that is joined to the largest part of a component weighs less than `mcs`, taken together. -/
def SmallTies [AddCommMonoid K] [LE K] (n : ℕ) (wt : ℕ → K) (mcs : K) (g : List (Edge W)) : Prop :=
  ∀ τ, OneJoin n g τ ∨ ∀ x < n, ∃ a < n, Conn (upTo τ g) x a ∧
    ¬ mcs ≤ ∑ y ∈ (Finset.range n).filter fun y => Conn (upTo τ g) x y ∧ ¬ Conn (below τ g) a y, wt y

end Verif
