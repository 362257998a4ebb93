import Verif.Spec.Graph
import Mathlib.Algebra.BigOperators.Group.Finset.Basic

/-!
# Specification: what the leaf clusters are

Nothing here refers to the code.  Edges are added one by one; parts of the data are joined.  A part is heavy if it weighs at least `mcs`.
-/

namespace Verif
variable {W K : Type*}

section
variable [AddCommMonoid K] [LE K]

open Classical in
/-- The samples connected with `x` by edges of `g` weigh at least `mcs`. -/
def HeavyPart (n : ℕ) (wt : ℕ → K) (mcs : K) (g : List (Edge W)) (x : ℕ) : Prop :=
  mcs ≤ ∑ y ∈ (Finset.range n).filter fun y => Conn g x y, wt y

/-- Edge `j` joins two heavy parts. -/
def HeavyJoin (n : ℕ) (wt : ℕ → K) (mcs : K) (es : List (Edge W)) (j : ℕ) : Prop :=
  ∃ e, es[j]? = some e ∧ HeavyPart n wt mcs (es.take j) e.u ∧ HeavyPart n wt mcs (es.take j) e.v

/-- `S` is one of two heavy parts joined by an edge, and no edge inside `S` has joined two heavy parts. -/
def LeafPart (n : ℕ) (wt : ℕ → K) (mcs : K) (es : List (Edge W)) (S : Set ℕ) : Prop :=
  ∃ j e, es[j]? = some e ∧ HeavyJoin n wt mcs es j ∧ (S = {z | Conn (es.take j) e.u z} ∨ S = {z | Conn (es.take j) e.v z}) ∧
    ∀ i e', i < j → es[i]? = some e' → e'.u ∈ S → ¬ HeavyJoin n wt mcs es i

/-- No edge that joins two heavy parts has the weight of another edge. -/
def UntiedJoins (n : ℕ) (wt : ℕ → K) (mcs : K) (es : List (Edge W)) : Prop :=
  ∀ j e, es[j]? = some e → HeavyJoin n wt mcs es j → ∀ i e', es[i]? = some e' → e'.w = e.w → i = j

/-- `S` is heavy and connected below the distance `τ`; at `τ` it is joined with another heavy part; and at no smaller distance are there two heavy parts inside `S`. -/
def LeafGroup [LinearOrder W] (n : ℕ) (wt : ℕ → K) (mcs : K) (g : List (Edge W)) (S : Set ℕ) : Prop :=
  ∃ τ x y, x < n ∧ Conn (upTo τ g) x y ∧ ¬ Conn (below τ g) x y ∧ HeavyPart n wt mcs (below τ g) x ∧ HeavyPart n wt mcs (below τ g) y ∧
    S = {z | Conn (below τ g) x z} ∧
    ∀ τ' ≤ τ, ∀ a ∈ S, ∀ b ∈ S, HeavyPart n wt mcs (below τ' g) a → HeavyPart n wt mcs (below τ' g) b → Conn (below τ' g) a b

end
end Verif
