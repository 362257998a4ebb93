import Verif.Spec.Graph
import Verif.Spec.RawFit

/-!
# Specification: no dense group of samples is missed

Nothing here refers to the code.  At every distance `τ` the data falls into groups joined by steps of at most `τ`.
-/

namespace Verif
variable {W K α : Type*}

section graph
variable [LinearOrder W]

open Classical in
/-- The samples joined with `x` by edges of at most `τ` weigh at least `mcs`. -/
def BigPart [AddCommMonoid K] [LE K] (n : ℕ) (wt : ℕ → K) (mcs : K) (g : List (Edge W)) (τ : W) (x : ℕ) : Prop :=
  mcs ≤ ∑ y ∈ (Finset.range n).filter fun y => Conn (upTo τ g) x y, wt y

/-- At some finite distance there are two such groups. -/
def TwoParts [AddCommMonoid K] [LE K] [OrderTop W] (n : ℕ) (wt : ℕ → K) (mcs : K) (g : List (Edge W)) : Prop :=
  ∃ τ ≠ (⊤ : W), ∃ x y, x < n ∧ y < n ∧ BigPart n wt mcs g τ x ∧ BigPart n wt mcs g τ y ∧ ¬ Conn (upTo τ g) x y

/-- Every such group is inside one cluster, or has a whole cluster inside. -/
def PartsFound [AddCommMonoid K] [LE K] [OrderTop W] (n : ℕ) (wt : ℕ → K) (mcs : K) (g : List (Edge W)) (labels : List ℤ) : Prop :=
  ∀ τ ≠ (⊤ : W), ∀ x < n, BigPart n wt mcs g τ x → ∃ l ∈ labels, 0 ≤ l ∧
    ((∀ y < n, Conn (upTo τ g) x y → labels[y]? = some l) ∨ ∀ y, labels[y]? = some l → Conn (upTo τ g) x y)

/-- No cluster has samples of two such groups. -/
def PartsApart [AddCommMonoid K] [LE K] [OrderTop W] (n : ℕ) (wt : ℕ → K) (mcs : K) (g : List (Edge W)) (labels : List ℤ) : Prop :=
  ∀ τ ≠ (⊤ : W), ∀ x < n, ∀ y < n, BigPart n wt mcs g τ x → BigPart n wt mcs g τ y → ∀ x' < n, ∀ y' < n, Conn (upTo τ g) x x' → Conn (upTo τ g) y y' →
    ∀ l : ℤ, l ≠ -1 → labels[x']? = some l → labels[y']? = some l → Conn (upTo τ g) x y

end graph

section rows
variable [LinearOrder W]

/-- Rows `i` and `j` are joined by a chain of rows without missing values, with steps of at most `τ`. -/
def Linked (finite : α → Bool) (reach : α → α → W) (X : List α) (τ : W) (i j : ℕ) : Prop :=
  Relation.ReflTransGen (RowsWithin finite reach X (· ≤ τ)) i j

open Classical in
/-- Row `i` has no missing values, and the rows linked with it weigh at least `mcs`. -/
def BigGroup [AddCommMonoid K] [LE K] (finite : α → Bool) (reach : α → α → W) (weight : ℕ → K) (mcs : K) (X : List α) (τ : W) (i : ℕ) : Prop :=
  (∃ x, X[i]? = some x ∧ finite x = true) ∧ mcs ≤ ∑ j ∈ (Finset.range X.length).filter fun j => Linked finite reach X τ i j, weight j

/-- At some finite distance there are two such groups. -/
def TwoGroups [AddCommMonoid K] [LE K] [OrderTop W] (finite : α → Bool) (reach : α → α → W) (weight : ℕ → K) (mcs : K) (X : List α) : Prop :=
  ∃ τ ≠ (⊤ : W), ∃ i j, BigGroup finite reach weight mcs X τ i ∧ BigGroup finite reach weight mcs X τ j ∧ ¬ Linked finite reach X τ i j

/-- Every such group is inside one cluster, or has a whole cluster inside. -/
def GroupsFound [AddCommMonoid K] [LE K] [OrderTop W] (finite : α → Bool) (reach : α → α → W) (weight : ℕ → K) (mcs : K) (X : List α) (labels : List ℤ) :
    Prop :=
  ∀ τ ≠ (⊤ : W), ∀ i, BigGroup finite reach weight mcs X τ i → ∃ l ∈ labels, 0 ≤ l ∧
    ((∀ j, Linked finite reach X τ i j → labels[j]? = some l) ∨ ∀ j, labels[j]? = some l → Linked finite reach X τ i j)

/-- No cluster has rows of two such groups. -/
def GroupsApart [AddCommMonoid K] [LE K] [OrderTop W] (finite : α → Bool) (reach : α → α → W) (weight : ℕ → K) (mcs : K) (X : List α) (labels : List ℤ) :
    Prop :=
  ∀ τ ≠ (⊤ : W), ∀ i j, BigGroup finite reach weight mcs X τ i → BigGroup finite reach weight mcs X τ j → ∀ i' j', Linked finite reach X τ i i' →
    Linked finite reach X τ j j' → ∀ l : ℤ, l ≠ -1 → labels[i']? = some l → labels[j']? = some l → Linked finite reach X τ i j

end rows
end Verif
