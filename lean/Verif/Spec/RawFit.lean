import Mathlib.Data.List.Sort
import Mathlib.Data.List.Count
import Mathlib.Order.BoundedOrder.Basic
import Mathlib.Algebra.Group.Defs
import Mathlib.Logic.Relation
import Mathlib.Algebra.Field.Defs
import Mathlib.Algebra.BigOperators.Group.Finset.Basic

/-!
# Specification: a clustering of the rows of a data set

Nothing here refers to the code: rows with missing values, a distance between rows, density by the distance to the `ms`-th neighbour.
-/

namespace Verif
variable {W K α : Type*}

/-- Core distance of `x` among the rows `P` (of which it is one): entry `ms` of the sorted distances, the distance to itself being entry 0; 0 if
`ms` is 0 or 1; infinite if there are not enough rows. -/
def coreOf [LinearOrder W] [OrderTop W] [Zero W] (dist : α → α → W) (P : List α) (ms : ℕ) (x : α) : W :=
  if ms ≤ 1 then 0 else ((P.map (dist x)).insertionSort (· ≤ ·)).getD ms ⊤

/-- Mutual reachability distance. -/
def rowReach [LinearOrder W] [OrderTop W] [Zero W] (dist : α → α → W) (P : List α) (ms : ℕ) (x y : α) : W :=
  max (max (dist x y) (coreOf dist P ms x)) (coreOf dist P ms y)

/-- Rows `i` and `j` of the data have no missing values, and their mutual reachability distance among the rows without missing values meets `p`. -/
def Within [LinearOrder W] [OrderTop W] [Zero W] (finite : α → Bool) (dist : α → α → W) (ms : ℕ) (X : List α) (p : W → Prop) (i j : ℕ) : Prop :=
  ∃ x y, X[i]? = some x ∧ X[j]? = some y ∧ finite x = true ∧ finite y = true ∧ p (rowReach dist (X.filter finite) ms x y)

/-- One label and one strength for each of the rows `X`. -/
structure LabelledRows [Zero K] [One K] [LE K] (finite : α → Bool) (X : List α) (labels : List ℤ) (strengths : List K) : Prop where
  /-- one label and one strength per row -/
  length : labels.length = X.length ∧ strengths.length = X.length
  /-- rows with missing values are noise -/
  missing : ∀ (i : ℕ) x, X[i]? = some x → finite x = false → labels[i]? = some (-1) ∧ strengths[i]? = some 0
  /-- strengths are between 0 and 1, and 0 for noise -/
  strength : ∀ (i : ℕ) s, strengths[i]? = some s → 0 ≤ s ∧ s ≤ 1 ∧ (labels[i]? = some (-1) → s = 0)

/-- A sound clustering of the rows `X`. -/
structure SoundClustering [LinearOrder W] [OrderTop W] [Zero W] [Zero K] [One K] [LE K] (finite : α → Bool) (dist : α → α → W) (ms mcs : ℕ)
    (X : List α) (labels : List ℤ) (strengths : List K) : Prop extends LabelledRows finite X labels strengths where
  /-- clusters have at least `mcs` rows -/
  size : ∀ l ∈ labels, l ≠ -1 → 0 ≤ l ∧ mcs ≤ labels.count l
  /-- each cluster holds together at some distance `τ`, at which nothing outside is nearer: any two of its rows are joined by a chain of rows of the
  cluster with steps of at most `τ`, and every row less than `τ` from one of its rows is in it -/
  cluster : ∀ l ∈ labels, l ≠ -1 → ∃ τ : W,
    (∀ i j : ℕ, labels[i]? = some l → labels[j]? = some l → Relation.ReflTransGen
      (fun a b : ℕ => labels[a]? = some l ∧ labels[b]? = some l ∧ Within finite dist ms X (· ≤ τ) a b) i j) ∧
    ∀ i j : ℕ, labels[i]? = some l → Within finite dist ms X (· < τ) i j → labels[j]? = some l

/-- Rows `i` and `j` of the data have no missing values, and their distance `reach` meets `p`. -/
def RowsWithin (finite : α → Bool) (reach : α → α → W) (X : List α) (p : W → Prop) (i j : ℕ) : Prop :=
  ∃ x y, X[i]? = some x ∧ X[j]? = some y ∧ finite x = true ∧ finite y = true ∧ p (reach x y)

/-- A sound clustering of the rows `X` for a given distance, with clusters measured by the weights of their rows. -/
structure SoundGroups [LinearOrder W] [AddCommMonoid K] [One K] [LE K] (finite : α → Bool) (reach : α → α → W) (weight : ℕ → K) (mcs : K)
    (X : List α) (labels : List ℤ) (strengths : List K) : Prop extends LabelledRows finite X labels strengths where
  /-- the rows of a cluster weigh at least `mcs` -/
  size : ∀ l ∈ labels, l ≠ -1 → 0 ≤ l ∧ mcs ≤ ∑ i ∈ (Finset.range X.length).filter fun i => labels[i]? = some l, weight i
  /-- each cluster holds together at some distance `τ`, at which nothing outside is nearer -/
  cluster : ∀ l ∈ labels, l ≠ -1 → ∃ τ : W,
    (∀ i j : ℕ, labels[i]? = some l → labels[j]? = some l → Relation.ReflTransGen
      (fun a b : ℕ => labels[a]? = some l ∧ labels[b]? = some l ∧ RowsWithin finite reach X (· ≤ τ) a b) i j) ∧
    ∀ i j : ℕ, labels[i]? = some l → RowsWithin finite reach X (· < τ) i j → labels[j]? = some l

end Verif
