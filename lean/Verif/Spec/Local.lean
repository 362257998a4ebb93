import Verif.Spec.Graph
import Mathlib.Data.Set.Function

/-!
# Specification: a group of samples that occurs in two data sets

Nothing here refers to the code.
-/

namespace Verif
variable {W K : Type*}

/-- The samples `A` of the first data set occur in the second as `σ '' A`, with the same distances and weights; in both data sets they are joined by steps of at most `τ`,
and all other samples are farther than `τ` from them. -/
structure SameInside [LinearOrder W] (n n' : ℕ) (d d' : ℕ → ℕ → W) (wt wt' : ℕ → K) (τ : W) (A : Set ℕ) (σ : ℕ → ℕ) : Prop where
  range : ∀ x ∈ A, x < n ∧ σ x < n'
  inj : Set.InjOn σ A
  dist : ∀ x ∈ A, ∀ y ∈ A, d' (σ x) (σ y) = d x y
  weight : ∀ x ∈ A, wt' (σ x) = wt x
  joined : ∀ x ∈ A, ∀ y ∈ A, Relation.ReflTransGen (fun a b => b ∈ A ∧ d a b ≤ τ) x y
  apart : ∀ x ∈ A, ∀ y, y < n → y ∉ A → τ < d x y ∧ τ < d y x
  apart' : ∀ x ∈ A, ∀ y, y < n' → y ∉ σ '' A → τ < d' (σ x) y ∧ τ < d' y (σ x)

end Verif
