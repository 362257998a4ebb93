import Mathlib.Data.Finset.Card
import Mathlib.Data.Finset.Range
import Mathlib.Logic.Relation
import Mathlib.Order.Defs.LinearOrder

/-!
# Specification: DBSCAN\* on a matrix of distances
-/

namespace Verif
variable {W : Type*}

/-- A core sample: at least `ms` other samples are closer than `eps`. -/
def IsCoreSample [LinearOrder W] (n : ℕ) (D : ℕ → ℕ → W) (eps : W) (ms i : ℕ) : Prop :=
  ms ≤ ((Finset.range n).filter fun j => j ≠ i ∧ D i j < eps).card

/-- A chain of core samples from `a` to `b`, each closer than `eps` to the next. -/
def CoreChain [LinearOrder W] (n : ℕ) (D : ℕ → ℕ → W) (eps : W) (ms : ℕ) : ℕ → ℕ → Prop :=
  Relation.ReflTransGen fun a b => a < n ∧ b < n ∧ IsCoreSample n D eps ms a ∧ IsCoreSample n D eps ms b ∧ D a b < eps

/-- DBSCAN\* (Campello, Moulavi, Zimek and Sander 2013): samples that are not core samples are noise; core samples share a label exactly when a chain of core
samples joins them. -/
def DbscanStar [LinearOrder W] (n : ℕ) (D : ℕ → ℕ → W) (eps : W) (ms : ℕ) (lab : ℕ → ℤ) : Prop :=
  (∀ i < n, lab i = -1 ↔ ¬ IsCoreSample n D eps ms i) ∧
  ∀ i < n, ∀ j < n, IsCoreSample n D eps ms i → IsCoreSample n D eps ms j → (lab i = lab j ↔ CoreChain n D eps ms i j)

end Verif
