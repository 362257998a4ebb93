import Verif.Spec.Graph
import Mathlib.Order.BoundedOrder.Basic

/-!
# Precomputed distance graphs (specification)

A precomputed graph is a list of stored entries `(row, column, value)`.
-/

namespace Verif
variable {W : Type*}

/-- `w` is stored for the pair `i, j` in one of the two directions. -/
def Stored (coo : List (Edge W)) (i j : ℕ) (w : W) : Prop := (⟨i, j, w⟩ : Edge W) ∈ coo ∨ (⟨j, i, w⟩ : Edge W) ∈ coo

/-- `w` is the distance between `i` and `j`: the smallest stored value of that pair, in either direction.  A sample has no
distance to itself. -/
def IsDist [LE W] (coo : List (Edge W)) (i j : ℕ) (w : W) : Prop :=
  i ≠ j ∧ Stored coo i j w ∧ ∀ w', Stored coo i j w' → w ≤ w'

/-- `i` has no neighbour. -/
def Isolated (coo : List (Edge W)) (i : ℕ) : Prop := ∀ j w, i ≠ j → ¬ Stored coo i j w

open Classical in
/-- Number of neighbours of `i` whose distance satisfies `P`. -/
noncomputable def nbrCount [LE W] (n : ℕ) (coo : List (Edge W)) (i : ℕ) (P : W → Prop) : ℕ :=
  ((Finset.range n).filter fun j => ∃ w, IsDist coo i j w ∧ P w).card

/-- `x` is the distance of `i` to its `k`-th nearest neighbour. -/
def KthNearest [LT W] [LE W] (n : ℕ) (coo : List (Edge W)) (i k : ℕ) (x : W) : Prop :=
  (∃ j < n, IsDist coo i j x) ∧ nbrCount n coo i (· < x) < k ∧ k ≤ nbrCount n coo i (· ≤ x)

/-- `x` is the core distance of `i`. -/
def IsCoreDist [LT W] [LE W] [OrderTop W] [Zero W] (n : ℕ) (coo : List (Edge W)) (k i : ℕ) (x : W) : Prop :=
  if k ≤ 1 then x = 0
  else if nbrCount n coo i (fun _ => True) < k then x = ⊤
  else KthNearest n coo i k x

/-- `e` is an edge of the mutual reachability graph: its weight is the largest of the two core distances and the distance. -/
def IsMrd [LinearOrder W] [OrderTop W] [Zero W] (n : ℕ) (coo : List (Edge W)) (k : ℕ) (e : Edge W) : Prop :=
  ∃ ci cj d, IsCoreDist n coo k e.u ci ∧ IsCoreDist n coo k e.v cj ∧ IsDist coo e.u e.v d ∧ e.w = max (max ci cj) d

/-- The edge with its weight changed by `f`. -/
def Edge.mapW {V : Type*} (f : W → V) (e : Edge W) : Edge V := ⟨e.u, e.v, f e.w⟩

/-- What the rounding to single precision is assumed to be: it keeps the order, and only `+inf` becomes `+inf` (no
overflow). -/
structure Rounding [LinearOrder W] [OrderTop W] (rnd : W → W) : Prop where
  mono : Monotone rnd
  top : ∀ w, rnd w = ⊤ ↔ w = ⊤

end Verif
