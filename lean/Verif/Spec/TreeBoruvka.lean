import Verif.Model.TreeBoruvka
import Verif.Spec.KdTree
import Verif.Spec.Boruvka
import Verif.Spec.Graph

/-!
# Specification of the tree-based Borůvka routine
-/

namespace Verif
variable {R W : Type*} [LinearOrder R] [LinearOrder W]

/-- Squared mutual reachability distance: the largest of the squared distance and the two squared core distances. -/
def mreach (ar : Arith R W) (dims : ℕ) (pts : ℕ → ℕ → R) (core : ℕ → W) (i j : ℕ) : W :=
  max (max (rdist ar dims (pts i) (pts j)) (core i)) (core j)

/-- The component stored for a node of the tree is that of all its points. -/
def NodesSound (t : KdTree R) (comp : ℕ → ℕ) (nodeComp : ℕ → Option ℕ) : Prop :=
  ∀ v d, t.Node v d → ∀ c, nodeComp v = some c → ∀ j, t.start v ≤ j → j < t.stop v → comp (t.idx j) = c

/-- The candidates found for the points are edges to other components (or none), and among those found for the points of a
component there is one that is at least as light as any edge leaving the component. -/
structure ExactCandidates [OrderTop W] (n : ℕ) (comp : ℕ → ℕ) (weight : ℕ → ℕ → W) (cand : ℕ → W × Option ℕ) : Prop where
  real : ∀ i < n, cand i = (⊤, none) ∨ ∃ q < n, comp q ≠ comp i ∧ cand i = (weight i q, some q)
  best : ∀ p < n, ∀ q < n, comp p ≠ comp q → weight p q < ⊤ → ∃ i < n, comp i = comp p ∧ (cand i).1 ≤ weight p q

/-- The complete graph on `n` points, every edge in both directions. -/
def completeGraph (n : ℕ) (weight : ℕ → ℕ → W) : List (Edge W) :=
  (List.range n).flatMap fun i => ((List.range n).filter fun j => decide (i ≠ j)).map fun j => ⟨i, j, weight i j⟩

/-- The states at the head of the loop of `parallel_boruvka`, for every possible course of the queries. -/
inductive LoopState (t : KdTree R) (nNodes n : ℕ) (query : TState W → (ℕ → W × Option ℕ) → Prop) (s0 : TState W) : TState W → Prop
  | start : LoopState t nNodes n query s0 s0
  | next (s : TState W) (cand : ℕ → W × Option ℕ) : LoopState t nNodes n query s0 s → 1 < s.nComp → query s cand →
      LoopState t nNodes n query s0 (treeRound t nNodes n s cand)

end Verif
