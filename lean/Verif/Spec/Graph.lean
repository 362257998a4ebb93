import Mathlib.Logic.Relation
import Mathlib.Data.List.Sort
import Mathlib.Data.Finset.Card
import Mathlib.Data.Finset.Range

/-!
# Independent specification of graph notions

Nothing in this file refers to the code in `/repo`; these are the textbook notions
the property theorems are stated with.
-/

namespace Verif

/-- A weighted undirected edge between two numbered vertices. -/
structure Edge (W : Type*) where
  u : ℕ
  v : ℕ
  w : W
deriving DecidableEq, Repr

variable {W : Type*}

/-- `a` and `b` are the two endpoints of some listed edge. -/
def Adj (es : List (Edge W)) (a b : ℕ) : Prop :=
  ∃ e ∈ es, (e.u = a ∧ e.v = b) ∨ (e.u = b ∧ e.v = a)

/-- `a` and `b` are joined by a (possibly empty) path of listed edges. -/
def Conn (es : List (Edge W)) : ℕ → ℕ → Prop :=
  Relation.ReflTransGen (Adj es)

/-- No listed edge is redundant: removing any one of them separates its endpoints.
This is the usual characterisation of cycle-free multigraphs. -/
def Acyclic (es : List (Edge W)) : Prop :=
  ∀ l₁ e l₂, es = l₁ ++ e :: l₂ → ¬ Conn (l₁ ++ l₂) e.u e.v

/-- All endpoints are vertices `0 … n-1`. -/
def InRange (n : ℕ) (es : List (Edge W)) : Prop :=
  ∀ e ∈ es, e.u < n ∧ e.v < n

open Classical in
/-- Number of connected components of the graph on vertices `0 … n-1`: every component
is counted at its smallest vertex. -/
noncomputable def compCount (n : ℕ) (es : List (Edge W)) : ℕ :=
  ((Finset.range n).filter (fun x => ∀ y, y < x → ¬ Conn es x y)).card

/-- The edges of weight at most `t`. -/
def upTo [LE W] [DecidableLE W] (t : W) (es : List (Edge W)) : List (Edge W) :=
  es.filter (fun e => decide (e.w ≤ t))

/-- The edges of weight strictly below `t`. -/
def below [LT W] [DecidableLT W] (t : W) (es : List (Edge W)) : List (Edge W) :=
  es.filter (fun e => decide (e.w < t))

/-- `f` is a spanning forest of `g`: its edges are edges of `g` (with multiplicity),
it has no cycle, and it connects whatever `g` connects. -/
structure SpanningForest (g f : List (Edge W)) : Prop where
  sub : List.Subperm f g
  acyclic : Acyclic f
  conn : ∀ a b, Conn f a b ↔ Conn g a b

/-- `f` spans the vertices `0 … n-1` as a tree. -/
structure SpanningTree (n : ℕ) (f : List (Edge W)) : Prop where
  inRange : InRange n f
  acyclic : Acyclic f
  conn : ∀ a b, a < n → b < n → Conn f a b

/-- The list of weights. -/
def weights (es : List (Edge W)) : List W := es.map Edge.w

/-- `f` is a minimum spanning forest of `g`: it is a spanning forest and, compared with
any other spanning forest, its sorted weights are pointwise at most the other's.
(For numeric weights this is stronger than minimality of the sum.) -/
structure MinSpanningForest [LinearOrder W] (g f : List (Edge W)) : Prop where
  forest : SpanningForest g f
  minimal : ∀ f', SpanningForest g f' →
    List.Forall₂ (· ≤ ·) ((weights f).insertionSort (· ≤ ·)) ((weights f').insertionSort (· ≤ ·))

end Verif
