import Verif.Spec.Graph

/-!
# Borůvka's method (specification)

The textbook process without any data structure: in every round some of the current components name a lightest edge leaving
them, then the named edges are gone through in any order and taken unless their endpoints are connected by then.
-/

namespace Verif
variable {W : Type*}

/-- `e` is a lightest edge of `g` leaving the component of `c` in `f`. -/
structure LightestOut [LE W] (g f : List (Edge W)) (c : ℕ) (e : Edge W) : Prop where
  mem : e ∈ g
  inside : Conn f c e.u
  outside : ¬ Conn f c e.v
  least : ∀ d ∈ g, ¬ (Conn f c d.u ↔ Conn f c d.v) → e.w ≤ d.w

/-- `MergeRound f P f'`: going through the named edges `P` from left to right turns `f` into `f'`.  An entry of `P` is a
vertex and the edge named by the component of that vertex. -/
inductive MergeRound : List (Edge W) → List (ℕ × Edge W) → List (Edge W) → Prop
  | nil (f : List (Edge W)) : MergeRound f [] f
  | take {f : List (Edge W)} {p P f'} : ¬ Conn f p.2.u p.2.v → MergeRound (f ++ [p.2]) P f' → MergeRound f (p :: P) f'
  | skip {f : List (Edge W)} {p P f'} : Conn f p.2.u p.2.v → MergeRound f P f' → MergeRound f (p :: P) f'

/-- `BoruvkaRun g f`: some number of rounds on the graph `g` leads to the forest `f`.  Not every component needs to name an
edge, and nothing is said about the order or about which of several equally light edges is named. -/
inductive BoruvkaRun [LE W] (g : List (Edge W)) : List (Edge W) → Prop
  | start : BoruvkaRun g []
  | round {f P f'} : BoruvkaRun g f → P.Pairwise (fun a b : ℕ × Edge W => ¬ Conn f a.1 b.1) →
      (∀ p ∈ P, LightestOut g f p.1 p.2) → MergeRound f P f' → BoruvkaRun g f'

end Verif
