import Verif.Spec.Graph

/-!
# The greedy edge selection process (specification)

The textbook description of (constrained) Kruskal, without any data structure: edges are
looked at in order, an edge is taken iff its endpoints are not yet connected and taking it
would not connect a forbidden pair.
-/

namespace Verif
variable {W : Type*}

/-- Taking `e` on top of `acc` is useful and joins no forbidden pair. -/
def Permitted (cl : ℕ → ℕ → Prop) (acc : List (Edge W)) (e : Edge W) : Prop :=
  ¬ Conn acc e.u e.v ∧ ∀ x y, Conn acc e.u x → Conn acc e.v y → ¬ cl x y

/-- `Greedy cl es acc`: processing `es` from left to right takes exactly `acc`. -/
inductive Greedy (cl : ℕ → ℕ → Prop) : List (Edge W) → List (Edge W) → Prop
  | nil : Greedy cl [] []
  | take {es acc e} : Greedy cl es acc → Permitted cl acc e → Greedy cl (es ++ [e]) (acc ++ [e])
  | skip {es acc e} : Greedy cl es acc → ¬ Permitted cl acc e → Greedy cl (es ++ [e]) acc

end Verif
