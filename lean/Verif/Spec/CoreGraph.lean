import Verif.Model.CoreGraph

/-!
# What a CSR graph stands for (specification)
-/

namespace Verif
variable {W : Type*}

/-- All stored entries of the first `n` rows, as edges. -/
def Csr.graph (n : ℕ) (c : Csr W) : List (Edge W) :=
  (List.range n).flatMap fun i => (c.row i).map fun p => ⟨i, p.1, p.2⟩

/-- A well-formed symmetric graph without self-loops whose rows are sorted by weight. -/
structure Csr.SortedSym [LE W] (n : ℕ) (c : Csr W) : Prop where
  mono : Monotone c.indptr
  last : c.indptr n = c.ent.length
  target : ∀ i < n, ∀ p ∈ c.row i, p.1 < n ∧ p.1 ≠ i
  sorted : ∀ i < n, (c.row i).Pairwise fun a b => a.2 ≤ b.2
  sym : ∀ i < n, ∀ p ∈ c.row i, (i, p.2) ∈ c.row p.1

/-- Rows without entries occur only after the last row with entries. -/
def Csr.NoGaps (n : ℕ) (c : Csr W) : Prop := ∀ i < n, c.row i = [] → c.indptr i = c.ent.length

end Verif
