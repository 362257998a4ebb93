import Verif.Lemmas.CoreGraph
import Mathlib.Data.ENat.Basic

/-!
# C33: Borůvka on a sparse graph
-/

namespace Verif
variable {W : Type*} [LinearOrder W]

/-- **C33 (any order, any ties).**  Whatever sequence of rounds was gone through, once no edge of the graph joins two different
components the chosen edges are a minimum spanning forest. -/
theorem C33_any_order {g f : List (Edge W)} (h : BoruvkaRun g f) (hd : ∀ e ∈ g, Conn f e.u e.v) : MinSpanningForest g f :=
  h.safe.minSpanningForest hd

/-- A run with two equally light candidate edges, taken in an order of our choosing. -/
example : MinSpanningForest (W := ℕ) [⟨0, 1, 3⟩, ⟨1, 2, 3⟩, ⟨0, 2, 3⟩] [⟨1, 2, 3⟩, ⟨0, 2, 3⟩] := by
  have n01 : ∀ {a b : ℕ}, a ≠ b → ¬ Conn ([] : List (Edge ℕ)) a b := by
    intro a b hab h
    induction h with
    | refl => exact hab rfl
    | tail _ hs _ => obtain ⟨e, he, _⟩ := hs; simp at he
  refine C33_any_order (BoruvkaRun.round (P := [(1, ⟨1, 2, 3⟩), (0, ⟨0, 2, 3⟩)]) BoruvkaRun.start ?_ ?_ ?_) ?_
  · simpa using n01 (by decide)
  · intro p hp
    simp only [List.mem_cons, List.not_mem_nil, or_false] at hp
    rcases hp with rfl | rfl
    · exact ⟨by simp, Conn.refl _ _, n01 (by decide), by simp⟩
    · exact ⟨by simp, Conn.refl _ _, n01 (by decide), by simp⟩
  · refine MergeRound.take (n01 (by decide)) (MergeRound.take ?_ (MergeRound.nil _))
    rw [List.nil_append]
    intro h
    have := conn_invariant (fun x => x = 0) (fun e he => by
      simp only [List.mem_cons, List.not_mem_nil, or_false] at he; subst he; simp) h
    simp at this
  · have h1 : Conn ([⟨1, 2, 3⟩, ⟨0, 2, 3⟩] : List (Edge ℕ)) 1 2 := Conn.edge (e := ⟨1, 2, 3⟩) (by simp)
    have h2 : Conn ([⟨1, 2, 3⟩, ⟨0, 2, 3⟩] : List (Edge ℕ)) 0 2 := Conn.edge (e := ⟨0, 2, 3⟩) (by simp)
    intro e he
    simp only [List.mem_cons, List.not_mem_nil, or_false] at he
    rcases he with rfl | rfl | rfl
    · exact h2.trans h1.symm
    · exact h1
    · exact h2

variable [OrderTop W]

/-- **C33 (the code), partial.**  On a symmetric graph with rows sorted by weight, in which empty rows occur only at the end,
`boruvka_mst` returns a minimum spanning forest, labels that tell components apart, and the number of components.
Missing: graphs with an empty row before a non-empty one; there the claim is false, see `C33_empty_row_wrong`. -/
theorem C33_core_graph_boruvka_partial {n : ℕ} {c : Csr W} (hc : c.SortedSym n) (hg : c.NoGaps n) :
    MinSpanningForest (c.graph n) (boruvkaMst n c).2.2 ∧
      (∀ i j, (boruvkaMst n c).2.1 i = (boruvkaMst n c).2.1 j ↔ Conn (c.graph n) i j) ∧
      (boruvkaMst n c).1 = compCount n (c.graph n) := by
  obtain ⟨h1, h2, _, h4, h5⟩ := boruvkaMst_spec hc hg
  have h := C33_any_order h1 h2
  refine ⟨h, fun i j => (h4 i j).trans (h.forest.conn i j), ?_⟩
  rw [h5]
  exact compCount_congr fun a b _ _ => h.forest.conn a b

/-- A square with one diagonal, an isolated vertex at the end. -/
def exCsr : Csr ℕ∞ where
  indptr := fun i => [0, 2, 5, 7, 10].getD i 10
  ent := [(1, 1), (3, 4), (0, 1), (2, 2), (3, 2), (1, 2), (3, 5), (1, 2), (0, 4), (2, 5)]

/-- The hypotheses are satisfiable by a graph with ties and an isolated last vertex. -/
example : exCsr.SortedSym 5 ∧ exCsr.NoGaps 5 := by
  refine ⟨⟨?_, by decide, by decide +kernel, by decide +kernel, by decide +kernel⟩, by unfold Csr.NoGaps; decide +kernel⟩
  intro a b hab
  by_cases hb : b ≤ 4
  · have : ∀ a ≤ 4, ∀ b ≤ 4, a ≤ b → exCsr.indptr a ≤ exCsr.indptr b := by decide
    exact this a (by omega) b hb hab
  · have h : ∀ a ≤ 4, exCsr.indptr a ≤ 10 := by decide
    have h2 : ∀ a, 4 < a → exCsr.indptr a = 10 := by
      intro a ha
      unfold exCsr
      simp only
      rw [List.getD_eq_getElem?_getD, List.getElem?_eq_none (by simp; omega)]; rfl
    rw [h2 b (by omega)]
    rcases Nat.lt_or_ge 4 a with ha | ha
    · rw [h2 a ha]
    · exact h a ha

/-- Vertex 0 has no neighbour, vertices 1 and 2 are joined by an edge of weight 5. -/
def gapCsr : Csr ℕ∞ where
  indptr := fun i => [0, 0, 1, 2].getD i 2
  ent := [(2, 5), (1, 5)]

/-- **C33 fails with an empty row.**  The graph is symmetric and sorted, yet the isolated vertex 0 is given the edge of the
next row, which is not an edge of the graph, and a single component is reported where there are two. -/
theorem C33_empty_row_wrong :
    (gapCsr.graph 3 = [⟨1, 2, 5⟩, ⟨2, 1, 5⟩]) ∧
      (boruvkaMst 3 gapCsr).2.2 = [⟨0, 2, 5⟩, ⟨1, 2, 5⟩] ∧ (boruvkaMst 3 gapCsr).1 = 1 ∧
      ¬ MinSpanningForest (gapCsr.graph 3) (boruvkaMst 3 gapCsr).2.2 := by
  have h1 : gapCsr.graph 3 = [⟨1, 2, 5⟩, ⟨2, 1, 5⟩] := by decide +kernel
  have h2 : (boruvkaMst 3 gapCsr).2.2 = [⟨0, 2, 5⟩, ⟨1, 2, 5⟩] := by decide +kernel
  refine ⟨h1, h2, by decide +kernel, fun h => ?_⟩
  rw [h1, h2] at h
  have := h.forest.sub.length_le
  have h3 := h.forest.sub.subset (show (⟨0, 2, 5⟩ : Edge ℕ∞) ∈ _ by simp)
  revert h3
  decide +kernel

end Verif
