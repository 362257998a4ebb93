import Verif.Props.Centrality
import Mathlib.Tactic.IntervalCases

/-!
# Concrete cases for C87 to C90, and where they fail
-/

namespace Verif

/-- Two clusters: three arms of three samples each that meet in one place, and three samples in a row. -/
def lab12 (i : ℕ) : ℤ := if i < 9 then 0 else if i < 12 then 1 else -1

/-- Their neighbours. -/
def nb12 (i : ℕ) : List (Option ℕ) :=
  [[some 2], [some 2], [some 0, some 1], [some 4], [some 3, some 5], [some 4], [some 7], [some 6, some 8], [some 7], [some 10], [some 9, some 11], [some 10]].getD i []

/-- A spanning tree. -/
def mst12 : List (Edge ℕ) := [⟨0, 2, 1⟩, ⟨1, 2, 1⟩, ⟨3, 4, 1⟩, ⟨4, 5, 1⟩, ⟨6, 7, 1⟩, ⟨7, 8, 1⟩, ⟨9, 10, 1⟩, ⟨10, 11, 1⟩, ⟨2, 3, 2⟩, ⟨2, 6, 2⟩, ⟨8, 9, 9⟩]

/-- Branches of at least three samples. -/
def opts12 : ClusterOpts ℚ := { minClusterSize := 3, method := .eom, maxClusterSize := none, allowSingle := false, epsilon := 0, persistence := 0 }

/-- The samples in the plane.  For `e = 0` sample 2 is the centre of its cluster and sample 10 that of the other. -/
def data12 (e : ℚ) (i : ℕ) : ℚ × ℚ :=
  [(0, 1), (0, -1), (0, e), (2, 0), (3, 0), (4, 0), (-2, 0), (-3, 0), (-4, 0), (-12, 0), (-13 + e, 0), (-14, 0)].getD i (0, 0)

/-- The longer side; the same as the Euclidean length on the axes. -/
def sideNorm (x : ℚ × ℚ) : ℚ := max |x.1| |x.2|

theorem SubInput.range {D : Type*} {n num : ℕ} {lab : ℕ → ℤ} {nb : ℕ → List (Option ℕ)} {mst : List (Edge D)} (e : SubInput n num lab nb mst) :
    SubInput (List.range n).length num (atFinite (List.range n) lab) nb mst := by
  have : ∀ i < n, atFinite (List.range n) lab i = lab i := fun i hi => by
    unfold atFinite
    rw [List.getD_eq_getElem?_getD, List.getElem?_range hi]; rfl
  rw [List.length_range]
  refine ⟨fun i hi => by rw [this i hi]; exact e.labels i hi, fun c hc => ?_, e.knn, e.tree, fun p hp hn h0 => ?_, fun p hp h0 => ?_⟩
  · obtain ⟨i, j, h1, h2, h3, h4⟩ := e.two c hc
    exact ⟨i, j, h1, h2, by rw [this i (h1.trans h2), h3], by rw [this j h2, h4]⟩
  · rw [this p hp] at h0 ⊢
    rw [this (n - 1) (by omega)]
    exact e.missing p hp hn h0
  · rw [this p hp] at h0 ⊢
    obtain ⟨q, h1, h2, h3, h4, h5⟩ := e.linked p hp h0
    exact ⟨q, h1, h2, by rw [this p h1, h3], by rw [this q h2, h4], h5⟩

theorem exSub12 : SubInput 12 2 lab12 nb12 mst12 := by
  refine ⟨by decide, fun c hc => ?_, fun p hp q hq => ?_, by decide, fun p hp => ?_, fun p hp h0 => ?_⟩
  · interval_cases c
    · exact ⟨0, 1, by decide⟩
    · exact ⟨9, 10, by decide⟩
  · interval_cases p <;> simp [nb12] at hq <;> omega
  · interval_cases p <;> simp [nb12, lab12]
  · have hq : ∃ q, q < 12 ∧ lab12 q = lab12 p ∧ some q ∈ nb12 p := by
      interval_cases p
      · exact ⟨2, by decide⟩
      · exact ⟨2, by decide⟩
      · exact ⟨0, by decide⟩
      · exact ⟨4, by decide⟩
      · exact ⟨3, by decide⟩
      · exact ⟨4, by decide⟩
      · exact ⟨7, by decide⟩
      · exact ⟨6, by decide⟩
      · exact ⟨7, by decide⟩
      · exact ⟨10, by decide⟩
      · exact ⟨9, by decide⟩
      · exact ⟨10, by decide⟩
    obtain ⟨q, h1, h2, h3⟩ := hq
    exact ⟨q, hp, h1, rfl, h2, .inl h3⟩

theorem lamq_pos (x : ℚ) : 0 < lamq x :=
  lt_of_le_of_ne (lamq_nonneg _) fun h => WithTop.coe_ne_top ((lamq_zero _).1 h.symm)

/-- The 12 samples with sample 2 beside the centre. -/
def fit12 (e : ℚ) (prop sides : Bool) : Option (DetectorFit (WithTop ℚ) ℕ ℚ) :=
  branchFit (fun _ => some (1 : ℕ)) 0 prop sides sideNorm stableRowsQ lamq (fun _ => 1) opts12 12 [] (data12 e) lab12 (fun _ => 1) nb12 (fun _ => 0) mst12

/-- The arms are the branches of the first cluster and the second cluster has none; the hypotheses of C90 hold. -/
example : ∃ g, fit12 (1 / 2) false true = some g ∧ g.out.labels = [1, 1, 1, 2, 2, 2, 0, 0, 0, 3, 3, 3] ∧
    ∀ i ∈ List.range 12, ∀ j ∈ List.range 12, lab12 i ≠ -1 → lab12 j ≠ -1 → (g.out.labels[i]? = g.out.labels[j]? ↔ lab12 i = lab12 j ∧
      (OneBranch true (List.range 12) lab12 nb12 mst12 (fun i => g.out.subLabels.getD i 0) (lab12 i) ∨ g.out.subLabels[i]? = g.out.subLabels[j]?)) := by
  have hin := exSub12.range
  obtain ⟨g, h1, _, _, _, h2⟩ := C90_branches_partial (fun _ : WithTop ℚ => some (1 : ℕ)) 0 (n := 12) (tree := []) (idx := List.range 12)
    (.inr ⟨by decide, rfl⟩) hin (by decide) stableRowsQ_sorts lamq lamq_antitone lamq_pos (lamq_nonneg _) (fun _ => 1) opts12 (by decide) (by decide) (by decide)
    (fun _ => 0) (fun _ => 1) sideNorm (data12 (1 / 2)) (fun c hc => by interval_cases c <;> decide +kernel)
    (fun c hc m hm => by
      have hne : ((rowsIn (List.range 12) lab12 c).map fun _ => (1 : ℚ)).sum ≠ 0 := by interval_cases c <;> decide +kernel
      have hc' := centroid_iff.2 ⟨hne, hm⟩
      interval_cases c
      · have : centroid (data12 (1 / 2)) (fun _ => (1 : ℚ)) (rowsIn (List.range 12) lab12 (0 : ℕ)) = some (0, 1 / 18) := by decide +kernel
        rw [← Option.some.inj (this.symm.trans hc')]
        decide +kernel
      · have : centroid (data12 (1 / 2)) (fun _ => (1 : ℚ)) (rowsIn (List.range 12) lab12 (1 : ℕ)) = some (-77 / 6, 0) := by decide +kernel
        rw [← Option.some.inj (this.symm.trans hc')]
        decide +kernel) true (.inl ⟨by decide, rfl⟩)
  refine ⟨g, h1, ?_, h2⟩
  have : (fit12 (1 / 2) false true).map (fun f => f.out.labels) = some [1, 1, 1, 2, 2, 2, 0, 0, 0, 3, 3, 3] := by decide +kernel
  rw [fit12, h1, Option.map_some, Option.some.injEq] at this
  exact this

/-- **C87** and **C90** fail if a sample lies in the centre of its cluster, here sample 2 and sample 10: its centrality is infinite, its arm gets no label,
the labels of the other arms leave a gap, and the last arm of the first cluster and the second cluster both get label 3. -/
theorem C87_centre_collides : (fit12 0 false true).map (fun f => (f.out.labels, f.out.subLabels)) =
      some ([0, 0, 0, 3, 3, 3, 1, 1, 1, 3, 3, 3], [-1, -1, -1, 2, 2, 2, 0, 0, 0, -1, -1, -1]) ∧
    lab12 3 = 0 ∧ lab12 9 = 1 := by
  refine ⟨by decide +kernel, rfl, rfl⟩

/-- **C90**: strengths that add up to 0 in a cluster raise an error. -/
example : computeCentrality sideNorm (data12 0) (fun i => if i = 9 then 1 else 0) [0, 1, 2] = none := by decide +kernel

/-- The same samples, the first one noise. -/
def lab12n (i : ℕ) : ℤ := if i = 0 then -1 else lab12 i

/-- Given lens values. -/
def lens12 (c i : ℕ) : WithTop ℚ := ((if c = 0 then [3, 2, 1 / 2, 1 / 3, 1 / 4, 1 / 2, 1 / 3, 1 / 4].getD i 1 else [1, 2, 1].getD i 1 : ℚ) : WithTop ℚ)

/-- `1 / weight`. -/
def inv12 : WithTop ℚ → Option ℚ
  | ⊤ => none
  | (d : ℚ) => if d = 0 then none else some (1 / d)

/-- `SubClusterDetector.fit` with these. -/
def sub12 (prop : Bool) : Option (DetectorFit (WithTop ℚ) ℕ ℚ) :=
  detectorFit inv12 0 prop stableRowsQ lamq (fun _ => 1) opts12 12 [] lab12n (fun _ => 1) nb12 (fun _ => 0) mst12 lens12

theorem exSub12n : SubInput 12 2 lab12n nb12 mst12 := by
  refine ⟨by decide, fun c hc => ?_, exSub12.knn, exSub12.tree, fun p hp => ?_, fun p hp h0 => ?_⟩
  · interval_cases c
    · exact ⟨1, 2, by decide⟩
    · exact ⟨9, 10, by decide⟩
  · interval_cases p <;> simp [nb12, lab12n, lab12]
  · have hq : ∃ q, q < 12 ∧ lab12n q = lab12n p ∧ some q ∈ nb12 p := by
      interval_cases p
      · exact absurd h0 (by decide)
      · exact ⟨2, by decide⟩
      · exact ⟨1, by decide⟩
      · exact ⟨4, by decide⟩
      · exact ⟨3, by decide⟩
      · exact ⟨4, by decide⟩
      · exact ⟨7, by decide⟩
      · exact ⟨6, by decide⟩
      · exact ⟨7, by decide⟩
      · exact ⟨10, by decide⟩
      · exact ⟨9, by decide⟩
      · exact ⟨10, by decide⟩
    obtain ⟨q, h1, h2, h3⟩ := hq
    exact ⟨q, hp, h1, rfl, h2, .inl h3⟩

theorem lens12_pos (c i : ℕ) : ∃ x : ℚ, lens12 c i = x ∧ 0 < x := by
  refine ⟨_, rfl, ?_⟩
  have : ∀ l : List ℚ, (∀ x ∈ l, 0 < x) → 0 < l.getD i 1 := fun l hl => by
    rw [List.getD_eq_getElem?_getD]
    cases h : l[i]? with
    | none => simp
    | some x => exact hl x (List.mem_of_getElem? h)
  split_ifs
  · exact this _ (by decide +kernel)
  · exact this _ (by decide +kernel)

/-- Sample 1 is noise inside its cluster; propagation gives it label 0. -/
example : ∃ f f', sub12 false = some f ∧ sub12 true = some f' ∧ f.out.subLabels = [0, -1, 0, 0, 0, 0, 1, 1, 1, -1, -1, -1] ∧
    f'.out.subLabels = [0, 0, 0, 0, 0, 0, 1, 1, 1, -1, -1, -1] ∧ f.propagatedLabels inv12 0 = some (f'.out.labels, f'.out.subLabels) ∧
    (∀ i ∈ List.range 12, lab12n i ≠ -1 → f.out.subLabels[i]? ≠ some (-1) → f'.out.subLabels[i]? = f.out.subLabels[i]?) := by
  obtain ⟨f, f', h1, h2, _, h3⟩ := C87_propagation_partial inv12 0 (n := 12) (tree := []) (idx := List.range 12) (.inr ⟨by decide, rfl⟩) exSub12n.range (by decide)
    stableRowsQ_sorts lamq lamq_antitone lamq_nonneg (fun _ => 1) opts12 (by decide) (by decide) (by decide) (fun _ => 0) (fun _ => 1) lens12
    (fun c i => by obtain ⟨x, hx, _⟩ := lens12_pos c i; rw [hx]; exact lamq_pos x)
    (fun c i j => by
      obtain ⟨x, hx, hx0⟩ := lens12_pos c i
      obtain ⟨y, hy, hy0⟩ := lens12_pos c j
      rw [hx, hy, ← WithTop.coe_max]
      exact ⟨1 / max x y, if_neg (lt_max_of_lt_left hx0).ne'⟩) (.inl ⟨by decide, rfl⟩)
  have e1 : (sub12 false).map (fun f => f.out.subLabels) = some [0, -1, 0, 0, 0, 0, 1, 1, 1, -1, -1, -1] := by decide +kernel
  have e2 : (sub12 true).map (fun f => f.out.subLabels) = some [0, 0, 0, 0, 0, 0, 1, 1, 1, -1, -1, -1] := by decide +kernel
  rw [sub12, h1, Option.map_some, Option.some.injEq] at e1
  rw [sub12, h2, Option.map_some, Option.some.injEq] at e2
  refine ⟨f, f', h1, h2, e1, e2, ?_, fun i hi hn => (h3 i hi hn).1⟩
  have := C88_same_labels inv12 0 stableRowsQ lamq (fun _ => 1) opts12 12 [] lab12n (fun _ => 1) nb12 (fun _ => 0) mst12 lens12
  rw [h1, h2] at this
  exact this

/-- **C87** for `SubClusterDetector` fails with propagation if a cluster does not split: the three samples of the second cluster are noise inside it, and get the
label 1 of a sub-cluster of the first cluster.  Without propagation they get a label of their own. -/
theorem C87_propagated_collides : (sub12 true).map (fun f => f.out.labels) = some [-1, 0, 0, 0, 0, 0, 1, 1, 1, 1, 1, 1] ∧
    (sub12 false).map (fun f => f.out.labels) = some [-1, 0, 1, 1, 1, 1, 2, 2, 2, 3, 3, 3] ∧ lab12n 6 = 0 ∧ lab12n 9 = 1 := by
  refine ⟨by decide +kernel, by decide +kernel, rfl, rfl⟩

/-- The edges of the first cluster; those of length 2 come from the tree. -/
example : ∃ f es, sub12 true = some f ∧ f.approximationEdges[0]? = some es ∧ (es.map fun e => (e.1, e.2.1)).Nodup ∧
    es.map (fun e => (e.1, e.2.1, e.2.2.2)) = [(1, 2, 0), (2, 3, 2), (2, 6, 2), (2, 1, 0), (3, 4, 0), (4, 5, 0), (4, 3, 0), (5, 4, 0), (6, 7, 0), (7, 8, 0),
      (7, 6, 0), (8, 7, 0)] := by
  have e2 : (sub12 true).map (fun f => f.approximationEdges.length) = some 2 := by decide +kernel
  obtain ⟨f, hf, _⟩ := Option.map_eq_some_iff.1 e2
  obtain ⟨h1, h2⟩ := C89_approximation_graph (n := 12) (tree := []) (idx := List.range 12) (.inr ⟨by decide, rfl⟩) exSub12n.range (by decide) stableRowsQ_sorts hf
  have hl : 0 < f.approximationEdges.length := by omega
  have e3 : (sub12 true).map (fun f => (f.approximationEdges.getD 0 []).map fun e => (e.1, e.2.1, e.2.2.2)) =
    some [(1, 2, 0), (2, 3, 2), (2, 6, 2), (2, 1, 0), (3, 4, 0), (4, 5, 0), (4, 3, 0), (5, 4, 0), (6, 7, 0), (7, 8, 0), (7, 6, 0), (8, 7, 0)] := by decide +kernel
  rw [hf, Option.map_some, Option.some.injEq, List.getD_eq_getElem?_getD, List.getElem?_eq_getElem hl] at e3
  exact ⟨f, _, hf, List.getElem?_eq_getElem hl, (h2 0 _ (List.getElem?_eq_getElem hl)).1, e3⟩

/-- **C88**: with and without propagation afterwards. -/
example : ((fit12 (1 / 2) false true).bind (DetectorFit.branchPropagated (fun _ => some (1 : ℕ)) 0 false)).isSome = true := by decide +kernel

end Verif
