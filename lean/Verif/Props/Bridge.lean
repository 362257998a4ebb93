import Verif.Lemmas.Bridge
import Verif.Lemmas.KruskalApi
import Mathlib.Order.WithBot

/-!
# Properties C08, C09: completing a forest to a tree and back
-/

namespace Verif
variable {W : Type*}

/-- **C08**, bridging. For a forest `f` on `n` vertices with component labels `lab`, the bridged result is a
spanning tree with `n - 1` edges whose first edges are those of `f` and whose remaining edges all weigh `+inf`. -/
theorem C08_bridging [LE W] [OrderTop W] (n : ℕ) (hn : 0 < n) (f : List (Edge W)) (lab : ℕ → ℕ)
    (hr : InRange n f) (ha : Acyclic f)
    (hlab : ∀ i j, i < n → j < n → (lab i = lab j ↔ Conn f i j)) :
    SpanningTree n (bridgeForest f lab n) ∧ (bridgeForest f lab n).length + 1 = n ∧
      ∃ b, bridgeForest f lab n = f ++ b ∧ ∀ e ∈ b, e.w = ⊤ := by
  obtain ⟨h1, b, h2, h3, _⟩ := bridgeForest_spec hn hr ha hlab
  exact ⟨h1, h1.length hn, b, h2, h3⟩

theorem idxOf_sorted_dedup_inj {l : List ℕ} {a b : ℕ} (ha : a ∈ l)
    (h : ((l.dedup).insertionSort (· ≤ ·)).idxOf a = ((l.dedup).insertionSort (· ≤ ·)).idxOf b) :
    a = b := by
  have hm : a ∈ (l.dedup).insertionSort (· ≤ ·) := by simpa [List.mem_insertionSort] using ha
  exact (List.idxOf_inj hm).1 h

/-- **C08**, unbridging. Stripping a bridged forest with finite weights returns its edges, and labels two vertices
equally exactly when the forest connects them. -/
theorem C08_unbridging [LE W] [OrderTop W] [DecidableEq W] (n : ℕ) (hn : 0 < n) (f : List (Edge W)) (lab : ℕ → ℕ)
    (hr : InRange n f) (ha : Acyclic f) (hfin : ∀ e ∈ f, e.w ≠ ⊤)
    (hlab : ∀ i j, i < n → j < n → (lab i = lab j ↔ Conn f i j)) :
    let r := unbridgeMst (bridgeForest f lab n)
    r.1 = f ∧ r.2.length = n ∧
      ∀ i j, i < n → j < n → (r.2[i]? = r.2[j]? ↔ Conn f i j) := by
  intro r
  obtain ⟨h1, b, h2, h3, _⟩ := bridgeForest_spec hn hr ha hlab
  have hlen := h1.length hn
  have hf : (bridgeForest f lab n).filter (fun e => decide (e.w ≠ ⊤)) = f := by
    rw [h2, List.filter_append, List.filter_eq_self.2, List.filter_eq_nil_iff.2, List.append_nil]
    · intro e he; simp [h3 e he]
    · intro e he; simpa using hfin e he
  have hrep := unbridge_fold hr
  have hroots := (unbridgeRoots_spec hrep.forest n).1
  have hr2 : r.2 = ((List.range n).map (root n (f.foldl (unbridgeStep n) fun x => x))).map fun x =>
      ((((List.range n).map (root n (f.foldl (unbridgeStep n) fun x => x))).dedup).insertionSort
        (· ≤ ·)).idxOf x := by
    simp only [r, unbridgeMst, hlen, hf, hroots]
  refine ⟨hf, by rw [hr2]; simp, fun i j hi hj => ?_⟩
  rw [hr2]
  simp only [List.getElem?_map, List.getElem?_range hi, List.getElem?_range hj, Option.map_some,
    Option.some.injEq]
  rw [← hrep.conn]
  constructor
  · intro h
    exact idxOf_sorted_dedup_inj (List.mem_map.2 ⟨i, List.mem_range.2 hi, rfl⟩) h
  · intro h; rw [h]

/-- The forest `{0-2, 3-4}` on six vertices with labels as computed by the code (root ids). -/
def exForest : List (Edge (WithTop ℕ)) := [⟨2, 0, 5⟩, ⟨3, 4, 1⟩]

def exLab : ℕ → ℕ := fun i => if i = 0 then 2 else if i = 4 then 3 else i

example : bridgeForest exForest exLab 6 =
    exForest ++ [⟨0, 1, ⊤⟩, ⟨1, 3, ⊤⟩, ⟨3, 5, ⊤⟩] := by decide
example : unbridgeMst (bridgeForest exForest exLab 6) = (exForest, [1, 0, 1, 2, 2, 3]) := by decide

/-- The complete result of the Kruskal entry points is a spanning tree (any constraints in effect):
combination with C01/C03. -/
theorem C08_finish_spanning_tree [LE W] [OrderTop W] (n : ℕ) (hn : 0 < n) (s : KState W)
    (hrep : Represents n s.pred s.mst) (ha : Acyclic s.mst) :
    SpanningTree n (finishMst s n) ∧ ∃ b, finishMst s n = s.mst ++ b ∧ ∀ e ∈ b, e.w = ⊤ := by
  have hlab : ∀ i j, i < n → j < n →
      (componentLabel n s.pred i = componentLabel n s.pred j ↔ Conn s.mst i j) := by
    intro i j _ _
    rw [componentLabel_eq hrep.forest, componentLabel_eq hrep.forest, hrep.conn]
  obtain ⟨h1, b, h2, h3, _⟩ := bridgeForest_spec hn hrep.inRange ha hlab
  unfold finishMst
  split
  · exact ⟨h1, b, h2, h3⟩
  · rename_i h
    have hul := uniqueLabels_length hlab
    refine ⟨⟨hrep.inRange, ha, fun a b hA hB => conn_of_compCount_le_one (by omega) hA hB⟩, [], by simp, by simp⟩

/-! ## C09 -/

/-- **C09 is false**: for the forest `{2-0}` on three vertices the component `{0, 2}` gets number 1 and `{1}` gets
number 0, although 0 is the smallest vertex. -/
theorem C09_numbering_by_smallest_false :
    ∃ (n : ℕ) (t : List (Edge (WithTop ℕ))), SpanningTree n t ∧
      (unbridgeMst t).2 = [1, 0, 1] := by
  refine ⟨3, [⟨2, 0, 1⟩, ⟨0, 1, ⊤⟩], ?_, by decide⟩
  have hr : InRange 3 [(⟨2, 0, 1⟩ : Edge (WithTop ℕ)), ⟨0, 1, ⊤⟩] := by decide
  have h20 : Conn [(⟨2, 0, 1⟩ : Edge (WithTop ℕ)), ⟨0, 1, ⊤⟩] 2 0 := Conn.edge (e := ⟨2, 0, 1⟩) (by simp)
  have h01 : Conn [(⟨2, 0, 1⟩ : Edge (WithTop ℕ)), ⟨0, 1, ⊤⟩] 0 1 := Conn.edge (e := ⟨0, 1, ⊤⟩) (by simp)
  have hc : ∀ a b, a < 3 → b < 3 → Conn [(⟨2, 0, 1⟩ : Edge (WithTop ℕ)), ⟨0, 1, ⊤⟩] a b := by
    have h0 : ∀ a, a < 3 → Conn [(⟨2, 0, 1⟩ : Edge (WithTop ℕ)), ⟨0, 1, ⊤⟩] 0 a := by
      intro a ha
      rcases (by omega : a = 0 ∨ a = 1 ∨ a = 2) with rfl | rfl | rfl
      · exact Conn.refl _ _
      · exact h01
      · exact h20.symm
    exact fun a b ha hb => (h0 a ha).symm.trans (h0 b hb)
  exact ⟨hr, acyclic_of_connected hr hc rfl, hc⟩

/-- **C09**, proved part: the numbers used are exactly `0 … k-1` for the number `k` of distinct roots, and
numbers are assigned in the order of a representative of each component. Missing: that the representative is the smallest
member, which is false. -/
theorem C09_numbering_partial [LE W] [OrderTop W] [DecidableEq W] (t : List (Edge W))
    (hr : InRange (t.length + 1) t) :
    ∃ rep : ℕ → ℕ,
      (∀ i j, rep i = rep j ↔ Conn (t.filter fun e => e.w ≠ ⊤) i j) ∧
      (∀ i < t.length + 1, rep i < t.length + 1 ∧ Conn (t.filter fun e => e.w ≠ ⊤) i (rep i)) ∧
      (unbridgeMst t).2 = (List.range (t.length + 1)).map fun i =>
        (uniqueLabels (t.length + 1) rep).idxOf (rep i) := by
  have hr' : InRange (t.length + 1) (t.filter fun e => e.w ≠ ⊤) :=
    hr.subperm List.filter_sublist.subperm
  have hrep := unbridge_fold hr'
  have hroots := (unbridgeRoots_spec hrep.forest (t.length + 1)).1
  refine ⟨root (t.length + 1) _, hrep.conn, fun i hi => ⟨hrep.forest.root_lt hi, ?_⟩, ?_⟩
  · rw [← hrep.conn, hrep.forest.root_root]
  · simp only [unbridgeMst, hroots, uniqueLabels, List.map_map]
    rfl

example : InRange 3 [(⟨2, 0, 1⟩ : Edge (WithTop ℕ)), ⟨0, 1, ⊤⟩] := by decide

end Verif
