import Verif.Lemmas.TreeBoruvka
import Verif.Lemmas.KruskalApi
import Verif.Lemmas.Msf

/-!
# `_kruskal_mst_brute`, and the two algorithms compared
-/

namespace Verif
variable {R W : Type*} [LinearOrder W]

theorem mem_triuEdges {n : ℕ} {D : ℕ → ℕ → W} {cd : ℕ → W} {e : Edge W} :
    e ∈ triuEdges n D cd ↔ e.u < e.v ∧ e.v < n ∧ e.w = max (max (cd e.u) (cd e.v)) (D e.u e.v) := by
  unfold triuEdges
  simp only [List.mem_flatMap, List.mem_range, List.mem_map, List.mem_filter, decide_eq_true_eq]
  constructor
  · rintro ⟨i, hi, j, ⟨hj, hij⟩, rfl⟩
    exact ⟨hij, hj, mrdW_eq _ _ _⟩
  · rintro ⟨h1, h2, h3⟩
    refine ⟨e.u, by omega, e.v, ⟨h2, h1⟩, ?_⟩
    rw [mrdW_eq, ← h3]

variable [OrderTop W]

/-- Brute force takes the edges of the complete graph greedily in sorted order, and connects everything. -/
theorem kruskalBrute_core [Zero W] (n ms : ℕ) (D : ℕ → ℕ → W) :
    let s := kruskalCore n (sortEdges (triuEdges n D (bruteCore n ms D)))
    kruskalBrute n ms D CLParams.none = s.mst ∧ ∀ a b, a < n → b < n → Conn s.mst a b := by
  intro s
  set cd := bruteCore n ms D with hcd
  have hr : InRange n (triuEdges n D cd) := fun e he => by
    obtain ⟨h1, h2, _⟩ := mem_triuEdges.1 he
    omega
  obtain ⟨hmsf, hth⟩ := kruskal_msf hr
  have hinv := kruskalCore_inv (sortEdges_inRange hr)
  have hconn : ∀ a b, a < n → b < n → Conn s.mst a b := by
    have key : ∀ a b, a < b → b < n → Conn s.mst a b := fun a b hab hb =>
      (hth ⟨a, b, max (max (cd a) (cd b)) (D a b)⟩ (mem_triuEdges.2 ⟨hab, hb, rfl⟩)).mono fun e he => (mem_upTo.1 he).1
    intro a b ha hb
    rcases Nat.lt_trichotomy a b with h | h | h
    · exact key a b h hb
    · rw [h]; exact Conn.refl _ _
    · exact (key b a h ha).symm
  refine ⟨?_, hconn⟩
  unfold kruskalBrute
  rw [run_none]
  unfold finishMst
  rw [if_neg]
  rw [uniqueLabels_length (f := s.mst) (fun i j _ _ => by
    rw [componentLabel_eq hinv.rep.forest, componentLabel_eq hinv.rep.forest, hinv.rep.conn])]
  have h1 := hmsf.forest.acyclic.length_add_compCount hinv.rep.inRange
  classical
  unfold compCount
  rw [not_lt, Finset.card_le_one]
  intro a ha b hb
  rw [Finset.mem_filter, Finset.mem_range] at ha hb
  rcases Nat.lt_trichotomy a b with h | h | h
  · exact absurd (hconn b a hb.1 ha.1) (hb.2 a h)
  · exact h
  · exact absurd (hconn a b ha.1 hb.1) (ha.2 b h)

/-- The spanning tree found by brute force is a minimum spanning tree of the complete graph. -/
theorem kruskalBrute_msf [Zero W] {n ms : ℕ} (hn : 0 < n) {D : ℕ → ℕ → W} (hD : ∀ i j, D i j = D j i) :
    SpanningTree n (kruskalBrute n ms D CLParams.none) ∧
      MinSpanningForest (completeGraph n fun i j => max (max (D i j) (bruteCore n ms D i)) (bruteCore n ms D j))
        (kruskalBrute n ms D CLParams.none) := by
  set cd := bruteCore n ms D with hcd
  have hr : InRange n (triuEdges n D cd) := fun e he => by
    obtain ⟨h1, h2, _⟩ := mem_triuEdges.1 he
    omega
  obtain ⟨hmsf, hth⟩ := kruskal_msf hr
  have hinv := kruskalCore_inv (sortEdges_inRange hr)
  set s := kruskalCore n (sortEdges (triuEdges n D cd)) with hs
  obtain ⟨heq, hconn⟩ := kruskalBrute_core n ms D
  rw [heq]
  refine ⟨⟨hinv.rep.inRange, hmsf.forest.acyclic, hconn⟩, ?_⟩
  have hw : ∀ i j, max (max (cd i) (cd j)) (D i j) = max (max (D i j) (cd i)) (cd j) := fun i j => by
    rw [max_comm, ← max_assoc]
  refine minSpanningForest_of_threshold ⟨List.subperm_of_subset hmsf.forest.acyclic.nodup fun e he => ?_, hmsf.forest.acyclic, fun a b => ?_⟩ ?_
  · obtain ⟨h1, h2, h3⟩ := mem_triuEdges.1 (hmsf.forest.sub.subset he)
    exact mem_completeGraph.2 ⟨by omega, h2, by omega, by rw [h3, hw]⟩
  · constructor
    · refine Conn.mono fun e he => ?_
      obtain ⟨h1, h2, h3⟩ := mem_triuEdges.1 (hmsf.forest.sub.subset he)
      exact mem_completeGraph.2 ⟨by omega, h2, by omega, by rw [h3, hw]⟩
    · refine Conn.of_forall fun e he => ?_
      obtain ⟨h1, h2, _⟩ := mem_completeGraph.1 he
      exact hconn _ _ h1 h2
  · intro e he
    obtain ⟨h1, h2, h3, h4⟩ := mem_completeGraph.1 he
    rw [h4]
    rcases Nat.lt_or_gt_of_ne h3 with h | h
    · have := hth ⟨e.u, e.v, max (max (cd e.u) (cd e.v)) (D e.u e.v)⟩ (mem_triuEdges.2 ⟨h, h2, rfl⟩)
      rw [← hw]; exact this
    · have := hth ⟨e.v, e.u, max (max (cd e.v) (cd e.u)) (D e.v e.u)⟩ (mem_triuEdges.2 ⟨h, h1, rfl⟩)
      rw [← hw, hD, max_comm (cd e.u)]; exact this.symm

omit [OrderTop W] in
/-- Sorting a list that falls into a sorted part and a part that is not smaller. -/
theorem insertionSort_split {l a b : List W} (hp : (a ++ b).Perm l) (ha : a.Pairwise (· ≤ ·)) (hab : ∀ x ∈ a, ∀ y ∈ b, x ≤ y) :
    l.insertionSort (· ≤ ·) = a ++ b.insertionSort (· ≤ ·) := by
  refine List.Perm.eq_of_pairwise (le := (· ≤ ·)) (fun x y _ _ h1 h2 => le_antisymm h1 h2) (List.pairwise_insertionSort _ _) ?_ ?_
  · rw [List.pairwise_append]
    exact ⟨ha, List.pairwise_insertionSort _ _, fun x hx y hy => hab x hx y ((List.mem_insertionSort _).1 hy)⟩
  · exact (List.perm_insertionSort _ _).trans (hp.symm.trans (List.Perm.append_left _ (List.perm_insertionSort _ _).symm))

omit [OrderTop W] in
theorem KnnRow.sorted_entry {n k : ℕ} {dist : ℕ → W} {row : List (W × Option ℕ)} (h : KnnRow n k dist row) {rt : W → W} (hrt : Monotone rt)
    {y : W × Option ℕ} (hy : row.getLast? = some y) (d : W) :
    (((List.range n).map fun q => rt (dist q)).insertionSort (· ≤ ·)).getD (k - 1) d = rt y.1 := by
  obtain ⟨rest, h1, h2⟩ := h.real
  have hp : (row.map (fun x => rt x.1) ++ rest.map fun x => rt x.1).Perm ((List.range n).map fun q => rt (dist q)) := by
    have := h1.map fun x : W × Option ℕ => rt x.1
    rw [List.map_append, List.map_map] at this
    exact this
  rw [insertionSort_split hp]
  · have hl := h.length
    obtain ⟨l, rfl⟩ := List.getLast?_eq_some_iff.1 hy
    rw [List.length_append, List.length_singleton] at hl
    have : k - 1 = l.length := by omega
    rw [this]
    simp
  · rw [List.pairwise_map]
    exact h.sorted.imp fun hxy => hrt hxy
  · intro x hx z hz
    obtain ⟨x', hx', rfl⟩ := List.mem_map.1 hx
    obtain ⟨z', hz', rfl⟩ := List.mem_map.1 hz
    exact hrt (h2 x' hx' z' hz')

/-- The two routines agree on core distances. -/
theorem treeCore_eq_brute [LinearOrder R] [Zero W] {ar : Arith R W} {rt : W → W} (hrt : Monotone rt) (h0 : rt ar.zero = 0) {dims : ℕ}
    {pts : ℕ → ℕ → R} {n ms : ℕ} (hms : ms < n) {rows : ℕ → List (W × Option ℕ)} {i : ℕ}
    (hrow : KnnRow n (treeK ms) (fun q => rdist ar dims (pts i) (pts q)) (rows i)) :
    rt (treeCore ar.zero ms rows i) = bruteCore n ms (fun i j => rt (rdist ar dims (pts i) (pts j))) i := by
  unfold treeCore bruteCore
  by_cases h1 : 1 < ms
  · have hk : treeK ms = ms + 1 := by unfold treeK; rw [if_pos h1]
    rw [if_pos h1, if_neg (by omega), if_pos hms]
    cases hl : (rows i).getLast? with
    | none =>
      have := hrow.length
      rw [List.getLast?_eq_none_iff.1 hl, hk] at this
      simp at this
    | some y =>
      have := hrow.sorted_entry hrt hl ⊤
      rw [hk, Nat.add_sub_cancel] at this
      rw [this]; rfl
  · rw [if_neg h1, if_pos (by omega), h0]

end Verif
