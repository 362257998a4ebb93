import Verif.Props.LensClusters
import Verif.Lemmas.SubClusters

/-!
# C73: the core graph inside one cluster
-/

namespace Verif
variable {W D : Type*}

theorem inClusterIds_iff {points : List ℕ} (hnd : points.Nodup) (q i : ℕ) : inClusterIds points q = some i ↔ points[i]? = some q := by
  have hk : (points.zipIdx.map fun p => (p.1, some p.2)).map Prod.fst = points := by
    rw [List.map_map]
    exact List.zipIdx_map_fst 0 points
  unfold inClusterIds
  by_cases hq : q ∈ points
  · obtain ⟨j, hj, hjq⟩ := List.getElem_of_mem hq
    have hm : (q, some j) ∈ points.zipIdx.map fun p => (p.1, some p.2) :=
      List.mem_map.2 ⟨(q, j), List.mem_zipIdx_iff_getElem?.2 (by rw [List.getElem?_eq_getElem hj, hjq]), rfl⟩
    rw [scatter_of_mem _ _ (by rw [hk]; exact hnd) hm, Option.some.injEq]
    constructor
    · rintro rfl; rw [List.getElem?_eq_getElem hj, hjq]
    · intro h
      obtain ⟨hi, h⟩ := List.getElem?_eq_some_iff.1 h
      exact (List.Nodup.getElem_inj_iff hnd).1 (hjq.trans h.symm)
  · rw [scatter_of_not_mem _ _ (by rw [hk]; exact hq)]
    refine ⟨fun h => by simp at h, fun h => ?_⟩
    exact absurd (List.mem_of_getElem? h) hq

/-- The samples of a cluster are listed in ascending order. -/
theorem clusterPoints_asc (N : ℕ) (labels : ℕ → ℤ) (c : ℤ) : (clusterPoints N labels c).Pairwise (· < ·) :=
  List.Pairwise.filter _ List.pairwise_lt_range

/-- **C73** (neighbours, partial).  Sample `i` of a cluster is its `i`-th sample in ascending order, and the in-cluster neighbours of `i` are exactly the
neighbours inside the cluster, by their positions.  Missing: samples with a missing neighbour, index -1, when the last sample of the data set is in
the cluster; then the last sample is taken for a neighbour (`C73_missing_neighbour`). -/
theorem C73_neighbours_partial {N : ℕ} {labels : ℕ → ℤ} {c : ℤ} {nb : ℕ → List (Option ℕ)} {i p : ℕ}
    (hp : (clusterPoints N labels c)[i]? = some p) (hlast : none ∈ nb p → labels (N - 1) ≠ c) (j : ℕ) :
    some j ∈ inClusterNeighbors N (clusterPoints N labels c) nb i ↔ ∃ q, some q ∈ nb p ∧ (clusterPoints N labels c)[j]? = some q := by
  have hnd := clusterPoints_nodup N labels c
  unfold inClusterNeighbors
  rw [hp]
  simp only [List.mem_map]
  constructor
  · rintro ⟨x, hx, he⟩
    cases x with
    | none =>
      have h := (inClusterIds_iff hnd _ _).1 he
      exact absurd (mem_clusterPoints.1 (List.mem_of_getElem? h)).2 (hlast hx)
    | some q => exact ⟨q, hx, (inClusterIds_iff hnd _ _).1 he⟩
  · rintro ⟨q, hq, h⟩
    exact ⟨some q, hq, (inClusterIds_iff hnd _ _).2 h⟩

/-- **C73** (tree).  The in-cluster tree consists of the tree edges with both ends in the cluster, in the same order with the same distances. -/
theorem C73_tree {N : ℕ} {labels : ℕ → ℤ} {c : ℤ} {mst : List (Edge D)} (hr : InRange N mst) :
    InRange (clusterPoints N labels c).length (inClusterMst labels c (clusterPoints N labels c) mst) ∧
      (inClusterMst labels c (clusterPoints N labels c) mst).map
        (fun e => (⟨(clusterPoints N labels c).getD e.u 0, (clusterPoints N labels c).getD e.v 0, e.w⟩ : Edge D)) =
      mst.filter fun e => decide (labels e.u = c ∧ labels e.v = c) := by
  have hnd := clusterPoints_nodup N labels c
  have key : ∀ p, p < N → labels p = c → (inClusterIds (clusterPoints N labels c) p).getD 0 < (clusterPoints N labels c).length ∧
      (clusterPoints N labels c).getD ((inClusterIds (clusterPoints N labels c) p).getD 0) 0 = p := by
    intro p hp hl
    obtain ⟨j, hj, he⟩ := List.getElem_of_mem (mem_clusterPoints.2 ⟨hp, hl⟩)
    have : inClusterIds (clusterPoints N labels c) p = some j :=
      (inClusterIds_iff hnd _ _).2 (by rw [List.getElem?_eq_getElem hj, he])
    rw [this, Option.getD_some]
    exact ⟨hj, by rw [List.getD_eq_getElem?_getD, List.getElem?_eq_getElem hj, he]; rfl⟩
  unfold inClusterMst
  constructor
  · intro e he
    obtain ⟨m, hm, rfl⟩ := List.mem_map.1 he
    obtain ⟨hm, hl⟩ := List.mem_filter.1 hm
    have hl := of_decide_eq_true hl
    exact ⟨(key _ (hr m hm).1 hl.1).1, (key _ (hr m hm).2 hl.2).1⟩
  · rw [List.map_map]
    conv_rhs => rw [← List.map_id (mst.filter _)]
    refine List.map_congr_left fun m hm => ?_
    obtain ⟨hm, hl⟩ := List.mem_filter.1 hm
    have hl := of_decide_eq_true hl
    simp only [Function.comp, id, (key _ (hr m hm).1 hl.1).2, (key _ (hr m hm).2 hl.2).2]

/-- Renaming vertices keeps connections. -/
theorem Conn.rename {f : List (Edge W)} {g : List (Edge D)} (φ : ℕ → ℕ) (h : ∀ e ∈ f, Conn g (φ e.u) (φ e.v)) {a b : ℕ} (hab : Conn f a b) :
    Conn g (φ a) (φ b) := by
  induction hab with
  | refl => exact Conn.refl _ _
  | tail _ hs ih =>
    obtain ⟨e, he, ⟨rfl, rfl⟩ | ⟨rfl, rfl⟩⟩ := hs
    · exact ih.trans (h e he)
    · exact ih.trans (h e he).symm

/-- **C73** (connected clusters).  If tree edges inside the cluster connect its samples, the in-cluster tree is a spanning tree of them. -/
theorem C73_spanning {N : ℕ} {labels : ℕ → ℤ} {c : ℤ} {mst : List (Edge D)} (hr : InRange N mst) (ha : Acyclic mst)
    (hc : ∀ p q, p < N → q < N → labels p = c → labels q = c → Conn (mst.filter fun e => decide (labels e.u = c ∧ labels e.v = c)) p q) :
    SpanningTree (clusterPoints N labels c).length (inClusterMst labels c (clusterPoints N labels c) mst) := by
  obtain ⟨h1, h2⟩ := C73_tree (labels := labels) (c := c) hr
  have hnd := clusterPoints_nodup N labels c
  set pts := clusterPoints N labels c with hpts
  refine ⟨h1, ?_, fun i j hi hj => ?_⟩
  · intro l₁ e l₂ he hcon
    have hf := ha.filter (fun e => decide (labels e.u = c ∧ labels e.v = c))
    rw [← h2, he, List.map_append, List.map_cons] at hf
    refine hf _ _ _ rfl ?_
    refine hcon.rename (fun x => pts.getD x 0) fun d hd => ?_
    exact Conn.edge (e := ⟨pts.getD d.u 0, pts.getD d.v 0, d.w⟩) (by
      rw [← List.map_append]; exact List.mem_map_of_mem (f := fun e : Edge D => (⟨pts.getD e.u 0, pts.getD e.v 0, e.w⟩ : Edge D)) hd)
  · have hm := fun (x : ℕ) (hx : x < pts.length) => (mem_clusterPoints (n := N) (lab := labels) (c := c)).1 (List.getElem_mem hx)
    have hid : ∀ x (hx : x < pts.length), (inClusterIds pts pts[x]).getD 0 = x := by
      intro x hx
      rw [(inClusterIds_iff hnd pts[x] x).2 (List.getElem?_eq_getElem hx)]; rfl
    have := (hc pts[i] pts[j] (hm i hi).1 (hm j hj).1 (hm i hi).2 (hm j hj).2).rename (g := inClusterMst labels c pts mst)
      (fun p => (inClusterIds pts p).getD 0) fun d hd =>
        Conn.edge (e := ⟨(inClusterIds pts d.u).getD 0, (inClusterIds pts d.v).getD 0, d.w⟩) (List.mem_map_of_mem hd)
    rwa [hid i hi, hid j hj] at this

/-- **C73** (consequence).  Then the core graph inside the cluster is connected for every lens and all neighbours, so `core_graph_clusters` has a single
component to cluster. -/
theorem C73_connected [LinearOrder W] {N : ℕ} {labels : ℕ → ℤ} {c : ℤ} {mst : List (Edge D)} (hr : InRange N mst) (ha : Acyclic mst)
    (hc : ∀ p q, p < N → q < N → labels p = c → labels q = c → Conn (mst.filter fun e => decide (labels e.u = c ∧ labels e.v = c)) p q)
    (nb : ℕ → List (Option ℕ)) (lens : ℕ → W) {a b : ℕ} (ha' : a < (clusterPoints N labels c).length) (hb : b < (clusterPoints N labels c).length) :
    Conn (lensEdges (clusterPoints N labels c).length nb (inClusterMst labels c (clusterPoints N labels c) mst) lens) a b := by
  refine Conn.of_forall (fun e he => ?_) ((C73_spanning hr ha hc).conn a b ha' hb)
  refine Conn.edge (e := ⟨e.u, e.v, max (lens e.u) (lens e.v)⟩) ?_
  unfold lensEdges
  exact List.mem_append_right _ (List.mem_map.2 ⟨e, he, rfl⟩)

/-! ## Concrete cases and a counterexample -/

/-- Six samples in two clusters; the neighbour of sample 0 is missing. -/
def exLab6 (i : ℕ) : ℤ := [0, 0, 1, 0, 1, 0].getD i (-1)

/-- Neighbours of the six samples. -/
def exNb6 (i : ℕ) : List (Option ℕ) := [[some 1, none], [some 0, some 2], [some 4, some 1], [some 0, some 1], [some 2, some 0], [some 3, some 4]].getD i []

/-- **C73** fails for missing neighbours: sample 0 has no second neighbour, yet inside its cluster it is given the last sample, position 3. -/
theorem C73_missing_neighbour :
    inClusterNeighbors 6 (clusterPoints 6 exLab6 0) exNb6 0 = [some 1, some 3] ∧ (clusterPoints 6 exLab6 0)[3]? = some 5 ∧
      some 5 ∉ exNb6 0 := by decide +kernel

/-- A tree on the six samples in which both clusters are connected. -/
def exTree6 : List (Edge ℕ) := [⟨0, 1, 1⟩, ⟨3, 1, 2⟩, ⟨5, 3, 2⟩, ⟨2, 4, 3⟩, ⟨2, 1, 6⟩]

example : inClusterMst exLab6 0 (clusterPoints 6 exLab6 0) exTree6 = [⟨0, 1, 1⟩, ⟨2, 1, 2⟩, ⟨3, 2, 2⟩] ∧
    inClusterMst exLab6 1 (clusterPoints 6 exLab6 1) exTree6 = [⟨0, 1, 3⟩] := by decide +kernel

/-- The hypotheses hold for the first of them. -/
example : InRange 6 exTree6 ∧ ∀ p q, p < 6 → q < 6 → exLab6 p = 0 → exLab6 q = 0 →
    Conn (exTree6.filter fun e => decide (exLab6 e.u = 0 ∧ exLab6 e.v = 0)) p q := by
  refine ⟨by unfold InRange; decide, fun p q hp hq h1 h2 => ?_⟩
  have e : (exTree6.filter fun e => decide (exLab6 e.u = 0 ∧ exLab6 e.v = 0)) = [⟨0, 1, 1⟩, ⟨3, 1, 2⟩, ⟨5, 3, 2⟩] := by decide +kernel
  rw [e]
  have c01 : Conn ([⟨0, 1, 1⟩, ⟨3, 1, 2⟩, ⟨5, 3, 2⟩] : List (Edge ℕ)) 0 1 := Conn.edge (e := ⟨0, 1, 1⟩) (by simp)
  have c31 : Conn ([⟨0, 1, 1⟩, ⟨3, 1, 2⟩, ⟨5, 3, 2⟩] : List (Edge ℕ)) 3 1 := Conn.edge (e := ⟨3, 1, 2⟩) (by simp)
  have c53 : Conn ([⟨0, 1, 1⟩, ⟨3, 1, 2⟩, ⟨5, 3, 2⟩] : List (Edge ℕ)) 5 3 := Conn.edge (e := ⟨5, 3, 2⟩) (by simp)
  have : ∀ p, p < 6 → exLab6 p = 0 → Conn ([⟨0, 1, 1⟩, ⟨3, 1, 2⟩, ⟨5, 3, 2⟩] : List (Edge ℕ)) p 1 := by
    intro p hp h
    interval_cases p
    · exact c01
    · exact Conn.refl _ _
    · simp [exLab6] at h
    · exact c31
    · simp [exLab6] at h
    · exact c53.trans c31
  exact (this p hp h1).trans (this q hq h2).symm

end Verif
