import Verif.Spec.FindSub
import Verif.Props.FindSub
import Verif.Props.LensClusters
import Verif.Props.InCluster
import Verif.Props.SubClusters
import Verif.Props.ClusterSize

/-!
# C78: what `find_sub_clusters` returns for the finite rows
-/

namespace Verif
variable {W D K : Type*}

section
variable {N num : ℕ} {lab : ℕ → ℤ} {nb : ℕ → List (Option ℕ)} {mst : List (Edge D)}

theorem SubInput.points_two (h : SubInput N num lab nb mst) {c : ℕ} (hc : c < num) : 2 ≤ (clusterPoints N lab c).length := by
  obtain ⟨i, j, h1, h2, h3, h4⟩ := h.two c hc
  have hs : ({i, j} : Finset ℕ) ⊆ (clusterPoints N lab c).toFinset := by
    intro x hx
    rw [List.mem_toFinset]
    rcases Finset.mem_insert.1 hx with rfl | hx
    · exact mem_clusterPoints.2 ⟨by omega, h3⟩
    · rw [Finset.mem_singleton.1 hx]; exact mem_clusterPoints.2 ⟨h2, h4⟩
  have := Finset.card_le_card hs
  rw [Finset.card_pair (by omega)] at this
  exact this.trans (List.toFinset_card_le _)

theorem clusterPoints_get {c : ℤ} {k p : ℕ} (h : (clusterPoints N lab c)[k]? = some p) : p < N ∧ lab p = c :=
  mem_clusterPoints.1 (List.mem_of_getElem? h)

theorem clusterPoints_inj {c : ℤ} {k l p : ℕ} (h : (clusterPoints N lab c)[k]? = some p) (h' : (clusterPoints N lab c)[l]? = some p) : k = l := by
  have hnd : (clusterPoints N lab c).Nodup := (clusterPoints_asc N lab c).imp fun h => h.ne
  exact (List.getElem?_inj (List.getElem?_eq_some_iff.1 h).1 hnd).1 (h.trans h'.symm)

/-- The edges inside the cluster, from positions to samples and back. -/
theorem SubInput.link_iff (h : SubInput N num lab nb mst) {c : ℕ} {i j p q : ℕ} (hp : (clusterPoints N lab c)[i]? = some p)
    (hq : (clusterPoints N lab c)[j]? = some q) :
    (some j ∈ inClusterNeighbors N (clusterPoints N lab c) nb i ∨ ∃ e ∈ inClusterMst lab c (clusterPoints N lab c) mst, e.u = i ∧ e.v = j) ↔
      ClusterLink N lab nb mst c p q := by
  obtain ⟨p1, p2⟩ := clusterPoints_get hp
  obtain ⟨q1, q2⟩ := clusterPoints_get hq
  have hr : InRange N mst := fun e he => ⟨(h.tree e he).1, (h.tree e he).2.1⟩
  have hnd : (clusterPoints N lab c).Nodup := (clusterPoints_asc N lab c).imp fun h => h.ne
  have hlast : none ∈ nb p → lab (N - 1) ≠ c := fun hm => p2 ▸ h.missing p p1 hm (by omega)
  rw [C73_neighbours_partial hp hlast]
  constructor
  · intro hh
    refine ⟨p1, q1, p2, q2, hh.imp ?_ ?_⟩
    · rintro ⟨q', m, hq'⟩
      rw [hq, Option.some.injEq] at hq'
      rwa [hq']
    · rintro ⟨e, he, rfl, rfl⟩
      obtain ⟨_, g⟩ := C73_tree (c := (c : ℤ)) (labels := lab) hr
      have := List.mem_map_of_mem (f := fun e : Edge D => (⟨(clusterPoints N lab c).getD e.u 0, (clusterPoints N lab c).getD e.v 0, e.w⟩ : Edge D)) he
      rw [g] at this
      refine ⟨_, (List.mem_filter.1 this).1, ?_, ?_⟩
      · show (clusterPoints N lab c).getD e.u 0 = p
        rw [List.getD_eq_getElem?_getD, hp]; rfl
      · show (clusterPoints N lab c).getD e.v 0 = q
        rw [List.getD_eq_getElem?_getD, hq]; rfl
  · rintro ⟨_, _, _, _, hh⟩
    refine hh.imp (fun hm => ⟨q, hm, hq⟩) ?_
    rintro ⟨e, he, rfl, rfl⟩
    refine ⟨_, List.mem_map_of_mem (List.mem_filter.2 ⟨he, by simp [p2, q2]⟩), ?_, ?_⟩
    · show (inClusterIds (clusterPoints N lab c) e.u).getD 0 = i
      rw [(inClusterIds_iff hnd _ _).2 hp]; rfl
    · show (inClusterIds (clusterPoints N lab c) e.v).getD 0 = j
      rw [(inClusterIds_iff hnd _ _).2 hq]; rfl

theorem SubInput.lensInput (h : SubInput N num lab nb mst) {c : ℕ} :
    LensInput (clusterPoints N lab c).length (inClusterNeighbors N (clusterPoints N lab c) nb)
      (inClusterMst lab c (clusterPoints N lab c) mst) := by
  have hr : InRange N mst := fun e he => ⟨(h.tree e he).1, (h.tree e he).2.1⟩
  refine ⟨fun u hu v hv => ?_, fun e he => ?_⟩
  · have hp := List.getElem?_eq_getElem hu
    obtain ⟨p1, p2⟩ := clusterPoints_get hp
    obtain ⟨q, m, hq⟩ := (C73_neighbours_partial hp (fun hm => p2 ▸ h.missing _ p1 hm (by omega)) v).1 hv
    refine ⟨(List.getElem?_eq_some_iff.1 hq).1, ?_⟩
    rintro rfl
    rw [hp, Option.some.injEq] at hq
    exact (h.knn _ p1 _ m).2 hq.symm
  · obtain ⟨hi, g⟩ := C73_tree (c := (c : ℤ)) (labels := lab) hr
    obtain ⟨hu, hv⟩ := hi e he
    refine ⟨hu, hv, fun heq => ?_⟩
    have := List.mem_map_of_mem (f := fun e : Edge D => (⟨(clusterPoints N lab c).getD e.u 0, (clusterPoints N lab c).getD e.v 0, e.w⟩ : Edge D)) he
    rw [g] at this
    exact (h.tree _ (List.mem_filter.1 this).1).2.2 (by simp only [heq])

theorem SubInput.noEmptyRow (h : SubInput N num lab nb mst) {c : ℕ} :
    NoEmptyRow (clusterPoints N lab c).length (inClusterNeighbors N (clusterPoints N lab c) nb)
      (inClusterMst lab c (clusterPoints N lab c) mst) := by
  intro u hu
  have hp := List.getElem?_eq_getElem hu
  obtain ⟨p1, p2⟩ := clusterPoints_get hp
  obtain ⟨q, hq⟩ := h.linked _ p1 (by omega)
  rw [p2] at hq
  obtain ⟨j, hj⟩ := List.mem_iff_getElem?.1 (mem_clusterPoints.2 ⟨hq.2.1, hq.2.2.2.1⟩)
  rcases (h.link_iff hp hj).2 hq with hh | ⟨e, he, h1, _⟩
  · exact .inl ⟨j, hh⟩
  · exact .inr ⟨e, he, h1⟩

theorem SubInput.conn_iff [LinearOrder W] [LinearOrder D] (h : SubInput N num lab nb mst) {c : ℕ} (lens : ℕ → W) {i j p q : ℕ}
    (hp : (clusterPoints N lab c)[i]? = some p) (hq : (clusterPoints N lab c)[j]? = some q) :
    Conn (lensEdges (clusterPoints N lab c).length (inClusterNeighbors N (clusterPoints N lab c) nb)
      (inClusterMst lab c (clusterPoints N lab c) mst) lens) i j ↔ LinkedIn N lab nb mst c p q := by
  have hin := h.lensInput (c := c)
  constructor
  · intro hc
    have : ∀ a b, Conn (lensEdges (clusterPoints N lab c).length (inClusterNeighbors N (clusterPoints N lab c) nb)
        (inClusterMst lab c (clusterPoints N lab c) mst) lens) a b →
        LinkedIn N lab nb mst c ((clusterPoints N lab c).getD a 0) ((clusterPoints N lab c).getD b 0) := by
      intro a b hab
      induction hab with
      | refl => exact .refl _
      | @tail x y _ hxy ih =>
        refine ih.trans _ _ _ ?_
        obtain ⟨e, he, hor⟩ := hxy
        obtain ⟨hu, _, hl⟩ := (mem_lensEdges hin).1 he
        have hv : e.v < (clusterPoints N lab c).length := by
          rcases hl with hl | ⟨t, ht, _, hl⟩
          · exact (hin.knn _ hu _ hl).1
          · rw [← hl]; exact (hin.mst t ht).2.1
        have hu' := List.getElem?_eq_getElem hu
        have hv' := List.getElem?_eq_getElem hv
        have hlink := (h.link_iff hu' hv').1 hl
        have e1 : (clusterPoints N lab c).getD e.u 0 = (clusterPoints N lab c)[e.u] := by rw [List.getD_eq_getElem?_getD, hu']; rfl
        have e2 : (clusterPoints N lab c).getD e.v 0 = (clusterPoints N lab c)[e.v] := by rw [List.getD_eq_getElem?_getD, hv']; rfl
        rcases hor with ⟨rfl, rfl⟩ | ⟨rfl, rfl⟩
        · rw [e1, e2]; exact .rel _ _ hlink
        · rw [e1, e2]; exact .symm _ _ (.rel _ _ hlink)
    have := this i j hc
    rwa [List.getD_eq_getElem?_getD, hp, List.getD_eq_getElem?_getD, hq] at this
  · intro hl
    have hnd : (clusterPoints N lab c).Nodup := (clusterPoints_asc N lab c).imp fun h => h.ne
    have : ∀ p q, LinkedIn N lab nb mst c p q →
        Conn (lensEdges (clusterPoints N lab c).length (inClusterNeighbors N (clusterPoints N lab c) nb)
          (inClusterMst lab c (clusterPoints N lab c) mst) lens) ((inClusterIds (clusterPoints N lab c) p).getD 0)
          ((inClusterIds (clusterPoints N lab c) q).getD 0) := by
      intro p q hl
      induction hl with
      | rel p q hpq =>
        obtain ⟨i, hi⟩ := List.mem_iff_getElem?.1 (mem_clusterPoints.2 ⟨hpq.1, hpq.2.2.1⟩)
        obtain ⟨j, hj⟩ := List.mem_iff_getElem?.1 (mem_clusterPoints.2 ⟨hpq.2.1, hpq.2.2.2.1⟩)
        rw [(inClusterIds_iff hnd _ _).2 hi, (inClusterIds_iff hnd _ _).2 hj]
        exact Conn.edge (e := ⟨i, j, max (lens i) (lens j)⟩)
          ((mem_lensEdges hin).2 ⟨(List.getElem?_eq_some_iff.1 hi).1, rfl, (h.link_iff hi hj).2 hpq⟩)
      | refl => exact Conn.refl _ _
      | symm _ _ _ ih => exact ih.symm
      | trans _ _ _ _ _ ih1 ih2 => exact ih1.trans ih2
    have := this p q hl
    rwa [(inClusterIds_iff hnd _ _).2 hp, (inClusterIds_iff hnd _ _).2 hq] at this

end

section
variable [Field K] [LinearOrder K] [IsStrictOrderedRing K] [LinearOrder W] [OrderTop W] [Inhabited W] [LinearOrder D] [Inhabited K]

omit [LinearOrder D] in
theorem SubInput.numClusters {N num : ℕ} {lab : ℕ → ℤ} {nb : ℕ → List (Option ℕ)} {mst : List (Edge D)} (h : SubInput N num lab nb mst) (hnum : 0 < num) :
    numClusters N lab = some num := by
  unfold Verif.numClusters
  have : ((List.range N).map lab).max? = some ((num : ℤ) - 1) := by
    rw [List.max?_eq_some_iff]
    constructor
    · obtain ⟨i, j, a, b, e, _⟩ := h.two (num - 1) (by omega)
      exact List.mem_map.2 ⟨i, List.mem_range.2 (by omega), by omega⟩
    · intro b hb
      obtain ⟨i, hi, rfl⟩ := List.mem_map.1 hb
      have := h.labels i (List.mem_range.1 hi)
      omega
  rw [this]; simp

/-- One cluster. -/
theorem SubInput.cluster_result {N num : ℕ} {lab : ℕ → ℤ} {nb : ℕ → List (Option ℕ)} {mst : List (Edge D)} (h : SubInput N num lab nb mst)
    {sortRow : LensRow W D → LensRow W D} (hs : SortsRows sortRow) (lam : W → K) (hlam : Antitone lam)
    (hpos : ∀ d, 0 ≤ lam d) (wt : ℕ → K) (o : ClusterOpts K) (h1 : 1 < o.minClusterSize) (h0 : ∀ x, x < N → 0 ≤ wt x)
    (hl : ∀ x, x < N → wt x < o.minClusterSize) (core : ℕ → D) {c : ℕ} (hc : c < num)
    (lens : ℕ → W) (hlens : ∀ i, 0 < lam (lens i))
    (hok : (o.persistence ≤ 0 ∧ o.maxClusterSize = none) ∨ ∃ res, coreGraphClusters sortRow lam (fun i => wt ((clusterPoints N lab c).getD i 0)) o (clusterPoints N lab c).length
        (inClusterNeighbors N (clusterPoints N lab c) nb) (fun i => core ((clusterPoints N lab c).getD i 0))
        (inClusterMst lab c (clusterPoints N lab c) mst) lens = some res) :
    ∃ res : LensClusters W K, coreGraphClusters sortRow lam (fun i => wt ((clusterPoints N lab c).getD i 0)) o (clusterPoints N lab c).length
        (inClusterNeighbors N (clusterPoints N lab c) nb) (fun i => core ((clusterPoints N lab c).getD i 0))
        (inClusterMst lab c (clusterPoints N lab c) mst) lens = some res ∧
      DenseLabels ((List.range (clusterPoints N lab c).length).map res.label) ∧
      (∀ k < (clusterPoints N lab c).length, 0 ≤ res.strength k ∧ res.strength k ≤ 1 ∧ (res.label k = -1 → res.strength k = 0)) ∧
      ∀ sub str, (∀ k p : ℕ, (clusterPoints N lab c)[k]? = some p → sub p = res.label k ∧ str p = res.strength k) →
        SubResult lam wt o N lab nb mst lens c sub str := by
  classical
  have hM := h.points_two hc
  have hin := h.lensInput (c := c)
  have hne := h.noEmptyRow (c := c)
  have hget : ∀ k (hk : k < (clusterPoints N lab c).length), (clusterPoints N lab c)[k]? = some (clusterPoints N lab c)[k] := fun k hk =>
    List.getElem?_eq_getElem hk
  have hmem : ∀ p, p < N → lab p = c → ∃ k, (clusterPoints N lab c)[k]? = some p := fun p h1 h2 =>
    List.mem_iff_getElem?.1 (mem_clusterPoints.2 ⟨h1, h2⟩)
  have hdefd : ∀ k < (clusterPoints N lab c).length, (clusterPoints N lab c).getD k 0 < N := by
    intro k hk
    rw [List.getD_eq_getElem?_getD, hget k hk]
    exact (clusterPoints_get (hget k hk)).1
  by_cases hcon : ∀ a b, a < (clusterPoints N lab c).length → b < (clusterPoints N lab c).length →
      Conn (lensEdges (clusterPoints N lab c).length (inClusterNeighbors N (clusterPoints N lab c) nb)
      (inClusterMst lab c (clusterPoints N lab c) mst) lens) a b
  · have key : ∃ (t : List (Edge W)) (r : ClusterResult W K) (k : ℕ),
        coreGraphClusters sortRow lam (fun i => wt ((clusterPoints N lab c).getD i 0)) o (clusterPoints N lab c).length
          (inClusterNeighbors N (clusterPoints N lab c) nb) (fun i => core ((clusterPoints N lab c).getD i 0))
          (inClusterMst lab c (clusterPoints N lab c) mst) lens = some (.clustered r) ∧
        SpanningTree (clusterPoints N lab c).length t ∧
        (∀ e ∈ t, e ∈ lensEdges (clusterPoints N lab c).length (inClusterNeighbors N (clusterPoints N lab c) nb)
          (inClusterMst lab c (clusterPoints N lab c) mst) lens) ∧
        clustersFromMst lam (fun i => wt ((clusterPoints N lab c).getD i 0)) o t = some r ∧ CondTree (clusterPoints N lab c).length k r.condensed ∧
        LabelsMean (clusterPoints N lab c).length r.condensed r.selected (epsLam o.epsilon) r.labels ∧
        ∀ x, x < (clusterPoints N lab c).length → 0 ≤ r.strengths x ∧ r.strengths x ≤ 1 ∧ (r.labels[x]? = some (-1) → r.strengths x = 0) := by
      rcases hok with ⟨hper, hmax⟩ | ⟨res, hres⟩
      · obtain ⟨t, r, k, g1, g2, g3, g4, g5, _, _, _, g6, g7⟩ := C72_connected_partial (core := fun i => core ((clusterPoints N lab c).getD i 0)) hs lam
          hlam hpos (fun i => wt ((clusterPoints N lab c).getD i 0)) o hM h1 (fun x hx => h0 _ (hdefd x hx)) (fun x hx => hl _ (hdefd x hx)) hper hmax
          hin hne hcon
        exact ⟨t, r, k, g1, g2, g3, g4, g5, g6, g7⟩
      · obtain ⟨t, r, k, g1, g2, g3, g4, g5, _, _, _, _, g6, g7⟩ := C72_connected_returned (core := fun i => core ((clusterPoints N lab c).getD i 0)) hs lam
          hlam hpos (fun i => wt ((clusterPoints N lab c).getD i 0)) o hM h1 (fun x hx => h0 _ (hdefd x hx)) (fun x hx => hl _ (hdefd x hx)) hin hne hcon
          hres
        exact ⟨t, r, k, hres.trans (congrArg some g1), g2, g3, g4, g5, g6, g7⟩
    obtain ⟨t, r, k, g1, g2, g3, g4, g5, g6, g7⟩ := key
    have hlen := g6.1
    have hlab : ∀ i < (clusterPoints N lab c).length, r.labels[i]? = some ((LensClusters.clustered r).label i) := by
      intro i hi
      show _ = some (r.labels.getD i (-1))
      rw [List.getD_eq_getElem?_getD, List.getElem?_eq_getElem (by omega)]; rfl
    refine ⟨.clustered r, g1, ?_, fun i hi => ?_, fun sub str hss => ⟨?_, fun _ => ⟨t, r, g2, fun e he => ?_, g4, fun i p hp => ?_⟩⟩⟩
    · have hlist : (List.range (clusterPoints N lab c).length).map (LensClusters.clustered r).label = r.labels := by
        apply List.ext_getElem?
        intro i
        by_cases hi : i < (clusterPoints N lab c).length
        · rw [hlab i hi]; simp [hi]
        · rw [List.getElem?_eq_none (by simpa using hi), List.getElem?_eq_none (by omega)]
      rw [hlist]
      by_cases htop : (clusterPoints N lab c).length ∈ r.selected
      · have hor : ∀ l ∈ r.labels, l = -1 ∨ l = 0 := by
          intro l hl
          obtain ⟨x, hx⟩ := List.mem_iff_getElem?.1 hl
          have hxn : x < (clusterPoints N lab c).length := by rw [← hlen]; exact (List.getElem?_eq_some_iff.1 hx).1
          obtain ⟨row, hrow, rfl⟩ := List.mem_map.1 ((g5.children x).2 (.inl hxn))
          obtain ⟨_, m2, m3⟩ := g6.2 row hrow hxn
          have := m3 l hx
          by_cases hl0 : 0 ≤ l
          · obtain ⟨j, rfl⟩ := Int.eq_ofNat_of_zero_le hl0
            have := ((m2 htop j).1 hx).1
            right; omega
          · left; omega
        refine ⟨fun x hx => ?_, fun x hx y h1 h2 => ?_⟩
        · rcases hor x hx with rfl | rfl <;> omega
        · rcases hor x hx with rfl | rfl <;> omega
      · obtain ⟨_, q2, q3⟩ := C75_cluster_weight_partial _ hM (fun i => wt ((clusterPoints N lab c).getD i 0)) t g2 o h1 (fun x hx => h0 _ (hdefd x hx))
          (fun x hx => hl _ (hdefd x hx)) lam hlam hpos (fun e he => by
            rw [((mem_lensEdges hin).1 (g3 e he)).2.1]
            rcases max_choice (lens e.u) (lens e.v) with hm | hm <;> rw [hm] <;> exact (hlens _).ne') g4 htop
        exact ⟨fun x hx => (q2 x hx).1, fun x hx y hy0 hy1 => (q3 y hy0 (hy1.trans (q2 x hx).2)).1⟩
    · obtain ⟨a, b, d⟩ := g7 i hi
      exact ⟨a, b, fun hm => d (by rw [hlab i hi, hm])⟩
    · rintro ⟨p, q, p1, q1, p2, q2, hno⟩
      obtain ⟨a, ha⟩ := hmem p p1 p2
      obtain ⟨b, hb⟩ := hmem q q1 q2
      exact absurd ((h.conn_iff lens ha hb).1 (hcon a b (List.getElem?_eq_some_iff.1 ha).1 (List.getElem?_eq_some_iff.1 hb).1)) hno
    · obtain ⟨hu, hw, hh⟩ := (mem_lensEdges hin).1 (g3 e he)
      have hv := (g2.1 e he).2
      exact ⟨hw, _, _, hget _ hu, hget _ hv, (h.link_iff (hget _ hu) (hget _ hv)).1 hh⟩
    · obtain ⟨e1, e2⟩ := hss i p hp
      rw [e1, e2]
      exact ⟨hlab i (List.getElem?_eq_some_iff.1 hp).1, rfl⟩
  · push Not at hcon
    obtain ⟨labels, forest, g1, g2, g3, g4, g5⟩ := C72_components (core := fun i => core ((clusterPoints N lab c).getD i 0)) hs lam
      (fun i => wt ((clusterPoints N lab c).getD i 0)) o hin hne (lens := lens) (by obtain ⟨a, b, h1, h2, h3⟩ := hcon; exact ⟨a, b, h1, h2, h3⟩)
    have hlab : ∀ i < (clusterPoints N lab c).length, ∃ l : ℕ, labels[i]? = some l ∧
        (LensClusters.components labels forest : LensClusters W K).label i = l := by
      intro i hi
      refine ⟨labels[i], List.getElem?_eq_getElem (by omega), ?_⟩
      show ((labels.getD i 0 : ℕ) : ℤ) = _
      rw [List.getD_eq_getElem?_getD, List.getElem?_eq_getElem (by omega)]; rfl
    refine ⟨.components labels forest, g1, ⟨fun x hx => ?_, fun x hx y hy0 hy1 => ?_⟩, fun i hi => ⟨zero_le_one, le_rfl, fun hm => ?_⟩,
      fun sub str hss => ⟨?_, fun hall => ?_⟩⟩
    · obtain ⟨i, hi, rfl⟩ := List.mem_map.1 hx
      obtain ⟨l, _, e⟩ := hlab i (List.mem_range.1 hi)
      rw [e]; omega
    · obtain ⟨i, hi, rfl⟩ := List.mem_map.1 hx
      obtain ⟨l, e1, e⟩ := hlab i (List.mem_range.1 hi)
      rw [e] at hy1
      obtain ⟨y, rfl⟩ := Int.eq_ofNat_of_zero_le hy0
      have := (g4 l).1 (List.mem_of_getElem? e1)
      obtain ⟨j, hj⟩ := List.mem_iff_getElem?.1 ((g4 y).2 (by omega))
      have hjn := (List.getElem?_eq_some_iff.1 hj).1
      obtain ⟨l', e1', e'⟩ := hlab j (by omega)
      rw [hj, Option.some.injEq] at e1'
      exact List.mem_map.2 ⟨j, List.mem_range.2 (by omega), by rw [e', e1']⟩
    · obtain ⟨l, _, e⟩ := hlab i hi
      omega
    · intro _ p p1 q q1 p2 q2
      obtain ⟨a, ha⟩ := hmem p p1 p2
      obtain ⟨b, hb⟩ := hmem q q1 q2
      have han := (List.getElem?_eq_some_iff.1 ha).1
      have hbn := (List.getElem?_eq_some_iff.1 hb).1
      obtain ⟨la, a1, a2⟩ := hlab a han
      obtain ⟨lb, b1, b2⟩ := hlab b hbn
      rw [(hss a p ha).1, (hss a p ha).2, (hss b q hb).1, a2, b2, ← h.conn_iff lens ha hb, ← g3 a b han hbn, a1, b1]
      exact ⟨by omega, rfl, by simp⟩
    · obtain ⟨a, b, ha, hb, hno⟩ := hcon
      obtain ⟨a1, a2⟩ := clusterPoints_get (hget a ha)
      obtain ⟨b1, b2⟩ := clusterPoints_get (hget b hb)
      exact absurd ((h.conn_iff lens (hget a ha) (hget b hb)).2 (hall _ a1 _ b1 a2 b2)) hno

omit [IsStrictOrderedRing K] in
/-- If the clusters of all labels are computed, each of them is. -/
theorem subClustersFinite_returned {N num : ℕ} {lab : ℕ → ℤ} {nb : ℕ → List (Option ℕ)} {mst : List (Edge D)} {sortRow : LensRow W D → LensRow W D}
    {lam : W → K} {wt : ℕ → K} {o : ClusterOpts K} {core : ℕ → D} {probs : ℕ → K} {lens : ℕ → ℕ → W} (hnum : numClusters N lab = some num)
    {s : SubArrays K} (hs : subClustersFinite sortRow lam wt o N lab probs nb core mst lens = some s) {c : ℕ} (hc : c < num) :
    ∃ res, coreGraphClusters sortRow lam (fun i => wt ((clusterPoints N lab c).getD i 0)) o (clusterPoints N lab c).length
        (inClusterNeighbors N (clusterPoints N lab c) nb) (fun i => core ((clusterPoints N lab c).getD i 0))
        (inClusterMst lab c (clusterPoints N lab c) mst) (lens c) = some res := by
  unfold subClustersFinite at hs
  rw [hnum, Option.bind_some, if_neg (by omega)] at hs
  obtain ⟨parts, hp, _⟩ := Option.bind_eq_some_iff.1 hs
  refine Option.ne_none_iff_exists'.1 fun hnone => ?_
  rw [mapM_of_none (x := c) (List.mem_range.2 hc) (by unfold subClustersInCluster; simp only; rw [hnone]; rfl)] at hp
  cases hp

/-- **C78** (partial).  For arrays as in `SubInput`, `find_sub_clusters` returns on the finite rows: noise keeps label -1 and its strength; the new
labels agree exactly for samples of the same cluster with the same sub-cluster label; the new strength is the mean of cluster and sub-cluster strength;
sub-cluster strengths are between 0 and 1, 0 for sub-cluster noise; and each cluster is divided into its connected pieces or, if there is only one, by
clustering a spanning tree with lens weights.  With `max_cluster_size` or a positive persistence the theorem is about the runs that
return.  Missing: lens values of lambda 0, and arrays outside `SubInput`. -/
theorem C78_sub_clusters_partial {N num : ℕ} {lab : ℕ → ℤ} {nb : ℕ → List (Option ℕ)} {mst : List (Edge D)} (h : SubInput N num lab nb mst)
    (hnum : 0 < num) {sortRow : LensRow W D → LensRow W D} (hs : SortsRows sortRow) (lam : W → K) (hlam : Antitone lam)
    (hpos : ∀ d, 0 ≤ lam d) (wt : ℕ → K) (o : ClusterOpts K) (h1 : 1 < o.minClusterSize) (h0 : ∀ x, x < N → 0 ≤ wt x)
    (hl : ∀ x, x < N → wt x < o.minClusterSize) (core : ℕ → D) (probs : ℕ → K)
    (lens : ℕ → ℕ → W) (hlens : ∀ c i, 0 < lam (lens c i))
    (hok : (o.persistence ≤ 0 ∧ o.maxClusterSize = none) ∨ ∃ s, subClustersFinite sortRow lam wt o N lab probs nb core mst lens = some s) :
    ∃ s, subClustersFinite sortRow lam wt o N lab probs nb core mst lens = some s ∧
      (∀ i < N, lab i = -1 → s.labels i = -1 ∧ s.probs i = probs i ∧ s.subLabels i = 0 ∧ s.subProbs i = 0) ∧
      (∀ i < N, lab i ≠ -1 → 0 ≤ s.labels i ∧ -1 ≤ s.subLabels i ∧ s.probs i = (probs i + s.subProbs i) / 2 ∧
        0 ≤ s.subProbs i ∧ s.subProbs i ≤ 1 ∧ (s.subLabels i = -1 → s.subProbs i = 0)) ∧
      (∀ i < N, ∀ j < N, lab i ≠ -1 → lab j ≠ -1 → (s.labels i = s.labels j ↔ lab i = lab j ∧ s.subLabels i = s.subLabels j)) ∧
      ∀ c < num, SubResult lam wt o N lab nb mst (lens c) c s.subLabels s.subProbs := by
  have hex : ∀ c, ∃ res : LensClusters W K, c < num → _ := fun c => by
    by_cases hc : c < num
    · obtain ⟨res, hr⟩ := h.cluster_result hs lam hlam hpos wt o h1 h0 hl core hc (lens c) (hlens c)
        (hok.imp_right fun ⟨_, hs⟩ => subClustersFinite_returned (h.numClusters hnum) hs hc)
      exact ⟨res, fun _ => hr⟩
    · exact ⟨.components [] [], fun h => absurd h hc⟩
  choose res hres using hex
  set idx : ℕ → ℕ := fun i => (inClusterIds (clusterPoints N lab (lab i)) i).getD 0 with hidx
  set loc : ℕ → ℤ := fun i => (res (lab i).toNat).label (idx i) with hloc
  set prob : ℕ → K := fun i => (res (lab i).toNat).strength (idx i) with hprob
  have hat : ∀ (c k p : ℕ), (clusterPoints N lab c)[k]? = some p → loc p = (res c).label k ∧ prob p = (res c).strength k := by
    intro c k p hp
    have hnd : (clusterPoints N lab c).Nodup := (clusterPoints_asc N lab c).imp fun h => h.ne
    have e : lab p = c := (clusterPoints_get hp).2
    have hi : idx p = k := by
      rw [hidx]; simp only
      rw [e, (inClusterIds_iff hnd _ _).2 hp]; rfl
    simp only [hloc, hprob]
    rw [hi, e, Int.toNat_natCast]
    exact ⟨rfl, rfl⟩
  have hmap : ∀ c : ℕ, (clusterPoints N lab c).map loc = (List.range (clusterPoints N lab c).length).map (res c).label := by
    intro c
    apply List.ext_getElem?
    intro i
    by_cases hi : i < (clusterPoints N lab c).length
    · rw [List.getElem?_map, List.getElem?_eq_getElem hi, Option.map_some, (hat c i _ (List.getElem?_eq_getElem hi)).1]
      simp [hi]
    · rw [List.getElem?_eq_none (by simpa using hi), List.getElem?_eq_none (by simpa using hi)]
  obtain ⟨s, s1, s2, s3, s4⟩ := C46_refines_partial (fun a b : K => (a + b) / 2) 0 probs N num lab loc prob
    (fun c hc => by obtain ⟨i, j, a, b, e, _⟩ := h.two c hc; exact ⟨i, by omega, e⟩)
    (fun c hc => by rw [hmap]; exact (hres c hc).2.1)
  have hpart : ∀ i, i < N → lab i ≠ -1 → 0 ≤ lab i ∧ lab i < num := fun i hi hne => by have := h.labels i hi; omega
  refine ⟨s, ?_, fun i hi hn => ?_, fun i hi hn => ?_, fun i hi j hj hn hm => ?_, fun c hc => ?_⟩
  · unfold subClustersFinite
    rw [h.numClusters hnum, Option.bind_some, if_neg (by omega),
      mapM_of_some (g := fun c : ℕ => (clusterPoints N lab c).map fun i => (i, loc i, prob i)), Option.bind_some, s1]
    intro c hc
    unfold subClustersInCluster
    simp only
    rw [(hres c (List.mem_range.1 hc)).1, Option.map_some, Option.some.injEq]
    apply List.ext_getElem?
    intro i
    by_cases hi : i < (clusterPoints N lab c).length
    · obtain ⟨e1, e2⟩ := hat c i _ (List.getElem?_eq_getElem hi)
      rw [List.getElem?_map, List.getElem?_map, List.getElem?_zipIdx, List.getElem?_eq_getElem hi]
      simp only [Option.map_some, e1, e2, Nat.zero_add]
    · rw [List.getElem?_eq_none (by simpa using hi), List.getElem?_eq_none (by simpa using hi)]
  · exact s2 i fun hh => by omega
  · obtain ⟨a, b⟩ := hpart i hi hn
    obtain ⟨c, hc⟩ := Int.eq_ofNat_of_zero_le a
    obtain ⟨q1, q2, q3, q4⟩ := s3 i hi a b
    obtain ⟨k, hk⟩ := List.mem_iff_getElem?.1 (mem_clusterPoints.2 ⟨hi, hc⟩)
    obtain ⟨e1, e2⟩ := hat c k i hk
    have hkn := (List.getElem?_eq_some_iff.1 hk).1
    obtain ⟨w1, w2, w3⟩ := (hres c (by omega)).2.2.1 k hkn
    rw [q4, q3, q2, e1, e2]
    exact ⟨q1, (hres c (by omega)).2.1.ge _ (List.mem_map_of_mem (List.mem_range.2 hkn)), rfl, w1, w2, w3⟩
  · obtain ⟨a, b⟩ := hpart i hi hn
    obtain ⟨a', b'⟩ := hpart j hj hm
    rw [s4 i hi j hj a b a' b', (s3 i hi a b).2.1, (s3 j hj a' b').2.1]
  · refine (hres c hc).2.2.2 _ _ fun k p hp => ?_
    obtain ⟨p1, p2⟩ := clusterPoints_get hp
    obtain ⟨_, q2, q3, _⟩ := s3 p p1 (by omega) (by omega)
    rw [q2, q3]
    exact hat c k p hp

theorem ClusterLink.congr {N : ℕ} {lab lab' : ℕ → ℤ} (hl : ∀ i < N, lab i = lab' i) {nb : ℕ → List (Option ℕ)} {mst : List (Edge D)} {c : ℤ} {p q : ℕ}
    (h : ClusterLink N lab nb mst c p q) : ClusterLink N lab' nb mst c p q := by
  obtain ⟨h1, h2, h3, h4, h5⟩ := h
  exact ⟨h1, h2, hl p h1 ▸ h3, hl q h2 ▸ h4, h5⟩

theorem SubInput.congr {N num : ℕ} {lab lab' : ℕ → ℤ} (hl : ∀ i < N, lab i = lab' i) {nb : ℕ → List (Option ℕ)} {mst : List (Edge D)}
    (h : SubInput N num lab nb mst) : SubInput N num lab' nb mst := by
  refine ⟨fun i hi => hl i hi ▸ h.labels i hi, fun c hc => ?_, h.knn, h.tree, fun p hp hm h0 => ?_, fun p hp h0 => ?_⟩
  · obtain ⟨i, j, h1, h2, h3, h4⟩ := h.two c hc
    exact ⟨i, j, h1, h2, hl i (by omega) ▸ h3, hl j h2 ▸ h4⟩
  · rw [← hl p hp] at h0 ⊢
    rw [← hl (N - 1) (by omega)]
    exact h.missing p hp hm h0
  · rw [← hl p hp] at h0 ⊢
    obtain ⟨q, hq⟩ := h.linked p hp h0
    exact ⟨q, hq.congr hl⟩

theorem clusterPoints_congr {N : ℕ} {lab lab' : ℕ → ℤ} (hl : ∀ i < N, lab i = lab' i) (c : ℤ) : clusterPoints N lab c = clusterPoints N lab' c :=
  List.filter_congr fun i hi => by rw [hl i (List.mem_range.1 hi)]

omit [IsStrictOrderedRing K] in
/-- What is said of a cluster depends on the samples only. -/
theorem SubResult.congr {lam : W → K} {wt wt' : ℕ → K} {o : ClusterOpts K} {N : ℕ} {lab lab' : ℕ → ℤ} {nb : ℕ → List (Option ℕ)} {mst : List (Edge D)}
    {lens : ℕ → W} {c : ℕ} {sub sub' : ℕ → ℤ} {str str' : ℕ → K} (hN : 0 < N) (hw : ∀ i < N, wt i = wt' i) (hl : ∀ i < N, lab i = lab' i)
    (hsub : ∀ i < N, sub i = sub' i) (hstr : ∀ i < N, str i = str' i) (h : SubResult lam wt o N lab nb mst lens c sub str) :
    SubResult lam wt' o N lab' nb mst lens c sub' str' := by
  have hlink : ∀ p q, ClusterLink N lab nb mst c p q ↔ ClusterLink N lab' nb mst c p q := fun p q =>
    ⟨fun h => h.congr hl, fun h => h.congr fun i hi => (hl i hi).symm⟩
  have hin : LinkedIn N lab nb mst c = LinkedIn N lab' nb mst c := by
    unfold LinkedIn
    rw [show ClusterLink N lab nb mst c = ClusterLink N lab' nb mst c from funext fun p => funext fun q => propext (hlink p q)]
  have hpts := clusterPoints_congr hl (c : ℤ)
  refine ⟨fun ⟨p, q, hp, hq, h1, h2, h3⟩ p' hp' q' hq' e1 e2 => ?_, fun hall => ?_⟩
  · rw [← hsub p' hp', ← hsub q' hq', ← hstr p' hp', ← hin]
    exact h.apart ⟨p, q, hp, hq, (hl p hp).trans h1, (hl q hq).trans h2, hin ▸ h3⟩ p' hp' q' hq' ((hl p' hp').trans e1) ((hl q' hq').trans e2)
  · obtain ⟨t, r, t1, t2, t3, t4⟩ := h.together fun p hp q hq e1 e2 => by
      rw [hin]; exact hall p hp q hq ((hl p hp).symm.trans e1) ((hl q hq).symm.trans e2)
    refine ⟨t, r, hpts ▸ t1, fun e he => ?_, ?_, fun k p hk => ?_⟩
    · obtain ⟨a, p, q, b1, b2, b3⟩ := t2 e he
      exact ⟨a, p, q, hpts ▸ b1, hpts ▸ b2, (hlink p q).1 b3⟩
    · rw [← t3, ← hpts]
      congr 1
      funext i
      refine (hw _ ?_).symm
      by_cases hi : i < (clusterPoints N lab c).length
      · rw [List.getD_eq_getElem?_getD, List.getElem?_eq_getElem hi]
        exact (clusterPoints_get (List.getElem?_eq_getElem hi)).1
      · rw [List.getD_eq_getElem?_getD, List.getElem?_eq_none (by omega)]; exact hN
    · rw [← hpts] at hk
      have hp := (clusterPoints_get hk).1
      rw [← hsub p hp, ← hstr p hp]
      exact t4 k p hk

/-- **C78** for all rows (partial).  `idx` are the rows that are kept.  All arrays have one value per row; a row that is not kept gets label -1 and
strength 0, cluster -1 and strength 0, sub-cluster label 0 and strength 1; a kept row has the cluster and strength given; kept noise has label -1;
two kept rows in clusters have the same label exactly if they are in the same cluster and have the same sub-cluster label, and their strength is the mean
of the two strengths; each cluster is divided as in `C78_sub_clusters_partial`. -/
theorem C78_all_rows_partial {n num : ℕ} {tree : List (CRow K K)} {idx : List ℕ}
    (hrec : recoverFinite n tree = some idx ∨ (recoverFinite n tree = none ∧ idx = List.range n))
    {lab : ℕ → ℤ} {nb : ℕ → List (Option ℕ)} {mst : List (Edge D)} (h : SubInput idx.length num (atFinite idx lab) nb mst)
    (hnum : 0 < num) {sortRow : LensRow W D → LensRow W D} (hs : SortsRows sortRow) (lam : W → K) (hlam : Antitone lam)
    (hpos : ∀ d, 0 ≤ lam d) (wt : ℕ → K) (o : ClusterOpts K) (h1 : 1 < o.minClusterSize) (h0 : ∀ x ∈ idx, 0 ≤ wt x)
    (hl : ∀ x ∈ idx, wt x < o.minClusterSize) (core : ℕ → D) (probs : ℕ → K)
    (lens : ℕ → ℕ → W) (hlens : ∀ c i, 0 < lam (lens c i))
    (hok : (o.persistence ≤ 0 ∧ o.maxClusterSize = none) ∨ ∃ out, findSubClusters sortRow lam wt o n tree lab probs nb core mst lens = some out) :
    ∃ out, findSubClusters sortRow lam wt o n tree lab probs nb core mst lens = some out ∧
      (out.labels.length = n ∧ out.probs.length = n ∧ out.clusterLabels.length = n ∧ out.clusterProbs.length = n ∧ out.subLabels.length = n ∧
        out.subProbs.length = n) ∧
      (∀ i, i < n → i ∉ idx → out.labels[i]? = some (-1) ∧ out.probs[i]? = some 0 ∧ out.clusterLabels[i]? = some (-1) ∧
        out.clusterProbs[i]? = some 0 ∧ out.subLabels[i]? = some 0 ∧ out.subProbs[i]? = some 1) ∧
      (∀ i ∈ idx, i < n ∧ out.clusterLabels[i]? = some (lab i) ∧ out.clusterProbs[i]? = some (probs i)) ∧
      (∀ i ∈ idx, lab i = -1 → out.labels[i]? = some (-1) ∧ out.probs[i]? = some (probs i) ∧ out.subLabels[i]? = some 0 ∧ out.subProbs[i]? = some 0) ∧
      (∀ i ∈ idx, lab i ≠ -1 → ∃ (l sl : ℤ) (sp : K), 0 ≤ l ∧ -1 ≤ sl ∧ 0 ≤ sp ∧ sp ≤ 1 ∧ out.labels[i]? = some l ∧ out.subLabels[i]? = some sl ∧
        out.subProbs[i]? = some sp ∧ out.probs[i]? = some ((probs i + sp) / 2)) ∧
      (∀ i ∈ idx, ∀ j ∈ idx, lab i ≠ -1 → lab j ≠ -1 →
        (out.labels[i]? = out.labels[j]? ↔ lab i = lab j ∧ out.subLabels[i]? = out.subLabels[j]?)) ∧
      ∀ c < num, SubResult lam (atFinite idx wt) o idx.length (atFinite idx lab) nb mst (lens c) c (fun k => out.subLabels.getD (idx.getD k 0) 0)
        (fun k => out.subProbs.getD (idx.getD k 0) 0) := by
  have hget : ∀ (k i : ℕ), idx[k]? = some i → k < idx.length ∧ idx.getD k 0 = i := fun k i hk =>
    ⟨(List.getElem?_eq_some_iff.1 hk).1, by rw [List.getD_eq_getElem?_getD, hk]; rfl⟩
  have hw : ∀ x, x < idx.length → atFinite idx wt x = wt (idx.getD x 0) ∧ idx.getD x 0 ∈ idx := by
    intro x hx
    refine ⟨rfl, ?_⟩
    rw [List.getD_eq_getElem?_getD, List.getElem?_eq_getElem hx]; exact List.getElem_mem _
  have hrange : idx.Pairwise (· < ·) ∧ ∀ i ∈ idx, i < n := by
    rcases hrec with hrec | ⟨_, rfl⟩
    · unfold recoverFinite at hrec
      split at hrec
      · cases hrec
        exact ⟨List.pairwise_lt_range.filter _, fun i hi => List.mem_range.1 (List.mem_filter.1 hi).1⟩
      · cases hrec
    · exact ⟨List.pairwise_lt_range, fun i hi => List.mem_range.1 hi⟩
  -- one statement for both branches
  have key : ∃ (s : SubArrays K) (out : SubOutput K), findSubClusters sortRow lam wt o n tree lab probs nb core mst lens = some out ∧
      (out.labels.length = n ∧ out.probs.length = n ∧ out.clusterLabels.length = n ∧ out.clusterProbs.length = n ∧ out.subLabels.length = n ∧
        out.subProbs.length = n) ∧
      (∀ i, i < n → i ∉ idx → out.labels[i]? = some (-1) ∧ out.probs[i]? = some 0 ∧ out.clusterLabels[i]? = some (-1) ∧
        out.clusterProbs[i]? = some 0 ∧ out.subLabels[i]? = some 0 ∧ out.subProbs[i]? = some 1) ∧
      (∀ k i : ℕ, idx[k]? = some i → out.labels[i]? = some (s.labels k) ∧ out.probs[i]? = some (s.probs k) ∧
        out.clusterLabels[i]? = some (lab i) ∧ out.clusterProbs[i]? = some (probs i) ∧ out.subLabels[i]? = some (s.subLabels k) ∧
        out.subProbs[i]? = some (s.subProbs k)) ∧
      (∀ k i : ℕ, idx[k]? = some i → lab i = -1 → s.labels k = -1 ∧ s.probs k = probs i ∧ s.subLabels k = 0 ∧ s.subProbs k = 0) ∧
      (∀ k i : ℕ, idx[k]? = some i → lab i ≠ -1 → 0 ≤ s.labels k ∧ -1 ≤ s.subLabels k ∧ s.probs k = (probs i + s.subProbs k) / 2 ∧
        0 ≤ s.subProbs k ∧ s.subProbs k ≤ 1) ∧
      (∀ k i : ℕ, idx[k]? = some i → ∀ m j : ℕ, idx[m]? = some j → lab i ≠ -1 → lab j ≠ -1 →
        (s.labels k = s.labels m ↔ lab i = lab j ∧ s.subLabels k = s.subLabels m)) ∧
      ∀ c < num, SubResult lam (atFinite idx wt) o idx.length (atFinite idx lab) nb mst (lens c) c s.subLabels s.subProbs := by
    rcases hrec with hrec | ⟨hrec, hir⟩
    · obtain ⟨s, s1, s2, s3, s4, s5⟩ := C78_sub_clusters_partial h hnum hs lam hlam hpos (atFinite idx wt) o h1 (fun x hx => h0 _ (hw x hx).2)
        (fun x hx => hl _ (hw x hx).2) core (atFinite idx probs) lens hlens
        (hok.imp_right fun ⟨out, ho⟩ => by
          unfold findSubClusters at ho; rw [hrec] at ho; exact (Option.map_eq_some_iff.1 ho).imp fun _ h => h.1)
      have hat : ∀ k i : ℕ, idx[k]? = some i → atFinite idx lab k = lab i ∧ atFinite idx probs k = probs i := fun k i hk => by
        unfold atFinite; rw [(hget k i hk).2]; exact ⟨rfl, rfl⟩
      refine ⟨s, _, by unfold findSubClusters; rw [hrec]; simp only; rw [s1, Option.map_some], ?_⟩
      obtain ⟨r1, r2, r3⟩ := C77_remap n idx hrange.1 hrange.2
        (⟨(List.range idx.length).map s.labels, (List.range idx.length).map s.probs, (List.range idx.length).map (atFinite idx lab),
          (List.range idx.length).map (atFinite idx probs), (List.range idx.length).map s.subLabels, (List.range idx.length).map s.subProbs⟩ :
          SubOutput K) (by simp) (by simp) (by simp) (by simp) (by simp) (by simp)
      refine ⟨r1, r2, fun k i hk => ?_, fun k i hk hn => ?_, fun k i hk hn => ?_, fun k i hk m j hm hi hj => ?_, s5⟩
      · have hkn := (hget k i hk).1
        obtain ⟨q1, q2, q3, q4, q5, q6⟩ := r3 k i hk
        rw [q1, q2, q3, q4, q5, q6]
        simp [hkn, hat k i hk]
      · have := s2 k (hget k i hk).1 ((hat k i hk).1.trans hn)
        rwa [(hat k i hk).2] at this
      · have := s3 k (hget k i hk).1 (by rw [(hat k i hk).1]; exact hn)
        rw [(hat k i hk).2] at this
        exact ⟨this.1, this.2.1, this.2.2.1, this.2.2.2.1, this.2.2.2.2.1⟩
      · have := s4 k (hget k i hk).1 m (hget m j hm).1 (by rw [(hat k i hk).1]; exact hi) (by rw [(hat m j hm).1]; exact hj)
        rwa [(hat k i hk).1, (hat m j hm).1] at this
    · subst hir
      have hlen : (List.range n).length = n := List.length_range
      have hki : ∀ k i : ℕ, (List.range n)[k]? = some i → k = i ∧ i < n := by
        intro k i hk
        obtain ⟨a, b⟩ := List.getElem?_eq_some_iff.1 hk
        rw [List.getElem_range] at b
        exact ⟨b, by rw [← b]; simpa using a⟩
      rw [hlen] at h
      have h := h.congr (lab' := lab) fun i hi => by unfold atFinite; simp [List.getD_eq_getElem?_getD, hi]
      obtain ⟨s, s1, s2, s3, s4, s5⟩ := C78_sub_clusters_partial h hnum hs lam hlam hpos wt o h1 (fun x hx => h0 _ (List.mem_range.2 hx))
        (fun x hx => hl _ (List.mem_range.2 hx)) core probs lens hlens
        (hok.imp_right fun ⟨out, ho⟩ => by
          unfold findSubClusters at ho; rw [hrec] at ho; exact (Option.map_eq_some_iff.1 ho).imp fun _ h => h.1)
      refine ⟨s, _, by unfold findSubClusters; rw [hrec]; simp only; rw [s1, Option.map_some], ?_⟩
      refine ⟨by simp, fun i hi hni => absurd (List.mem_range.2 hi) hni, fun k i hk => ?_, fun k i hk hn => ?_, fun k i hk hn => ?_,
        fun k i hk m j hm hi hj => ?_, fun c hc => ?_⟩
      · obtain ⟨rfl, hin⟩ := hki k i hk
        simp [hin]
      · obtain ⟨rfl, hin⟩ := hki k i hk
        exact s2 k hin hn
      · obtain ⟨rfl, hin⟩ := hki k i hk
        obtain ⟨a, b, c, d, e, _⟩ := s3 k hin hn
        exact ⟨a, b, c, d, e⟩
      · obtain ⟨rfl, hin⟩ := hki k i hk
        obtain ⟨rfl, hjn⟩ := hki m j hm
        exact s4 k hin m hjn hi hj
      · rw [hlen]
        obtain ⟨i, j, _, hj, _⟩ := h.two c hc
        refine (s5 c hc).congr (by omega) (fun i hi => ?_) (fun i hi => ?_) (fun _ _ => rfl) fun _ _ => rfl <;>
          · unfold atFinite; simp [List.getD_eq_getElem?_getD, hi]
  obtain ⟨s, out, e, k1, k2, k3, k4, k5, k6, k7⟩ := key
  refine ⟨out, e, k1, k2, fun i hi => ?_, fun i hi hn => ?_, fun i hi hn => ?_, fun i hi j hj hn hm => ?_, fun c hc => ?_⟩
  · obtain ⟨k, hk⟩ := List.mem_iff_getElem?.1 hi
    exact ⟨hrange.2 i hi, (k3 k i hk).2.2.1, (k3 k i hk).2.2.2.1⟩
  · obtain ⟨k, hk⟩ := List.mem_iff_getElem?.1 hi
    obtain ⟨a, b, _, _, c, d⟩ := k3 k i hk
    obtain ⟨a', b', c', d'⟩ := k4 k i hk hn
    rw [a, b, c, d, a', b', c', d']; exact ⟨rfl, rfl, rfl, rfl⟩
  · obtain ⟨k, hk⟩ := List.mem_iff_getElem?.1 hi
    obtain ⟨a, b, _, _, c, d⟩ := k3 k i hk
    obtain ⟨a', b', c', d', e'⟩ := k5 k i hk hn
    exact ⟨_, _, _, a', b', d', e', a, c, d, by rw [b, c']⟩
  · obtain ⟨k, hk⟩ := List.mem_iff_getElem?.1 hi
    obtain ⟨m, hm'⟩ := List.mem_iff_getElem?.1 hj
    rw [(k3 k i hk).1, (k3 m j hm').1, (k3 k i hk).2.2.2.2.1, (k3 m j hm').2.2.2.2.1, Option.some.injEq, Option.some.injEq]
    exact k6 k i hk m j hm' hn hm
  · obtain ⟨i, j, _, hj, _⟩ := h.two c hc
    refine (k7 c hc).congr (by omega) (fun _ _ => rfl) (fun _ _ => rfl) (fun k hk => ?_) fun k hk => ?_
    · have e := List.getElem?_eq_getElem hk
      rw [(hget _ _ e).2, List.getD_eq_getElem?_getD, (k3 _ _ e).2.2.2.2.1]; rfl
    · have e := List.getElem?_eq_getElem hk
      rw [(hget _ _ e).2, List.getD_eq_getElem?_getD, (k3 _ _ e).2.2.2.2.2]; rfl

end

/-! ## Concrete cases and counterexamples -/

/-- Seven samples: two pairs that form one cluster, another pair, and noise. -/
def exLab7 (i : ℕ) : ℤ := [0, 0, 0, 0, 1, 1, -1].getD i (-1)

/-- Their neighbours; one is missing. -/
def exNb7 (i : ℕ) : List (Option ℕ) := [[some 1], [some 0], [some 3], [some 2], [some 5], [some 4, none], [some 0]].getD i []

/-- A spanning tree in which the two pairs are not joined inside their cluster. -/
def exTree7 : List (Edge ℕ) := [⟨0, 1, 1⟩, ⟨2, 3, 1⟩, ⟨4, 5, 1⟩, ⟨1, 6, 4⟩, ⟨6, 2, 4⟩, ⟨6, 4, 9⟩]

theorem exSub7 : SubInput 7 2 exLab7 exNb7 exTree7 := by
  refine ⟨by decide, fun c hc => ?_, fun p hp q hq => ?_, by decide, fun p hp => ?_, fun p hp h0 => ?_⟩
  · interval_cases c
    · exact ⟨0, 1, by decide⟩
    · exact ⟨4, 5, by decide⟩
  · interval_cases p <;> simp [exNb7] at hq <;> omega
  · interval_cases p <;> simp [exNb7, exLab7]
  · have hq : ∃ q, q < 7 ∧ exLab7 q = exLab7 p ∧ some q ∈ exNb7 p := by
      interval_cases p
      · exact ⟨1, by decide⟩
      · exact ⟨0, by decide⟩
      · exact ⟨3, by decide⟩
      · exact ⟨2, by decide⟩
      · exact ⟨5, by decide⟩
      · exact ⟨4, by decide⟩
      · exact absurd h0 (by decide)
    obtain ⟨q, h1, h2, h3⟩ := hq
    exact ⟨q, hp, h1, rfl, h2, .inl h3⟩

/-- The two pairs become sub-clusters 0 and 1 of the first cluster; the second cluster is one piece and too small to split. -/
example : ∃ s, subClustersFinite stableRowsQ lamq (fun _ => 1) (exOpts .eom 0) 7 exLab7 (fun _ => 1) exNb7 (fun _ => 0) exTree7
      (fun _ i => ((i + 1 : ℚ) : WithTop ℚ)) = some s ∧ (List.range 7).map s.labels = [0, 0, 1, 1, 2, 2, -1] ∧
    ∀ c < 2, SubResult lamq (fun _ => 1) (exOpts .eom 0) 7 exLab7 exNb7 exTree7 (fun i => ((i + 1 : ℚ) : WithTop ℚ)) c s.subLabels s.subProbs := by
  obtain ⟨s, h1, _, _, _, h5⟩ := C78_sub_clusters_partial exSub7 (by decide) stableRowsQ_sorts lamq lamq_antitone lamq_nonneg (fun _ => 1) (exOpts .eom 0)
    (by decide) (by decide) (by decide) (fun _ => 0) (fun _ => 1) (fun _ i => ((i + 1 : ℚ) : WithTop ℚ)) (fun _ i => by
      show (0 : ℚ) < if ((i + 1 : ℚ)) ≤ 1 / 1000 then 1000 else 1 / (i + 1 : ℚ)
      split <;> positivity) (.inl ⟨by decide, rfl⟩)
  refine ⟨s, h1, ?_, h5⟩
  have : (subClustersFinite stableRowsQ lamq (fun _ => 1) (exOpts .eom 0) 7 exLab7 (fun _ => 1) exNb7 (fun _ => 0) exTree7
      (fun _ i => ((i + 1 : ℚ) : WithTop ℚ))).map (fun s => (List.range 7).map s.labels) = some [0, 0, 1, 1, 2, 2, -1] := by decide +kernel
  rw [h1, Option.map_some, Option.some.injEq] at this
  exact this

/-- The same with a largest cluster size that both pieces exceed. -/
example : ∃ s, subClustersFinite stableRowsQ lamq (fun _ => 1) { exOpts .eom 0 with maxClusterSize := some 1 } 7 exLab7 (fun _ => 1) exNb7 (fun _ => 0) exTree7
      (fun _ i => ((i + 1 : ℚ) : WithTop ℚ)) = some s ∧ ∀ c < 2, SubResult lamq (fun _ => 1) { exOpts .eom 0 with maxClusterSize := some 1 } 7 exLab7 exNb7 exTree7
        (fun i => ((i + 1 : ℚ) : WithTop ℚ)) c s.subLabels s.subProbs := by
  have hd : (subClustersFinite stableRowsQ lamq (fun _ => 1) { exOpts .eom 0 with maxClusterSize := some 1 } 7 exLab7 (fun _ => 1) exNb7 (fun _ => 0) exTree7
      (fun _ i => ((i + 1 : ℚ) : WithTop ℚ))).isSome = true := by decide +kernel
  obtain ⟨s, h1, _, _, _, h5⟩ := C78_sub_clusters_partial exSub7 (by decide) stableRowsQ_sorts lamq lamq_antitone lamq_nonneg (fun _ => 1)
    { exOpts .eom 0 with maxClusterSize := some 1 } (by decide) (by decide) (by decide) (fun _ => 0) (fun _ => 1) (fun _ i => ((i + 1 : ℚ) : WithTop ℚ))
    (fun _ i => by
      show (0 : ℚ) < if ((i + 1 : ℚ)) ≤ 1 / 1000 then 1000 else 1 / (i + 1 : ℚ)
      split <;> positivity) (.inr (Option.isSome_iff_exists.1 hd))
  exact ⟨s, h1, h5⟩

/-- **C78** fails for a cluster of one sample, as given labels may have: clustering an empty spanning tree raises an error. -/
theorem C78_single_sample : subClustersFinite stableRowsQ lamq (fun _ => 1) (exOpts .eom 0) 3 (fun i => [0, 1, 1].getD i (-1)) (fun _ => 1)
    (fun i => [[some 1], [some 2], [some 1]].getD i []) (fun _ => 0) [⟨1, 2, 1⟩, ⟨0, 1, 2⟩] (fun _ _ => ((1 : ℚ) : WithTop ℚ)) = none := by
  decide +kernel

/-- **C78** fails if a number below the largest label is not used. -/
theorem C78_unused_label : subClustersFinite stableRowsQ lamq (fun _ => 1) (exOpts .eom 0) 2 (fun _ => 1) (fun _ => 1)
    (fun i => [[some 1], [some 0]].getD i []) (fun _ => 0) [⟨0, 1, 1⟩] (fun _ _ => ((1 : ℚ) : WithTop ℚ)) = none := by
  decide +kernel

/-- **C78** fails if all finite rows are noise: the labels of rows with NaN count for the check of labels, but not here. -/
theorem C78_no_cluster : subClustersFinite stableRowsQ lamq (fun _ => 1) (exOpts .eom 0) 2 (fun _ => -1) (fun _ => 1)
    (fun i => [[some 1], [some 0]].getD i []) (fun _ => 0) [⟨0, 1, 1⟩] (fun _ _ => ((1 : ℚ) : WithTop ℚ)) = none := by
  decide +kernel

end Verif
