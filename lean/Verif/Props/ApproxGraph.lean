import Verif.Props.Branches

/-!
# C89: the edges of `approximation_graph_`; C87: when propagation succeeds
-/

namespace Verif
variable {W D K V : Type*}

section
variable [LinearOrder W] [LinearOrder D]

/-- The entries of the core graph. -/
theorem mem_edgeList {M : ℕ} {nb : ℕ → List (Option ℕ)} {core : ℕ → D} {mst : List (Edge D)} {lens : ℕ → W} {g : LensCsr W D}
    (hg : LensGraphOf M nb core mst lens g) {u v : ℕ} {w : W} {d : D} :
    (u, v, w, d) ∈ coreGraphEdgeList M g ↔ u < M ∧ w = max (lens u) (lens v) ∧ (some v ∈ nb u ∨ ∃ e ∈ mst, e.u = u ∧ e.v = v) ∧
      (some v ∈ nb u → d = max (core u) (core v)) ∧ (some v ∉ nb u → (mst.find? fun e => e.u = u ∧ e.v = v).map Edge.w = some d) := by
  rw [C70_edge_list hg, List.mem_flatMap]
  constructor
  · rintro ⟨u', hu', hm⟩
    obtain ⟨⟨v', w', d'⟩, hm', he⟩ := List.mem_map.1 hm
    simp only [Prod.mk.injEq] at he
    obtain ⟨rfl, rfl, rfl, rfl⟩ := he
    clear hm
    have hm := hm'
    have hu := List.mem_range.1 hu'
    exact ⟨hu, hg.weight _ hu _ _ _ hm, (hg.mem _ hu _).1 (List.mem_map_of_mem (f := Prod.fst) hm), hg.distKnn _ hu _ _ _ hm, hg.distMst _ hu _ _ _ hm⟩
  · rintro ⟨hu, hw, hl, h1, h2⟩
    obtain ⟨⟨v', w', d'⟩, hm, rfl⟩ := List.mem_map.1 ((hg.mem u hu v).2 hl)
    refine ⟨u, List.mem_range.2 hu, List.mem_map.2 ⟨_, hm, ?_⟩⟩
    simp only at h1 h2 hw ⊢
    have e1 : w' = w := (hg.weight _ hu _ _ _ hm).trans hw.symm
    have e2 : d' = d := by
      by_cases hk : some v' ∈ nb u
      · exact (hg.distKnn _ hu _ _ _ hm hk).trans (h1 hk).symm
      · exact Option.some.inj ((hg.distMst _ hu _ _ _ hm hk).symm.trans (h2 hk))
    rw [e1, e2]

/-- No pair of samples occurs twice. -/
theorem edgeList_nodup {M : ℕ} {nb : ℕ → List (Option ℕ)} {core : ℕ → D} {mst : List (Edge D)} {lens : ℕ → W} {g : LensCsr W D}
    (hg : LensGraphOf M nb core mst lens g) : ((coreGraphEdgeList M g).map fun e => (e.1, e.2.1)).Nodup := by
  rw [C70_edge_list hg, List.map_flatMap, List.nodup_flatMap]
  constructor
  · intro u hu
    rw [List.map_map]
    have := (hg.once u (List.mem_range.1 hu)).map (f := fun v => (u, v)) fun a b hab => by simpa using hab
    rwa [List.map_map] at this
  · refine List.nodup_range.imp fun {a b} hab => ?_
    intro x hx hy
    beta_reduce at hx hy
    rw [List.map_map] at hx hy
    obtain ⟨y, _, rfl⟩ := List.mem_map.1 hx
    obtain ⟨z, _, hz⟩ := List.mem_map.1 hy
    simp only [Function.comp, Prod.mk.injEq] at hz
    exact hab hz.1.symm

omit [LinearOrder W] [LinearOrder D] in
/-- The first tree edge between two samples of a cluster. -/
theorem inClusterMst_find {N : ℕ} {lab : ℕ → ℤ} {c : ℤ} {mst : List (Edge D)} (hr : ∀ e ∈ mst, e.u < N ∧ e.v < N) {k l p q : ℕ}
    (hp : (clusterPoints N lab c)[k]? = some p) (hq : (clusterPoints N lab c)[l]? = some q) :
    ((inClusterMst lab c (clusterPoints N lab c) mst).find? fun e => e.u = k ∧ e.v = l).map Edge.w =
      (mst.find? fun e => e.u = p ∧ e.v = q).map Edge.w := by
  have hnd : (clusterPoints N lab c).Nodup := (clusterPoints_asc N lab c).imp fun h => h.ne
  obtain ⟨_, p2⟩ := clusterPoints_get hp
  obtain ⟨_, q2⟩ := clusterPoints_get hq
  have hid : ∀ x k p, x < N → lab x = c → (clusterPoints N lab c)[k]? = some p → ((inClusterIds (clusterPoints N lab c) x).getD 0 = k ↔ x = p) := by
    intro x k p hx hl hp
    obtain ⟨m, hm⟩ := List.mem_iff_getElem?.1 (mem_clusterPoints.2 ⟨hx, hl⟩)
    rw [(inClusterIds_iff hnd _ _).2 hm]
    constructor
    · rintro rfl
      exact Option.some.inj (hm.symm.trans hp)
    · rintro rfl
      exact clusterPoints_inj hm hp
  unfold inClusterMst
  rw [List.find?_map, List.find?_filter, Option.map_map]
  have : mst.find? (fun e => decide (e.u = p ∧ e.v = q)) = mst.find? fun e => decide (decide (lab e.u = c ∧ lab e.v = c) = true ∧
      ((fun e : Edge D => decide (e.u = k ∧ e.v = l)) ∘ fun e : Edge D => ⟨(inClusterIds (clusterPoints N lab c) e.u).getD 0,
        (inClusterIds (clusterPoints N lab c) e.v).getD 0, e.w⟩) e = true) := by
    refine List.find?_congr fun e he => ?_
    obtain ⟨h1, h2⟩ := hr e he
    rw [Bool.eq_iff_iff]
    simp only [Function.comp, decide_eq_true_eq]
    constructor
    · rintro ⟨rfl, rfl⟩
      exact ⟨⟨p2, q2⟩, (hid _ _ _ h1 p2 hp).2 rfl, (hid _ _ _ h2 q2 hq).2 rfl⟩
    · rintro ⟨⟨a, b⟩, a', b'⟩
      exact ⟨(hid _ _ _ h1 a hp).1 a', (hid _ _ _ h2 b hq).1 b'⟩
  rw [this]
  rfl

end

section
variable [Field K] [LinearOrder K] [IsStrictOrderedRing K] [LinearOrder W] [OrderTop W] [Inhabited W] [LinearOrder D] [Inhabited K]

/-- The core graph of cluster `c`, for samples numbered as kept. -/
def clusterGraph (sortRow : LensRow W D → LensRow W D) (N : ℕ) (lab : ℕ → ℤ) (nb : ℕ → List (Option ℕ)) (core : ℕ → D) (mst : List (Edge D)) (lens : ℕ → ℕ → W)
    (c : ℕ) : LensCsr W D :=
  lensGraph sortRow (clusterPoints N lab c).length (inClusterNeighbors N (clusterPoints N lab c) nb) (fun i => core ((clusterPoints N lab c).getD i 0))
    (inClusterMst lab c (clusterPoints N lab c) mst) (lens c)

omit [OrderTop W] [Inhabited W] in
theorem SubInput.mem_graph {N num : ℕ} {lab : ℕ → ℤ} {nb : ℕ → List (Option ℕ)} {mst : List (Edge D)} (h : SubInput N num lab nb mst)
    {sortRow : LensRow W D → LensRow W D} (hs : SortsRows sortRow) (core : ℕ → D) (lens : ℕ → ℕ → W) {c k l p q : ℕ}
    (hp : (clusterPoints N lab c)[k]? = some p) (hq : (clusterPoints N lab c)[l]? = some q) (w : W) (d : D) :
    (k, l, w, d) ∈ coreGraphEdgeList (clusterPoints N lab c).length (clusterGraph sortRow N lab nb core mst lens c) ↔
      ClusterLink N lab nb mst c p q ∧ w = max (lens c k) (lens c l) ∧ (some q ∈ nb p → d = max (core p) (core q)) ∧
      (some q ∉ nb p → (mst.find? fun e => e.u = p ∧ e.v = q).map Edge.w = some d) := by
  obtain ⟨p1, p2⟩ := clusterPoints_get hp
  have hnb : some l ∈ inClusterNeighbors N (clusterPoints N lab c) nb k ↔ some q ∈ nb p := by
    rw [C73_neighbours_partial hp (fun hm => p2 ▸ h.missing p p1 hm (by omega))]
    constructor
    · rintro ⟨q', hm, hq'⟩
      rw [hq, Option.some.injEq] at hq'
      rwa [hq']
    · exact fun hm => ⟨q, hm, hq⟩
  unfold clusterGraph
  rw [mem_edgeList (C70_core_graph hs _ _ _ _ _), h.link_iff hp hq, hnb,
    inClusterMst_find (fun e he => ⟨(h.tree e he).1, (h.tree e he).2.1⟩) hp hq]
  have e1 : (clusterPoints N lab c).getD k 0 = p := by rw [List.getD_eq_getElem?_getD, hp]; rfl
  have e2 : (clusterPoints N lab c).getD l 0 = q := by rw [List.getD_eq_getElem?_getD, hq]; rfl
  rw [e1, e2]
  have hk := (List.getElem?_eq_some_iff.1 hp).1
  constructor
  · rintro ⟨_, a, b, c, d⟩; exact ⟨b, a, c, d⟩
  · rintro ⟨b, a, c, d⟩; exact ⟨hk, a, b, c, d⟩

omit [OrderTop W] [Inhabited W] in
theorem SubInput.graph_range {N num : ℕ} {lab : ℕ → ℤ} {nb : ℕ → List (Option ℕ)} {mst : List (Edge D)} (h : SubInput N num lab nb mst)
    {sortRow : LensRow W D → LensRow W D} (hs : SortsRows sortRow) (core : ℕ → D) (lens : ℕ → ℕ → W) {c : ℕ} {e : ℕ × ℕ × W × D}
    (he : e ∈ coreGraphEdgeList (clusterPoints N lab c).length (clusterGraph sortRow N lab nb core mst lens c)) :
    e.1 < (clusterPoints N lab c).length ∧ e.2.1 < (clusterPoints N lab c).length := by
  obtain ⟨u, v, w, d⟩ := e
  obtain ⟨h1, _, h2, _⟩ := (mem_edgeList (C70_core_graph hs _ _ _ _ _)).1 he
  refine ⟨h1, ?_⟩
  have hin := h.lensInput (c := c)
  rcases h2 with h2 | ⟨e, he', _, rfl⟩
  · exact (hin.knn u h1 v h2).1
  · exact (hin.mst e he').2.1

omit [IsStrictOrderedRing K] in
/-- The samples and core graphs of a fit. -/
theorem SubInput.fit_graphs [LinearOrder V] [Add V] {inv : W → Option V} {zero : V} {n num : ℕ} {tree : List (CRow K K)} {idx : List ℕ}
    (hrec : recoverFinite n tree = some idx ∨ (recoverFinite n tree = none ∧ idx = List.range n))
    {lab : ℕ → ℤ} {nb : ℕ → List (Option ℕ)} {mst : List (Edge D)} (h : SubInput idx.length num (atFinite idx lab) nb mst)
    (hnum : 0 < num) {sortRow : LensRow W D → LensRow W D} {lam : W → K} {wt : ℕ → K} {o : ClusterOpts K} {core : ℕ → D} {probs : ℕ → K}
    {lens : ℕ → ℕ → W} {prop : Bool} {f : DetectorFit W D K} (hf : detectorFit inv zero prop sortRow lam wt o n tree lab probs nb core mst lens = some f) :
    (f.clusters.map fun c => (c.points, c.graph)) =
      (List.range num).map fun c : ℕ => (rowsIn idx lab c, clusterGraph sortRow idx.length (atFinite idx lab) nb core mst lens c) := by
  have key : ∀ {N : ℕ} {lab : ℕ → ℤ} {wt probs : ℕ → K} {f : DetectorFit W D K}, SubInput N num lab nb mst →
      detectorFinite inv zero prop sortRow lam wt o N lab probs nb core mst lens = some f →
      (f.clusters.map fun c => (c.points, c.graph)) =
        (List.range num).map fun c : ℕ => (clusterPoints N lab c, clusterGraph sortRow N lab nb core mst lens c) := by
    intro N lab wt probs f h hf
    unfold detectorFinite subClustersOf at hf
    rw [h.numClusters hnum, Option.bind_some, if_neg (by omega)] at hf
    obtain ⟨cs, hcs, hf⟩ := Option.bind_eq_some_iff.1 hf
    obtain ⟨s, _, rfl⟩ := Option.map_eq_some_iff.1 hf
    refine mapM_map (fun c y hy => ?_) _ _ hcs
    unfold subClusterOf at hy
    obtain ⟨r, _, rfl⟩ := Option.map_eq_some_iff.1 hy
    rfl
  unfold detectorFit at hf
  rcases hrec with hrec | ⟨hrec, hir⟩
  · rw [hrec] at hf
    simp only at hf
    obtain ⟨g, hg, rfl⟩ := Option.map_eq_some_iff.1 hf
    have := congrArg (List.map fun p : List ℕ × LensCsr W D => (remapPoints idx p.1, p.2)) (key h hg)
    rw [List.map_map, List.map_map] at this
    simp only
    rw [List.map_map]
    refine Eq.trans this (List.map_congr_left fun c _ => ?_)
    simp only [Function.comp, remap_clusterPoints]
  · subst hir
    rw [hrec] at hf
    have hat : ∀ p < n, atFinite (List.range n) lab p = lab p := fun p hp => by
      unfold atFinite; simp [List.getD_eq_getElem?_getD, hp]
    have hlen : (List.range n).length = n := List.length_range
    rw [hlen] at h ⊢
    have h' := h.congr (lab' := lab) hat
    rw [key h' hf]
    refine List.map_congr_left fun c _ => ?_
    have hpt : clusterPoints n (atFinite (List.range n) lab) c = clusterPoints n lab c := by
      unfold clusterPoints
      refine List.filter_congr fun i hi => ?_
      rw [hat i (List.mem_range.1 hi)]
    have hm : inClusterMst (atFinite (List.range n) lab) c (clusterPoints n lab c) mst = inClusterMst lab c (clusterPoints n lab c) mst := by
      unfold inClusterMst
      congr 1
      refine List.filter_congr fun e he => ?_
      rw [hat _ (h.tree e he).1, hat _ (h.tree e he).2.1]
    unfold clusterGraph
    rw [hpt, hm]
    rfl

omit [IsStrictOrderedRing K] in
/-- **C89**: `approximation_graph_` has one list of edges for each cluster.  The list of cluster `c` has an edge from row `i` to row `j`, once, exactly if both are
in the cluster and `j` is a neighbour of `i` or joined to it by a tree edge; its weight is the larger lens value, its distance the larger core distance, or that of
the tree edge if `j` is not a neighbour. -/
theorem C89_approximation_graph [LinearOrder V] [Add V] {inv : W → Option V} {zero : V} {n num : ℕ} {tree : List (CRow K K)} {idx : List ℕ}
    (hrec : recoverFinite n tree = some idx ∨ (recoverFinite n tree = none ∧ idx = List.range n))
    {lab : ℕ → ℤ} {nb : ℕ → List (Option ℕ)} {mst : List (Edge D)} (h : SubInput idx.length num (atFinite idx lab) nb mst)
    (hnum : 0 < num) {sortRow : LensRow W D → LensRow W D} (hs : SortsRows sortRow) {lam : W → K} {wt : ℕ → K} {o : ClusterOpts K} {core : ℕ → D} {probs : ℕ → K}
    {lens : ℕ → ℕ → W} {prop : Bool} {f : DetectorFit W D K} (hf : detectorFit inv zero prop sortRow lam wt o n tree lab probs nb core mst lens = some f) :
    f.approximationEdges.length = num ∧ ∀ (c : ℕ) (es : List (ℕ × ℕ × W × D)), f.approximationEdges[c]? = some es →
      (es.map fun e => (e.1, e.2.1)).Nodup ∧
      ∀ i j w d, (i, j, w, d) ∈ es ↔ ∃ p q k l, idx[p]? = some i ∧ idx[q]? = some j ∧
        (rowsIn idx lab c)[k]? = some i ∧ (rowsIn idx lab c)[l]? = some j ∧ ClusterLink idx.length (atFinite idx lab) nb mst c p q ∧
        w = max (lens c k) (lens c l) ∧ (some q ∈ nb p → d = max (core p) (core q)) ∧
        (some q ∉ nb p → (mst.find? fun e => e.u = p ∧ e.v = q).map Edge.w = some d) := by
  have hnd : idx.Nodup := by
    rcases hrec with hrec | ⟨_, rfl⟩
    · exact (recoverFinite_rows hrec).1.imp fun h => h.ne
    · exact List.nodup_range
  have he : f.approximationEdges = (List.range num).map fun c : ℕ =>
      (coreGraphEdgeList (rowsIn idx lab c).length (clusterGraph sortRow idx.length (atFinite idx lab) nb core mst lens c)).map fun e =>
        ((rowsIn idx lab c).getD e.1 0, (rowsIn idx lab c).getD e.2.1 0, e.2.2) := by
    have := congrArg (List.map fun p : List ℕ × LensCsr W D => (coreGraphEdgeList p.1.length p.2).map fun e =>
      (p.1.getD e.1 0, p.1.getD e.2.1 0, e.2.2)) (h.fit_graphs hrec hnum hf)
    rw [List.map_map, List.map_map] at this
    exact this
  refine ⟨by rw [he]; simp, fun c es hes => ?_⟩
  rw [he, List.getElem?_map, Option.map_eq_some_iff] at hes
  obtain ⟨c', hc', rfl⟩ := hes
  obtain ⟨hcn, hcc⟩ := List.getElem?_eq_some_iff.1 hc'
  rw [List.getElem_range] at hcc
  subst hcc
  set P := clusterPoints idx.length (atFinite idx lab) c with hP
  have hrows : rowsIn idx lab c = P.map fun k => idx.getD k 0 := (remap_clusterPoints idx lab c).symm
  have hlen : (rowsIn idx lab c).length = P.length := by rw [hrows]; simp
  have hrow : ∀ k p : ℕ, P[k]? = some p → ∃ i, idx[p]? = some i ∧ (rowsIn idx lab c)[k]? = some i := by
    intro k p hp
    have hpl := (clusterPoints_get hp).1
    exact ⟨idx.getD p 0, by rw [List.getD_eq_getElem?_getD, List.getElem?_eq_getElem hpl]; rfl, by rw [hrows, List.getElem?_map, hp]; rfl⟩
  have hback : ∀ k i : ℕ, (rowsIn idx lab c)[k]? = some i → ∃ p, P[k]? = some p ∧ idx[p]? = some i := by
    intro k i hk
    have hk' : k < P.length := by rw [← hlen]; exact (List.getElem?_eq_some_iff.1 hk).1
    obtain ⟨i', h1, h2⟩ := hrow k _ (List.getElem?_eq_getElem hk')
    rw [h2, Option.some.injEq] at hk
    exact ⟨_, List.getElem?_eq_getElem hk', hk ▸ h1⟩
  have hinj : ∀ k l i : ℕ, (rowsIn idx lab c)[k]? = some i → (rowsIn idx lab c)[l]? = some i → k = l := by
    intro k l i hk hl
    have hn : (rowsIn idx lab c).Nodup := hnd.filter _
    exact (List.getElem?_inj (List.getElem?_eq_some_iff.1 hk).1 hn).1 (hk.trans hl.symm)
  have hpos : ∀ p q i : ℕ, idx[p]? = some i → idx[q]? = some i → p = q := fun p q i hp hq =>
    (List.getElem?_inj (List.getElem?_eq_some_iff.1 hp).1 hnd).1 (hp.trans hq.symm)
  have hget : ∀ k i : ℕ, (rowsIn idx lab c)[k]? = some i → (rowsIn idx lab c).getD k 0 = i := fun k i hk => by
    rw [List.getD_eq_getElem?_getD, hk]; rfl
  constructor
  · rw [List.map_map, hlen]
    have := edgeList_nodup (C70_core_graph hs P.length (inClusterNeighbors idx.length P nb) (fun i => core (P.getD i 0))
      (inClusterMst (atFinite idx lab) c P mst) (lens c))
    have h2 := this.map_on (f := fun x : ℕ × ℕ => ((rowsIn idx lab c).getD x.1 0, (rowsIn idx lab c).getD x.2 0)) (by
      rintro x hx y hy hxy
      obtain ⟨e, he, rfl⟩ := List.mem_map.1 hx
      obtain ⟨e', he', rfl⟩ := List.mem_map.1 hy
      obtain ⟨a, b⟩ := h.graph_range (c := c) hs core lens he
      obtain ⟨a', b'⟩ := h.graph_range (c := c) hs core lens he'
      rw [← hP, ← hlen] at a b a' b'
      simp only [Prod.mk.injEq] at hxy ⊢
      have g : ∀ k l, k < (rowsIn idx lab c).length → l < (rowsIn idx lab c).length →
          (rowsIn idx lab c).getD k 0 = (rowsIn idx lab c).getD l 0 → k = l := by
        intro k l hk hl hkl
        refine hinj k l _ (List.getElem?_eq_getElem hk) ?_
        rw [List.getD_eq_getElem?_getD, List.getD_eq_getElem?_getD, List.getElem?_eq_getElem hk, List.getElem?_eq_getElem hl] at hkl
        rw [List.getElem?_eq_getElem hl]
        exact congrArg some hkl.symm
      exact ⟨g _ _ a a' hxy.1, g _ _ b b' hxy.2⟩)
    rw [List.map_map] at h2
    exact h2
  · intro i j w d
    rw [hlen, List.mem_map]
    constructor
    · rintro ⟨⟨k, l, w', d'⟩, hm, he⟩
      simp only [Prod.mk.injEq] at he
      obtain ⟨hi, hj, rfl, rfl⟩ := he
      obtain ⟨a, b⟩ := h.graph_range (c := c) hs core lens hm
      obtain ⟨i', i1, i2⟩ := hrow k _ (List.getElem?_eq_getElem a)
      obtain ⟨j', j1, j2⟩ := hrow l _ (List.getElem?_eq_getElem b)
      rw [hget k _ i2] at hi
      rw [hget l _ j2] at hj
      subst hi hj
      exact ⟨_, _, k, l, i1, j1, i2, j2, (h.mem_graph hs core lens (List.getElem?_eq_getElem a) (List.getElem?_eq_getElem b) _ _).1 hm⟩
    · rintro ⟨p, q, k, l, i1, j1, i2, j2, hh⟩
      obtain ⟨p', hp', hpi⟩ := hback k i i2
      obtain ⟨q', hq', hqj⟩ := hback l j j2
      obtain rfl := hpos _ _ _ hpi i1
      obtain rfl := hpos _ _ _ hqj j1
      exact ⟨(k, l, w, d), (h.mem_graph hs core lens hp' hq' _ _).2 hh, by simp only [hget k i i2, hget l j j2]⟩

/-! ## Propagation -/

omit [OrderTop W] [Inhabited W] in
theorem mem_graph_edges {M : ℕ} {nb : ℕ → List (Option ℕ)} {core : ℕ → D} {mst : List (Edge D)} {lens : ℕ → W} {g : LensCsr W D} (hin : LensInput M nb mst)
    (hg : LensGraphOf M nb core mst lens g) {e : Edge W} :
    e ∈ ((coreGraphEdgeList M g).map fun e => (⟨e.1, e.2.1, e.2.2.1⟩ : Edge W)) ↔ e ∈ lensEdges M nb mst lens := by
  rw [mem_lensEdges hin, List.mem_map]
  constructor
  · rintro ⟨⟨u, v, w, d⟩, hm, rfl⟩
    obtain ⟨h1, h2, h3, _⟩ := (mem_edgeList hg).1 hm
    exact ⟨h1, h2, h3⟩
  · rintro ⟨h1, h2, h3⟩
    obtain ⟨u, v, w⟩ := e
    obtain ⟨⟨v', w', d'⟩, hm, rfl⟩ := List.mem_map.1 ((hg.mem u h1 v).2 h3)
    refine ⟨(u, v', w', d'), ?_, ?_⟩
    · rw [C70_edge_list hg, List.mem_flatMap]
      exact ⟨u, List.mem_range.2 h1, List.mem_map.2 ⟨_, hm, rfl⟩⟩
    · have := hg.weight _ h1 _ _ _ hm
      simp only at h2
      rw [this, h2]

theorem propagateSub_some (cs : List (List ℕ × (List ℤ → Option (List ℤ)))) (hcs : ∀ c ∈ cs, KeepsLength c ∧ c.1.Nodup)
    (hdis : cs.Pairwise fun c d => List.Disjoint c.1 d.1) (s : PropArrays) (h : ∀ c ∈ cs, ∃ loc', newLocals c.2 (c.1.map s.subLabels) = some loc') :
    ∃ s', propagateSub cs s = some s' := by
  induction cs generalizing s with
  | nil => exact ⟨s, rfl⟩
  | cons c cs ih =>
    obtain ⟨hd, hdis⟩ := List.pairwise_cons.1 hdis
    obtain ⟨loc', hn⟩ := h c (by simp)
    have hlen : loc'.length = c.1.length := by rw [newLocals_length (hcs c (by simp)).1 hn, List.length_map]
    unfold propagateSub
    rw [propagateStep_newLocals, hn, Option.map_some, Option.bind_some]
    refine ih (fun c hc => hcs c (by simp [hc])) hdis _ fun d hmem => ?_
    have : d.1.map (scatter s.subLabels (c.1.zip loc')) = d.1.map s.subLabels := List.map_congr_left fun p hp => scatter_off _ _ (by
      rw [zip_fst hlen]; exact fun hc => hd d hmem hc hp)
    simp only
    rw [this]
    exact h d (by simp [hmem])

theorem newLocals_result [LinearOrder V] [Add V] {inv : W → Option V} {zero : V} {c : SubCluster W D K} {loc loc' : List ℤ}
    (h : newLocals (c.propagate inv zero).2 loc = some loc') :
    (∀ (k : ℕ) (x : ℤ), loc[k]? = some x → x ≠ -1 → loc'[k]? = some x) ∧ ((∃ x ∈ loc, x ≠ -1) → (∀ x ∈ loc, -1 ≤ x) → ∀ x ∈ loc', x ≠ -1 ∧ x ∈ loc) ∧
      ((∀ x ∈ loc, x = -1) → loc' = loc) := by
  have hsort : (npUnique loc).Pairwise (· ≤ ·) := List.pairwise_insertionSort _ _
  unfold newLocals at h
  split at h
  · cases h
  next u us hu =>
    rw [hu] at hsort
    split_ifs at h with hn
    · obtain ⟨_, r2, _, r4⟩ := propagateList_result h
      refine ⟨r4, fun _ _ => r2, fun hall => ?_⟩
      have hnd := npUnique_nodup loc
      rw [hu] at hnd
      obtain ⟨v, vs, rfl⟩ : ∃ v vs, us = v :: vs := by
        cases us with
        | nil => simp at hn
        | cons v vs => exact ⟨v, vs, rfl⟩
      have e1 := hall u (mem_npUnique.1 (by rw [hu]; simp))
      have e2 := hall v (mem_npUnique.1 (by rw [hu]; simp))
      simp [e1, e2] at hnd
    · cases h
      refine ⟨fun _ _ h _ => h, fun ⟨y, hy, hy'⟩ hge x hx => ⟨fun hx1 => hn ?_, hx⟩, fun _ => rfl⟩
      have h1 : u = -1 := by
        have hm : (-1 : ℤ) ∈ u :: us := by rw [← hu]; exact mem_npUnique.2 (hx1 ▸ hx)
        have h2 := hge u (mem_npUnique.1 (by rw [hu]; simp))
        rcases List.mem_cons.1 hm with h | h
        · exact h.symm
        · have := (List.pairwise_cons.1 hsort).1 _ h; omega
      refine ⟨h1, ?_⟩
      have hm : y ∈ u :: us := by rw [← hu]; exact mem_npUnique.2 hy
      rcases List.mem_cons.1 hm with h | h
      · omega
      · cases us with
        | nil => simp at h
        | cons v vs => simp

/-- **C87** (partial): if every weight has an inverse, the fit with propagation succeeds too.  Branch labels other than noise are kept, noise gets one of the
branch labels of its cluster, and if a cluster is all noise it stays noise. -/
theorem C87_propagation_partial [LinearOrder V] [Add V] (inv : W → Option V) (zero : V) {n num : ℕ} {tree : List (CRow K K)} {idx : List ℕ}
    (hrec : recoverFinite n tree = some idx ∨ (recoverFinite n tree = none ∧ idx = List.range n))
    {lab : ℕ → ℤ} {nb : ℕ → List (Option ℕ)} {mst : List (Edge D)} (h : SubInput idx.length num (atFinite idx lab) nb mst)
    (hnum : 0 < num) {sortRow : LensRow W D → LensRow W D} (hs : SortsRows sortRow) (lam : W → K) (hlam : Antitone lam)
    (hpos : ∀ d, 0 ≤ lam d) (wt : ℕ → K) (o : ClusterOpts K) (h1 : 1 < o.minClusterSize) (h0 : ∀ x ∈ idx, 0 ≤ wt x)
    (hl : ∀ x ∈ idx, wt x < o.minClusterSize) (core : ℕ → D) (probs : ℕ → K)
    (lens : ℕ → ℕ → W) (hlens : ∀ c i, 0 < lam (lens c i)) (hinv : ∀ c i j, ∃ v, inv (max (lens c i) (lens c j)) = some v)
    (hok : (o.persistence ≤ 0 ∧ o.maxClusterSize = none) ∨ ∃ f, detectorFit inv zero false sortRow lam wt o n tree lab probs nb core mst lens = some f) :
    ∃ f f', detectorFit inv zero false sortRow lam wt o n tree lab probs nb core mst lens = some f ∧
      detectorFit inv zero true sortRow lam wt o n tree lab probs nb core mst lens = some f' ∧
      (∀ i < n, (i ∉ idx ∨ lab i = -1) → f'.out.subLabels[i]? = f.out.subLabels[i]?) ∧
      ∀ i ∈ idx, lab i ≠ -1 →
        (f.out.subLabels[i]? ≠ some (-1) → f'.out.subLabels[i]? = f.out.subLabels[i]?) ∧
        ((∃ j ∈ idx, lab j = lab i ∧ f.out.subLabels[j]? ≠ some (-1)) → f'.out.subLabels[i]? ≠ some (-1) ∧
          ∃ j ∈ idx, lab j = lab i ∧ f'.out.subLabels[i]? = f.out.subLabels[j]?) ∧
        ((∀ j ∈ idx, lab j = lab i → f.out.subLabels[j]? = some (-1)) → f'.out.subLabels[i]? = some (-1)) := by
  have hrange : idx.Pairwise (· < ·) ∧ ∀ i ∈ idx, i < n := by
    rcases hrec with hrec | ⟨_, rfl⟩
    · exact recoverFinite_rows hrec
    · exact ⟨List.pairwise_lt_range, fun i hi => List.mem_range.1 hi⟩
  obtain ⟨T, f, e1, e2, e3, e4⟩ := h.fit inv zero hrec hnum hs lam hlam hpos wt o h1 h0 hl core probs lens hlens
    (hok.imp_right fun ⟨f, hf⟩ => findSub_of_detector hf)
  have good := detectorFit_goodFit _ _ _ _ _ _ _ _ _ _ _ _ _ _ e1
  have fg := h.fit_graphs hrec hnum e1
  have hcl : ∀ i ∈ idx, lab i ≠ -1 → ∃ c : ℕ, c < num ∧ lab i = c := fun i hi hn => by
    obtain ⟨k, hk⟩ := List.mem_iff_getElem?.1 hi
    have := h.labels k (List.getElem?_eq_some_iff.1 hk).1
    have e : atFinite idx lab k = lab i := by unfold atFinite; rw [List.getD_eq_getElem?_getD, hk]; rfl
    rw [e] at this
    obtain ⟨c, hc⟩ := Int.eq_ofNat_of_zero_le (by omega : 0 ≤ lab i)
    exact ⟨c, by omega, hc⟩
  have hidx : ∀ d ∈ f.clusters, ∃ c < num, d.points = rowsIn idx lab c ∧
      d.graph = clusterGraph sortRow idx.length (atFinite idx lab) nb core mst lens c := by
    intro d hd
    have := List.mem_map_of_mem (f := fun c : SubCluster W D K => (c.points, c.graph)) hd
    rw [fg] at this
    obtain ⟨c, hc, he⟩ := List.mem_map.1 this
    simp only [Prod.mk.injEq] at he
    exact ⟨c, List.mem_range.1 hc, he.1.symm, he.2.symm⟩
  have hnew : ∀ d ∈ f.clusters, ∃ loc', newLocals (d.propagate inv zero).2 (d.points.map fun i => f.out.subLabels.getD i 0) = some loc' := by
    intro d hd
    obtain ⟨c, hc, hp, hgr⟩ := hidx d hd
    have hne := good.clusters.ne _ (List.mem_map_of_mem (f := SubCluster.points) hd)
    cases hu : npUnique (d.points.map fun i => f.out.subLabels.getD i 0) with
    | nil =>
      rw [npUnique_eq_nil] at hu
      exact absurd (List.map_eq_nil_iff.1 hu) hne
    | cons u us =>
      by_cases hn : u = -1 ∧ 1 < (u :: us).length
      · have hmem : ∀ x, x ∈ u :: us ↔ x ∈ d.points.map fun i => f.out.subLabels.getD i 0 := fun x => by rw [← hu]; exact mem_npUnique
        have hnd := npUnique_nodup (d.points.map fun i => f.out.subLabels.getD i 0)
        rw [hu] at hnd
        have hT : T c = true := (e3 c hc).2 (by rw [← hp, ← hmem, hn.1]; simp)
        have hall := (e4 c hc).1 hT
        set P := clusterPoints idx.length (atFinite idx lab) c with hP
        have hlen : d.points.length = P.length := by rw [hp, ← remap_clusterPoints]; simp [remapPoints, hP]
        have hin := h.lensInput (c := c)
        have hgo : LensGraphOf P.length (inClusterNeighbors idx.length P nb) (fun i => core (P.getD i 0)) (inClusterMst (atFinite idx lab) c P mst) (lens c) d.graph := by
          rw [hgr]; exact C70_core_graph hs _ _ _ _ _
        have hed : ∀ e, e ∈ d.edges ↔ e ∈ lensEdges P.length (inClusterNeighbors idx.length P nb) (inClusterMst (atFinite idx lab) c P mst) (lens c) := fun e => by
          unfold SubCluster.edges
          rw [hlen]
          exact mem_graph_edges hin hgo
        obtain ⟨res, r1, _⟩ := C47_propagation_partial inv zero d.edges (d.points.map fun i => f.out.subLabels.getD i 0) (fun e he => by
            rw [hed, mem_lensEdges hin] at he
            rw [he.2.1]
            exact hinv c _ _) (fun e he => by
            rw [hed, mem_lensEdges hin] at he
            rw [List.length_map, hlen]
            refine ⟨he.1, ?_⟩
            rcases he.2.2 with hh | ⟨t, ht, _, hv⟩
            · exact (hin.knn _ he.1 _ hh).1
            · rw [← hv]; exact (hin.mst t ht).2.1) (fun a ha b hb => by
            rw [List.length_map, hlen] at ha hb
            obtain ⟨a1, a2⟩ := clusterPoints_get (List.getElem?_eq_getElem ha)
            obtain ⟨b1, b2⟩ := clusterPoints_get (List.getElem?_eq_getElem hb)
            have := (h.conn_iff (lens c) (List.getElem?_eq_getElem ha) (List.getElem?_eq_getElem hb)).2 (hall _ a1 _ b1 a2 b2)
            exact Conn.mono (fun e he => (hed e).2 he) this) (by
            cases us with
            | nil => simp at hn
            | cons v vs =>
              refine ⟨v, (hmem v).1 (by simp), fun hv => ?_⟩
              rw [hn.1, hv] at hnd
              simp at hnd)
        refine ⟨res, ?_⟩
        unfold newLocals
        rw [hu]
        simp only
        rw [if_pos hn]
        exact r1 _ (by rw [List.length_map]; omega)
      · exact ⟨_, by unfold newLocals; rw [hu]; simp only; rw [if_neg hn]⟩
  have hdisj : (f.clusters.map (SubCluster.propagate inv zero)).Pairwise fun c d => List.Disjoint c.1 d.1 := by
    have := good.clusters.disjoint
    rw [List.pairwise_map] at this ⊢
    exact this
  have hkl : ∀ c ∈ f.clusters.map (SubCluster.propagate inv zero), KeepsLength c ∧ c.1.Nodup := fun c hc => by
    obtain ⟨d, hd, rfl⟩ := List.mem_map.1 hc
    exact ⟨propagate_keepsLength inv zero d, good.clusters.nodup _ (List.mem_map_of_mem (f := SubCluster.points) hd)⟩
  obtain ⟨a, ha⟩ := propagateSub_some (f.clusters.map (SubCluster.propagate inv zero)) hkl hdisj
    ⟨fun i => f.out.labels.getD i (-1), fun i => f.out.subLabels.getD i 0, 0⟩ (fun c hc => by
      obtain ⟨d, hd, rfl⟩ := List.mem_map.1 hc
      exact hnew d hd)
  refine ⟨f, _, e1, by rw [C88_propagated_labels, e1, Option.bind_some]; unfold DetectorFit.propagatedLabels; rw [ha, Option.map_some, Option.map_some], ?_⟩
  have hg : ∀ i < n, f.out.subLabels[i]? = some (f.out.subLabels.getD i 0) := fun i hi => by
    rw [List.getD_eq_getElem?_getD, List.getElem?_eq_getElem (by rw [good.subLabels]; exact hi)]; rfl
  have hg' : ∀ i < n, ((List.range f.out.labels.length).map a.subLabels)[i]? = some (a.subLabels i) := fun i hi => by
    rw [List.getElem?_map, List.getElem?_range (by rw [good.labels]; exact hi)]; rfl
  have hmemc : ∀ {c : ℕ} {i : ℕ}, i ∈ rowsIn idx lab c ↔ i ∈ idx ∧ lab i = c := fun {c i} => by
    unfold rowsIn; simp
  constructor
  · intro i hi hor
    simp only
    rw [hg' i hi, hg i hi, Option.some.injEq]
    refine (propagateSub_off _ (fun c hc => (hkl c hc).1) _ _ ha i fun c hc hm => ?_).2
    obtain ⟨d, hd, rfl⟩ := List.mem_map.1 hc
    obtain ⟨c, _, hp, _⟩ := hidx d hd
    have hm' : i ∈ d.points := hm
    rw [hp, hmemc] at hm'
    rcases hor with hor | hor
    · exact hor hm'.1
    · omega
  · intro i hi hn
    obtain ⟨c, hc, hic⟩ := hcl i hi hn
    have hin := hrange.2 i hi
    have : (rowsIn idx lab c, clusterGraph sortRow idx.length (atFinite idx lab) nb core mst lens c) ∈ f.clusters.map fun c => (c.points, c.graph) := by
      rw [fg]; exact List.mem_map.2 ⟨c, List.mem_range.2 hc, rfl⟩
    obtain ⟨d, hd, hdp⟩ := List.mem_map.1 this
    simp only [Prod.mk.injEq] at hdp
    have hloc := propagateSub_locals _ hkl hdisj _ _ ha _ (List.mem_map_of_mem (f := SubCluster.propagate inv zero) hd)
    obtain ⟨q1, q2, q3⟩ := newLocals_result hloc
    have hdense := (e3 c hc).1
    rw [← hdp.1] at hdense
    have hm : ∀ j, j ∈ d.points ↔ j ∈ idx ∧ lab j = c := fun j => by rw [hdp.1, hmemc]
    obtain ⟨k, hk⟩ := List.mem_iff_getElem?.1 ((hm i).2 ⟨hi, hic⟩)
    have k1 : (d.points.map fun i => f.out.subLabels.getD i 0)[k]? = some (f.out.subLabels.getD i 0) := by rw [List.getElem?_map, hk]; rfl
    have k2 : (d.points.map a.subLabels)[k]? = some (a.subLabels i) := by rw [List.getElem?_map, hk]; rfl
    simp only
    rw [hg' i hin, hg i hin]
    refine ⟨fun hne => ?_, fun ⟨j, hj, hjl, hjn⟩ => ?_, fun hall => ?_⟩
    · have := q1 k _ k1 (fun he => hne (by rw [he]))
      exact k2.symm.trans this
    · rw [hg j (hrange.2 j hj)] at hjn
      obtain ⟨r1, r2⟩ := q2 ⟨_, List.mem_map_of_mem ((hm j).2 ⟨hj, hjl.trans hic⟩), fun he => hjn (congrArg some he)⟩ (fun x hx => hdense.ge x hx) _
        (List.mem_of_getElem? k2)
      refine ⟨fun he => r1 (Option.some.inj he), ?_⟩
      obtain ⟨j', hj', he⟩ := List.mem_map.1 r2
      obtain ⟨a1, a2⟩ := (hm j').1 hj'
      exact ⟨j', a1, a2.trans hic.symm, by rw [hg j' (hrange.2 j' a1), ← he]⟩
    · have := q3 fun x hx => by
        obtain ⟨j, hj, rfl⟩ := List.mem_map.1 hx
        obtain ⟨a1, a2⟩ := (hm j).1 hj
        have := hall j a1 (a2.trans hic.symm)
        rw [hg j (hrange.2 j a1)] at this
        exact Option.some.inj this
      have h3 : (d.points.map a.subLabels)[k]? = (d.points.map fun i => f.out.subLabels.getD i 0)[k]? := congrArg (fun l => l[k]?) this
      rw [k1, k2] at h3
      rw [h3, ← hg i hin]
      exact hall i hi rfl

end

end Verif
