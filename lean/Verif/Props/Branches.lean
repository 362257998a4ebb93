import Verif.Spec.Branches
import Verif.Props.Detector
import Verif.Props.SubClusterRun

/-!
# C87: what `BranchDetector.fit` returns
-/

namespace Verif
variable {W D K V : Type*}

theorem remap_clusterPoints (idx : List ℕ) (lab : ℕ → ℤ) (c : ℤ) :
    remapPoints idx (clusterPoints idx.length (atFinite idx lab) c) = rowsIn idx lab c := by
  unfold remapPoints clusterPoints rowsIn atFinite
  have e : idx = (List.range idx.length).map fun k => idx.getD k 0 := by
    apply List.ext_getElem?
    intro i
    by_cases hi : i < idx.length
    · simp [hi, List.getD_eq_getElem?_getD]
    · rw [List.getElem?_eq_none (by omega), List.getElem?_eq_none (by simpa using hi)]
  conv_rhs => rw [e, List.filter_map]
  rfl

/-- The clusters of the kept rows, with noise for the others. -/
def rowLabel (idx : List ℕ) (lab : ℕ → ℤ) (i : ℕ) : ℤ := if i ∈ idx then lab i else -1

theorem rowsIn_eq {n : ℕ} {idx : List ℕ} (hasc : idx.Pairwise (· < ·)) (hlt : ∀ i ∈ idx, i < n) (lab : ℕ → ℤ) {c : ℤ} (hc : c ≠ -1) :
    rowsIn idx lab c = clusterPoints n (rowLabel idx lab) c := by
  have h1 : (rowsIn idx lab c).Pairwise (· < ·) := hasc.filter _
  have h2 : (clusterPoints n (rowLabel idx lab) c).Pairwise (· < ·) := clusterPoints_asc _ _ _
  refine List.Perm.eq_of_pairwise (le := (· < ·)) (fun a b _ _ x y => absurd (x.trans y) (lt_irrefl _)) h1 h2 ?_
  refine (List.perm_ext_iff_of_nodup (h1.imp fun h => h.ne) (h2.imp fun h => h.ne)).2 fun i => ?_
  rw [mem_clusterPoints]
  unfold rowsIn rowLabel
  rw [List.mem_filter]
  constructor
  · rintro ⟨hi, h⟩
    exact ⟨hlt i hi, by rw [if_pos hi]; simpa using h⟩
  · rintro ⟨_, h⟩
    by_cases hi : i ∈ idx
    · rw [if_pos hi] at h
      exact ⟨hi, by simpa using h⟩
    · rw [if_neg hi] at h
      exact absurd h.symm hc

theorem DenseLabels.newLocals [LinearOrder V] [Add V] {inv : W → Option V} {zero : V} {c : SubCluster W D K} {loc loc' : List ℤ} (hd : DenseLabels loc)
    (h : newLocals (c.propagate inv zero).2 loc = some loc') : DenseLabels loc' := by
  unfold Verif.newLocals at h
  split at h
  · cases h
  · split_ifs at h
    · obtain ⟨_, r2, r3, _⟩ := propagateList_result h
      exact ⟨fun x hx => hd.ge x (r2 x hx).2, fun x hx y h0 hy => r3 y (hd.below x (r2 x hx).2 y h0 hy) (by omega)⟩
    · cases h; exact hd

section
variable [Field K] [LinearOrder K] [IsStrictOrderedRing K] [LinearOrder W] [OrderTop W] [Inhabited W] [LinearOrder D] [Inhabited K]

theorem linkage_pos {n : ℕ} (hn : 2 ≤ n) {lam : W → K} {wt : ℕ → K} {o : ClusterOpts K} {t : List (Edge W)} (ht : SpanningTree n t) {r : ClusterResult W K}
    (hr : clustersFromMst lam wt o t = some r) : 0 < r.linkage.length := by
  unfold clustersFromMst at hr
  simp only at hr
  obtain ⟨rows, _, hr⟩ := Option.bind_eq_some_iff.1 hr
  obtain ⟨sel0, _, hr⟩ := Option.bind_eq_some_iff.1 hr
  obtain ⟨sel, _, hr⟩ := Option.bind_eq_some_iff.1 hr
  obtain ⟨labels, _, hr⟩ := Option.bind_eq_some_iff.1 hr
  obtain ⟨str, _, rfl⟩ := Option.map_eq_some_iff.1 hr
  have := (C12_linkage_is_dendrogram n (by omega) wt _ (ht.perm (lexsortMst_perm t)) (lexsortMst_sorted t)).1.length
  simp only
  omega

/-- A cluster has a linkage tree exactly if its samples form one piece. -/
theorem SubInput.hasTree_iff {N num : ℕ} {lab : ℕ → ℤ} {nb : ℕ → List (Option ℕ)} {mst : List (Edge D)} (h : SubInput N num lab nb mst)
    {sortRow : LensRow W D → LensRow W D} (hs : SortsRows sortRow) (lam : W → K) (hlam : Antitone lam)
    (hpos : ∀ d, 0 ≤ lam d) (wt : ℕ → K) (o : ClusterOpts K) (h1 : 1 < o.minClusterSize) (h0 : ∀ x, x < N → 0 ≤ wt x)
    (hl : ∀ x, x < N → wt x < o.minClusterSize) (core : ℕ → D) {c : ℕ} (hc : c < num)
    (lens : ℕ → W) {res : LensClusters W K} (hres : coreGraphClusters sortRow lam (fun i => wt ((clusterPoints N lab c).getD i 0)) o (clusterPoints N lab c).length
        (inClusterNeighbors N (clusterPoints N lab c) nb) (fun i => core ((clusterPoints N lab c).getD i 0))
        (inClusterMst lab c (clusterPoints N lab c) mst) lens = some res) :
    res.hasTree = true ↔ ∀ p < N, ∀ q < N, lab p = c → lab q = c → LinkedIn N lab nb mst c p q := by
  have hM := h.points_two hc
  have hin := h.lensInput (c := c)
  have hne := h.noEmptyRow (c := c)
  have hget : ∀ k (hk : k < (clusterPoints N lab c).length), (clusterPoints N lab c)[k]? = some (clusterPoints N lab c)[k] := fun k hk =>
    List.getElem?_eq_getElem hk
  have hmem : ∀ p, p < N → lab p = c → ∃ k, (clusterPoints N lab c)[k]? = some p := fun p h1 h2 =>
    List.mem_iff_getElem?.1 (mem_clusterPoints.2 ⟨h1, h2⟩)
  have hdefd : ∀ k < (clusterPoints N lab c).length, (clusterPoints N lab c).getD k 0 < N := by
    intro k hk
    rw [List.getD_eq_getElem?_getD, hget k hk]
    exact (clusterPoints_get (hget k hk)).1
  by_cases hcon : ∀ a b, a < (clusterPoints N lab c).length → b < (clusterPoints N lab c).length →
      Conn (lensEdges (clusterPoints N lab c).length (inClusterNeighbors N (clusterPoints N lab c) nb)
      (inClusterMst lab c (clusterPoints N lab c) mst) lens) a b
  · obtain ⟨t, r, k, g1, g2, _, g4, _⟩ := C72_connected_returned (core := fun i => core ((clusterPoints N lab c).getD i 0)) hs lam hlam hpos
      (fun i => wt ((clusterPoints N lab c).getD i 0)) o hM h1 (fun x hx => h0 _ (hdefd x hx)) (fun x hx => hl _ (hdefd x hx)) hin hne hcon hres
    subst g1
    refine iff_of_true (by simpa [LensClusters.hasTree] using linkage_pos hM g2 g4) fun p p1 q q1 p2 q2 => ?_
    obtain ⟨a, ha⟩ := hmem p p1 p2
    obtain ⟨b, hb⟩ := hmem q q1 q2
    exact (h.conn_iff lens ha hb).1 (hcon a b (List.getElem?_eq_some_iff.1 ha).1 (List.getElem?_eq_some_iff.1 hb).1)
  · push Not at hcon
    obtain ⟨labels, forest, g1, _⟩ := C72_components (core := fun i => core ((clusterPoints N lab c).getD i 0)) hs lam
      (fun i => wt ((clusterPoints N lab c).getD i 0)) o hin hne (lens := lens) (by obtain ⟨a, b, h1, h2, h3⟩ := hcon; exact ⟨a, b, h1, h2, h3⟩)
    rw [g1] at hres
    cases hres
    refine iff_of_false (by simp [LensClusters.hasTree]) fun hall => ?_
    obtain ⟨a, b, ha, hb, hno⟩ := hcon
    obtain ⟨a1, a2⟩ := clusterPoints_get (hget a ha)
    obtain ⟨b1, b2⟩ := clusterPoints_get (hget b hb)
    exact hno ((h.conn_iff lens (hget a ha) (hget b hb)).2 (hall _ a1 _ b1 a2 b2))

omit [IsStrictOrderedRing K] in
theorem subClustersFinite_eq (sortRow : LensRow W D → LensRow W D) (lam : W → K) (wt : ℕ → K) (o : ClusterOpts K) (N : ℕ) (labels : ℕ → ℤ) (probs : ℕ → K)
    (nb : ℕ → List (Option ℕ)) (core : ℕ → D) (mst : List (Edge D)) (lens : ℕ → ℕ → W) :
    subClustersFinite sortRow lam wt o N labels probs nb core mst lens =
      (subClustersOf sortRow lam wt o N labels nb core mst lens).bind fun cs => updateLabels (fun a b => (a + b) / 2) 0 probs (cs.map SubCluster.part) := by
  unfold subClustersFinite subClustersOf
  cases numClusters N labels with
  | none => rfl
  | some num =>
    simp only [Option.bind_some]
    split_ifs
    · rfl
    · have : ∀ l : List ℕ, l.mapM (subClustersInCluster sortRow lam wt o N labels nb core mst lens) =
          (l.mapM (subClusterOf sortRow lam wt o N labels nb core mst lens)).map (List.map SubCluster.part) := by
        intro l
        induction l with
        | nil => rfl
        | cons c l ih =>
          rw [List.mapM_cons, List.mapM_cons, ih]
          unfold subClustersInCluster subClusterOf
          simp only
          cases coreGraphClusters sortRow lam (fun i => wt ((clusterPoints N labels c).getD i 0)) o (clusterPoints N labels c).length
            (inClusterNeighbors N (clusterPoints N labels c) nb) (fun i => core ((clusterPoints N labels c).getD i 0))
            (inClusterMst labels c (clusterPoints N labels c) mst) (lens c) with
          | none => rfl
          | some r =>
            cases l.mapM fun c : ℕ => (coreGraphClusters sortRow lam (fun i => wt ((clusterPoints N labels c).getD i 0)) o (clusterPoints N labels c).length
              (inClusterNeighbors N (clusterPoints N labels c) nb) (fun i => core ((clusterPoints N labels c).getD i 0))
              (inClusterMst labels c (clusterPoints N labels c) mst) (lens c)).map fun r => (⟨clusterPoints N labels c, r, lensGraph sortRow (clusterPoints N labels c).length
                (inClusterNeighbors N (clusterPoints N labels c) nb) (fun i => core ((clusterPoints N labels c).getD i 0))
                (inClusterMst labels c (clusterPoints N labels c) mst) (lens c)⟩ : SubCluster W D K) with
            | none => rfl
            | some ys => rfl
      rw [this]
      cases (List.range num).mapM (subClusterOf sortRow lam wt o N labels nb core mst lens) with
      | none => rfl
      | some ys => rfl

/-- Without propagation, `SubClusterDetector.fit` stores the arrays of `find_sub_clusters`. -/
theorem detectorFit_out [LinearOrder V] [Add V] (inv : W → Option V) (zero : V) (sortRow : LensRow W D → LensRow W D) (lam : W → K) (wt : ℕ → K) (o : ClusterOpts K) (n : ℕ)
    (tree : List (CRow K K)) (labels : ℕ → ℤ) (probs : ℕ → K) (nb : ℕ → List (Option ℕ)) (core : ℕ → D) (mst : List (Edge D)) (lens : ℕ → ℕ → W) :
    (detectorFit inv zero false sortRow lam wt o n tree labels probs nb core mst lens).map DetectorFit.out =
      findSubClusters sortRow lam wt o n tree labels probs nb core mst lens := by
  have key : ∀ (wt : ℕ → K) (N : ℕ) (labels : ℕ → ℤ) (probs : ℕ → K), (detectorFinite inv zero false sortRow lam wt o N labels probs nb core mst lens).map DetectorFit.out =
      (subClustersFinite sortRow lam wt o N labels probs nb core mst lens).map (arraysOut N labels probs) := by
    intro wt N labels probs
    rw [subClustersFinite_eq]
    unfold detectorFinite
    cases subClustersOf sortRow lam wt o N labels nb core mst lens with
    | none => rfl
    | some cs =>
      simp only [Option.bind_some]
      cases updateLabels (fun a b => (a + b) / 2) 0 probs (cs.map SubCluster.part) with
      | none => rfl
      | some s => rfl
  unfold detectorFit findSubClusters
  cases recoverFinite n tree with
  | none => exact key wt n labels probs
  | some idx =>
    simp only
    have := key (atFinite idx wt) idx.length (atFinite idx labels) (atFinite idx probs)
    rw [Option.map_map]
    have e := congrArg (Option.map (remapResults n idx)) this
    rw [Option.map_map, Option.map_map] at e
    exact e

/-- If a detector is fitted, with or without propagation, `find_sub_clusters` without propagation returns. -/
theorem findSub_of_detector [LinearOrder V] [Add V] {inv : W → Option V} {zero : V} {prop : Bool} {sortRow : LensRow W D → LensRow W D} {lam : W → K} {wt : ℕ → K}
    {o : ClusterOpts K} {n : ℕ} {tree : List (CRow K K)} {labels : ℕ → ℤ} {probs : ℕ → K} {nb : ℕ → List (Option ℕ)} {core : ℕ → D} {mst : List (Edge D)}
    {lens : ℕ → ℕ → W} {f : DetectorFit W D K} (hf : detectorFit inv zero prop sortRow lam wt o n tree labels probs nb core mst lens = some f) :
    ∃ out, findSubClusters sortRow lam wt o n tree labels probs nb core mst lens = some out := by
  have h0 : ∃ f0, detectorFit inv zero false sortRow lam wt o n tree labels probs nb core mst lens = some f0 := by
    cases prop with
    | false => exact ⟨f, hf⟩
    | true =>
      rw [C88_propagated_labels] at hf
      exact (Option.bind_eq_some_iff.1 hf).imp fun _ h => h.1
  obtain ⟨f0, h0⟩ := h0
  exact ⟨f0.out, by rw [← detectorFit_out inv zero, h0]; rfl⟩

/-- The clusters on the kept rows: samples, linkage trees and cluster-local labels. -/
theorem SubInput.clusters {N num : ℕ} {lab : ℕ → ℤ} {nb : ℕ → List (Option ℕ)} {mst : List (Edge D)} (h : SubInput N num lab nb mst)
    (hnum : 0 < num) {sortRow : LensRow W D → LensRow W D} (hs : SortsRows sortRow) (lam : W → K) (hlam : Antitone lam)
    (hpos : ∀ d, 0 ≤ lam d) (wt : ℕ → K) (o : ClusterOpts K) (h1 : 1 < o.minClusterSize) (h0 : ∀ x, x < N → 0 ≤ wt x)
    (hl : ∀ x, x < N → wt x < o.minClusterSize) (core : ℕ → D) (probs : ℕ → K)
    (lens : ℕ → ℕ → W) (hlens : ∀ c i, 0 < lam (lens c i))
    (hok : (o.persistence ≤ 0 ∧ o.maxClusterSize = none) ∨ ∃ s, subClustersFinite sortRow lam wt o N lab probs nb core mst lens = some s) :
    ∃ (T : ℕ → Bool) (cs : List (SubCluster W D K)) (s : SubArrays K), subClustersOf sortRow lam wt o N lab nb core mst lens = some cs ∧
      updateLabels (fun a b => (a + b) / 2) 0 probs (cs.map SubCluster.part) = some s ∧
      (cs.map fun c => (c.points, c.result.hasTree)) = ((List.range num).map fun c : ℕ => (clusterPoints N lab c, T c)) ∧
      (∀ c < num, DenseLabels ((clusterPoints N lab c).map s.subLabels) ∧ (-1 ∈ (clusterPoints N lab c).map s.subLabels → T c = true)) ∧
      ∀ c < num, (T c = true ↔ ∀ p < N, ∀ q < N, lab p = c → lab q = c → LinkedIn N lab nb mst c p q) := by
  have hex : ∀ c, ∃ res : LensClusters W K, c < num → _ := fun c => by
    by_cases hc : c < num
    · obtain ⟨res, hr⟩ := h.cluster_result hs lam hlam hpos wt o h1 h0 hl core hc (lens c) (hlens c)
        (hok.imp_right fun ⟨_, hs⟩ => subClustersFinite_returned (h.numClusters hnum) hs hc)
      exact ⟨res, fun _ => hr⟩
    · exact ⟨.components [] [], fun h => absurd h hc⟩
  choose res hres using hex
  set idx : ℕ → ℕ := fun i => (inClusterIds (clusterPoints N lab (lab i)) i).getD 0 with hidx
  set loc : ℕ → ℤ := fun i => (res (lab i).toNat).label (idx i) with hloc
  set prob : ℕ → K := fun i => (res (lab i).toNat).strength (idx i) with hprob
  have hat : ∀ (c k p : ℕ), (clusterPoints N lab c)[k]? = some p → loc p = (res c).label k ∧ prob p = (res c).strength k := by
    intro c k p hp
    have hnd : (clusterPoints N lab c).Nodup := (clusterPoints_asc N lab c).imp fun h => h.ne
    have e : lab p = c := (clusterPoints_get hp).2
    have hi : idx p = k := by
      rw [hidx]; simp only
      rw [e, (inClusterIds_iff hnd _ _).2 hp]; rfl
    simp only [hloc, hprob]
    rw [hi, e, Int.toNat_natCast]
    exact ⟨rfl, rfl⟩
  have hmap : ∀ c : ℕ, (clusterPoints N lab c).map loc = (List.range (clusterPoints N lab c).length).map (res c).label := by
    intro c
    apply List.ext_getElem?
    intro i
    by_cases hi : i < (clusterPoints N lab c).length
    · rw [List.getElem?_map, List.getElem?_eq_getElem hi, Option.map_some, (hat c i _ (List.getElem?_eq_getElem hi)).1]
      simp [hi]
    · rw [List.getElem?_eq_none (by simpa using hi), List.getElem?_eq_none (by simpa using hi)]
  have hd : ∀ c < num, DenseLabels ((clusterPoints N lab c).map loc) := fun c hc => by rw [hmap]; exact (hres c hc).2.1
  obtain ⟨s, s1, _, s3, _⟩ := C46_refines_partial (fun a b : K => (a + b) / 2) 0 probs N num lab loc prob
    (fun c hc => by obtain ⟨i, j, a, b, e, _⟩ := h.two c hc; exact ⟨i, by omega, e⟩) hd
  let cl : ℕ → SubCluster W D K := fun c => ⟨clusterPoints N lab c, res c, lensGraph sortRow (clusterPoints N lab c).length
    (inClusterNeighbors N (clusterPoints N lab c) nb) (fun i => core ((clusterPoints N lab c).getD i 0)) (inClusterMst lab c (clusterPoints N lab c) mst) (lens c)⟩
  refine ⟨fun c => (res c).hasTree, (List.range num).map cl, s, ?_, ?_, ?_, fun c hc => ?_, fun c hc => ?_⟩
  · unfold subClustersOf
    rw [h.numClusters hnum, Option.bind_some, if_neg (by omega)]
    refine mapM_of_some fun c hc => ?_
    unfold subClusterOf
    simp only
    rw [(hres c (List.mem_range.1 hc)).1, Option.map_some]
  · rw [← s1, List.map_map]
    congr 1
    refine List.map_congr_left fun c _ => ?_
    show (clusterPoints N lab c).zipIdx.map _ = _
    apply List.ext_getElem?
    intro i
    by_cases hi : i < (clusterPoints N lab c).length
    · obtain ⟨e1, e2⟩ := hat c i _ (List.getElem?_eq_getElem hi)
      rw [List.getElem?_map, List.getElem?_map, List.getElem?_zipIdx, List.getElem?_eq_getElem hi]
      simp only [Option.map_some, e1, e2, Nat.zero_add, cl]
    · rw [List.getElem?_eq_none (by simpa using hi), List.getElem?_eq_none (by simpa using hi)]
  · rw [List.map_map]; rfl
  · have : (clusterPoints N lab c).map s.subLabels = (clusterPoints N lab c).map loc := List.map_congr_left fun p hp => by
      obtain ⟨p1, p2⟩ := mem_clusterPoints.1 hp
      exact (s3 p p1 (by omega) (by omega)).2.1
    have htree := h.hasTree_iff hs lam hlam hpos wt o h1 h0 hl core hc (lens c) (hres c hc).1
    refine ⟨by rw [this]; exact hd c hc, fun hm => htree.2 ?_⟩
    by_contra hno
    push Not at hno
    obtain ⟨p, p1, q, q1, p2, q2, hpq⟩ := hno
    obtain ⟨r, hr, hr'⟩ := List.mem_map.1 hm
    obtain ⟨r1, r2⟩ := mem_clusterPoints.1 hr
    have := (((hres c hc).2.2.2 loc prob (hat c)).apart ⟨p, q, p1, q1, p2, q2, hpq⟩ r r1 r r1 r2 r2).1
    rw [← (s3 r r1 (by omega) (by omega)).2.1, hr'] at this
    omega
  · exact h.hasTree_iff hs lam hlam hpos wt o h1 h0 hl core hc (lens c) (hres c hc).1

theorem getD_range_map {α : Type*} {N k : ℕ} (a : ℕ → α) (d : α) (hk : k < N) : ((List.range N).map a).getD k d = a k := by
  simp [List.getD_eq_getElem?_getD, hk]

/-- A fit without propagation: samples of the clusters as rows, linkage trees and cluster-local labels. -/
theorem SubInput.fit [LinearOrder V] [Add V] (inv : W → Option V) (zero : V) {n num : ℕ} {tree : List (CRow K K)} {idx : List ℕ}
    (hrec : recoverFinite n tree = some idx ∨ (recoverFinite n tree = none ∧ idx = List.range n))
    {lab : ℕ → ℤ} {nb : ℕ → List (Option ℕ)} {mst : List (Edge D)} (h : SubInput idx.length num (atFinite idx lab) nb mst)
    (hnum : 0 < num) {sortRow : LensRow W D → LensRow W D} (hs : SortsRows sortRow) (lam : W → K) (hlam : Antitone lam)
    (hpos : ∀ d, 0 ≤ lam d) (wt : ℕ → K) (o : ClusterOpts K) (h1 : 1 < o.minClusterSize) (h0 : ∀ x ∈ idx, 0 ≤ wt x)
    (hl : ∀ x ∈ idx, wt x < o.minClusterSize) (core : ℕ → D) (probs : ℕ → K)
    (lens : ℕ → ℕ → W) (hlens : ∀ c i, 0 < lam (lens c i))
    (hok : (o.persistence ≤ 0 ∧ o.maxClusterSize = none) ∨ ∃ out, findSubClusters sortRow lam wt o n tree lab probs nb core mst lens = some out) :
    ∃ (T : ℕ → Bool) (f : DetectorFit W D K), detectorFit inv zero false sortRow lam wt o n tree lab probs nb core mst lens = some f ∧
      f.branchClusters = ((List.range num).map fun c : ℕ => (rowsIn idx lab c, T c)) ∧
      (∀ c : ℕ, c < num → DenseLabels ((rowsIn idx lab c).map fun i => f.out.subLabels.getD i 0) ∧
        (-1 ∈ ((rowsIn idx lab c).map fun i => f.out.subLabels.getD i 0) → T c = true)) ∧
      ∀ c : ℕ, c < num → (T c = true ↔ ∀ p < idx.length, ∀ q < idx.length, atFinite idx lab p = c → atFinite idx lab q = c →
        LinkedIn idx.length (atFinite idx lab) nb mst c p q) := by
  have hw : ∀ x, x < idx.length → idx.getD x 0 ∈ idx := by
    intro x hx
    rw [List.getD_eq_getElem?_getD, List.getElem?_eq_getElem hx]; exact List.getElem_mem _
  rcases hrec with hrec | ⟨hrec, hir⟩
  · obtain ⟨r1, r2⟩ := recoverFinite_rows hrec
    obtain ⟨T, cs, s, e1, e2, e3, e4, e5⟩ := h.clusters hnum hs lam hlam hpos (atFinite idx wt) o h1 (fun x hx => h0 _ (hw x hx))
      (fun x hx => hl _ (hw x hx)) core (atFinite idx probs) lens hlens
      (hok.imp_right fun ⟨out, ho⟩ => by
        unfold findSubClusters at ho; rw [hrec] at ho; exact (Option.map_eq_some_iff.1 ho).imp fun _ h => h.1)
    refine ⟨T, _, by unfold detectorFit detectorFinite; rw [hrec]; simp only; rw [e1, Option.bind_some, e2]; rfl, ?_, fun c hc => ?_, e5⟩
    · unfold DetectorFit.branchClusters
      simp only
      rw [List.map_map]
      have := congrArg (List.map fun p : List ℕ × Bool => (remapPoints idx p.1, p.2)) e3
      rw [List.map_map, List.map_map] at this
      refine Eq.trans this (List.map_congr_left fun c _ => ?_)
      simp only [Function.comp, remap_clusterPoints]
    · rw [← remap_clusterPoints]
      unfold remapPoints
      rw [List.map_map]
      have : (clusterPoints idx.length (atFinite idx lab) c).map s.subLabels = (clusterPoints idx.length (atFinite idx lab) c).map
          ((fun i => (spreadValues n 0 idx ((List.range idx.length).map s.subLabels)).getD i 0) ∘ fun k => idx.getD k 0) :=
        List.map_congr_left fun k hk => (spread_getD (r1.imp fun h => h.ne) r2 0 s.subLabels (mem_clusterPoints.1 hk).1).symm
      have hd := e4 c hc
      rw [this] at hd
      exact hd
  · subst hir
    have hlen : (List.range n).length = n := List.length_range
    have hpt : ∀ c : ℤ, clusterPoints n lab c = rowsIn (List.range n) lab c := fun c => rfl
    have hat : ∀ p < n, atFinite (List.range n) lab p = lab p := fun p hp => by
      unfold atFinite; simp [List.getD_eq_getElem?_getD, hp]
    rw [hlen] at h ⊢
    have h := h.congr (lab' := lab) hat
    obtain ⟨T, cs, s, e1, e2, e3, e4, e5⟩ := h.clusters hnum hs lam hlam hpos wt o h1 (fun x hx => h0 _ (List.mem_range.2 hx))
      (fun x hx => hl _ (List.mem_range.2 hx)) core probs lens hlens
      (hok.imp_right fun ⟨out, ho⟩ => by
        unfold findSubClusters at ho; rw [hrec] at ho; exact (Option.map_eq_some_iff.1 ho).imp fun _ h => h.1)
    refine ⟨T, _, by unfold detectorFit detectorFinite; rw [hrec]; simp only; rw [e1, Option.bind_some, e2]; rfl, ?_, fun c hc => ?_, fun c hc => ?_⟩
    · exact e3
    · rw [← hpt]
      have : (clusterPoints n lab c).map s.subLabels = (clusterPoints n lab c).map fun i => ((List.range n).map s.subLabels).getD i 0 :=
        List.map_congr_left fun k hk => (getD_range_map s.subLabels 0 (mem_clusterPoints.1 hk).1).symm
      have hd := e4 c hc
      rw [this] at hd
      exact hd
    · rw [e5 c hc]
      have hlk : ∀ p q, LinkedIn n lab nb mst c p q ↔ LinkedIn n (atFinite (List.range n) lab) nb mst c p q := fun p q =>
        ⟨Relation.EqvGen.mono (fun _ _ hc => ClusterLink.congr (fun i hi => (hat i hi).symm) hc) p q,
          Relation.EqvGen.mono (fun _ _ hc => ClusterLink.congr hat hc) p q⟩
      constructor
      · intro H p hp q hq a b
        exact (hlk p q).1 (H p hp q hq (hat p hp ▸ a) (hat q hq ▸ b))
      · intro H p hp q hq a b
        exact (hlk p q).2 (H p hp q hq ((hat p hp).trans a) ((hat q hq).trans b))


/-- **C87** (partial).  `idx` are the rows that are kept.  `SubClusterDetector.fit` without propagation succeeds; and whenever it succeeds, with propagation
(`prop`) or without, `BranchDetector.fit` does: a row that is not kept gets label -1 and strength 0, kept noise label -1 and its strength; every other row gets a
label that is not negative; two such rows have the same label exactly if they are in the same cluster and that cluster has one branch or the two rows have
the same branch label; and the strength is that of the cluster if it has one branch, otherwise the mean of the strengths in the cluster and in the branch.
With a positive persistence or a largest cluster size the theorem is about the fits that succeed.  Partial: lens values are finite (λ positive). -/
theorem C87_branches_partial [LinearOrder V] [Add V] (inv : W → Option V) (zero : V) {n num : ℕ} {tree : List (CRow K K)} {idx : List ℕ}
    (hrec : recoverFinite n tree = some idx ∨ (recoverFinite n tree = none ∧ idx = List.range n))
    {lab : ℕ → ℤ} {nb : ℕ → List (Option ℕ)} {mst : List (Edge D)} (h : SubInput idx.length num (atFinite idx lab) nb mst)
    (hnum : 0 < num) {sortRow : LensRow W D → LensRow W D} (hs : SortsRows sortRow) (lam : W → K) (hlam : Antitone lam)
    (hpos : ∀ d, 0 ≤ lam d) (wt : ℕ → K) (o : ClusterOpts K) (h1 : 1 < o.minClusterSize) (h0 : ∀ x ∈ idx, 0 ≤ wt x)
    (hl : ∀ x ∈ idx, wt x < o.minClusterSize) (core : ℕ → D) (probs : ℕ → K)
    (lens : ℕ → ℕ → W) (hlens : ∀ c i, 0 < lam (lens c i)) (prop sides : Bool)
    (hok : (o.persistence ≤ 0 ∧ o.maxClusterSize = none) ∨ ∃ f, detectorFit inv zero prop sortRow lam wt o n tree lab probs nb core mst lens = some f) :
    (∃ f, detectorFit inv zero false sortRow lam wt o n tree lab probs nb core mst lens = some f) ∧
    ∀ f, detectorFit inv zero prop sortRow lam wt o n tree lab probs nb core mst lens = some f →
      ∃ g, f.branches sides = some g ∧ g.out.subLabels = f.out.subLabels ∧ g.out.subProbs = f.out.subProbs ∧
        (g.out.labels.length = n ∧ g.out.probs.length = n ∧ g.out.subLabels.length = n ∧ g.out.subProbs.length = n) ∧
        (∀ i < n, i ∉ idx → g.out.labels[i]? = some (-1) ∧ g.out.probs[i]? = some 0) ∧
        (∀ i ∈ idx, lab i = -1 → g.out.labels[i]? = some (-1) ∧ g.out.probs[i]? = some (probs i)) ∧
        (∀ i ∈ idx, lab i ≠ -1 → (∃ l : ℤ, 0 ≤ l ∧ g.out.labels[i]? = some l) ∧
          (OneBranch sides idx lab nb mst (fun i => g.out.subLabels.getD i 0) (lab i) → g.out.probs[i]? = some (probs i)) ∧
          (¬ OneBranch sides idx lab nb mst (fun i => g.out.subLabels.getD i 0) (lab i) →
            g.out.probs[i]? = some ((probs i + g.out.subProbs.getD i 0) / 2))) ∧
        ∀ i ∈ idx, ∀ j ∈ idx, lab i ≠ -1 → lab j ≠ -1 → (g.out.labels[i]? = g.out.labels[j]? ↔
          lab i = lab j ∧ (OneBranch sides idx lab nb mst (fun i => g.out.subLabels.getD i 0) (lab i) ∨ g.out.subLabels[i]? = g.out.subLabels[j]?)) := by
  have hrange : idx.Pairwise (· < ·) ∧ ∀ i ∈ idx, i < n := by
    rcases hrec with hrec | ⟨_, rfl⟩
    · exact recoverFinite_rows hrec
    · exact ⟨List.pairwise_lt_range, fun i hi => List.mem_range.1 hi⟩
  have hok' : (o.persistence ≤ 0 ∧ o.maxClusterSize = none) ∨ ∃ out, findSubClusters sortRow lam wt o n tree lab probs nb core mst lens = some out :=
    hok.imp_right fun ⟨f, hf⟩ => findSub_of_detector hf
  obtain ⟨T, f0, e1, e2, e3, e4⟩ := h.fit inv zero hrec hnum hs lam hlam hpos wt o h1 h0 hl core probs lens hlens hok'
  obtain ⟨out, p1, p2, p3, p4, p5, p6, _⟩ := C78_all_rows_partial hrec h hnum hs lam hlam hpos wt o h1 h0 hl core probs lens hlens hok'
  have hout := detectorFit_out inv zero sortRow lam wt o n tree lab probs nb core mst lens
  rw [e1, p1, Option.map_some, Option.some.injEq] at hout
  subst hout
  refine ⟨⟨f0, e1⟩, fun f hf => ?_⟩
  have hcl : ∀ i ∈ idx, lab i ≠ -1 → 0 ≤ lab i ∧ lab i < num := fun i hi hn => by
    obtain ⟨k, hk⟩ := List.mem_iff_getElem?.1 hi
    have := h.labels k (List.getElem?_eq_some_iff.1 hk).1
    have e : atFinite idx lab k = lab i := by unfold atFinite; rw [List.getD_eq_getElem?_getD, hk]; rfl
    rw [e] at this
    omega
  -- the fit with or without propagation
  have key : f.branchClusters = f0.branchClusters ∧ f.out.probs = f0.out.probs ∧ f.out.clusterProbs = f0.out.clusterProbs ∧ f.out.subProbs = f0.out.subProbs ∧
      f.out.labels.length = n ∧ f.out.subLabels.length = n ∧
      (∀ c : ℕ, c < num → DenseLabels ((rowsIn idx lab c).map fun i => f.out.subLabels.getD i 0)) ∧
      ∀ i < n, (∀ c : ℕ, c < num → i ∉ rowsIn idx lab c) → f.out.labels.getD i (-1) = f0.out.labels.getD i (-1) := by
    cases prop with
    | false =>
      rw [e1, Option.some.injEq] at hf
      subst hf
      exact ⟨rfl, rfl, rfl, rfl, p2.1, p2.2.2.2.2.1, fun c hc => (e3 c hc).1, fun _ _ _ => rfl⟩
    | true =>
      have good := detectorFit_goodFit _ _ _ _ _ _ _ _ _ _ _ _ _ _ e1
      rw [C88_propagated_labels, e1, Option.bind_some] at hf
      obtain ⟨l, hl', rfl⟩ := Option.map_eq_some_iff.1 hf
      unfold DetectorFit.propagatedLabels at hl'
      obtain ⟨a, ha, rfl⟩ := Option.map_eq_some_iff.1 hl'
      have hpts : f0.clusters.map SubCluster.points = (List.range num).map fun c : ℕ => rowsIn idx lab c := by
        have := congrArg (List.map Prod.fst) e2
        unfold DetectorFit.branchClusters at this
        rw [List.map_map, List.map_map] at this
        exact this
      refine ⟨rfl, rfl, rfl, rfl, by simp [p2.1], by simp [p2.1], fun c hc => ?_, fun i hi hni => ?_⟩
      · have hmem : rowsIn idx lab c ∈ f0.clusters.map SubCluster.points := by
          rw [hpts]; exact List.mem_map.2 ⟨c, List.mem_range.2 hc, rfl⟩
        obtain ⟨d, hd, hdp⟩ := List.mem_map.1 hmem
        have hloc := propagateSub_locals (f0.clusters.map (SubCluster.propagate inv zero)) (fun c hc => by
            obtain ⟨d, hd, rfl⟩ := List.mem_map.1 hc
            exact ⟨propagate_keepsLength inv zero d, good.clusters.nodup _ (List.mem_map_of_mem (f := SubCluster.points) hd)⟩) (by
            have := good.clusters.disjoint
            rw [List.pairwise_map] at this ⊢
            exact this) _ _ ha _ (List.mem_map_of_mem hd)
        have hdn := (e3 c hc).1
        rw [← hdp] at hdn ⊢
        have := hdn.newLocals hloc
        have hc' : (d.points.map fun i => ((List.range f0.out.labels.length).map a.subLabels).getD i 0) = d.points.map a.subLabels := by
          refine List.map_congr_left fun i hi => getD_range_map _ _ ?_
          rw [p2.1]
          exact good.clusters.lt _ (List.mem_map_of_mem (f := SubCluster.points) hd) i hi
        simp only
        rw [hc']
        exact this
      · simp only
        rw [getD_range_map _ _ (by rw [p2.1]; exact hi)]
        refine (propagateSub_off _ (fun c hc => ?_) _ _ ha i fun c hc hi' => ?_).1
        · obtain ⟨d, hd, rfl⟩ := List.mem_map.1 hc
          exact propagate_keepsLength inv zero d
        · obtain ⟨d, hd, rfl⟩ := List.mem_map.1 hc
          have hmem : d.points ∈ f0.clusters.map SubCluster.points := List.mem_map_of_mem hd
          rw [hpts] at hmem
          obtain ⟨c, hc, hcp⟩ := List.mem_map.1 hmem
          exact hni c (List.mem_range.1 hc) (by rw [hcp]; exact hi')
  clear hf
  obtain ⟨k1, k2, k3, k4, k5, k6, k7, k8⟩ := key
  have hrows : ∀ c : ℕ, rowsIn idx lab c = clusterPoints n (rowLabel idx lab) c := fun c => rowsIn_eq hrange.1 hrange.2 lab (by omega)
  have hcs : f.branchClusters = (List.range num).map fun c : ℕ => (clusterPoints n (rowLabel idx lab) c, T c) := by
    rw [k1, e2]; exact List.map_congr_left fun c _ => by rw [hrows]
  have hrl : ∀ i ∈ idx, rowLabel idx lab i = lab i := fun i hi => if_pos hi
  obtain ⟨s, s1, s2, s3, s4⟩ := C49_branch_threshold_partial sides n num (rowLabel idx lab) (fun i => f.out.subLabels.getD i 0)
    (fun i => f.out.labels.getD i (-1)) (fun i => f.out.probs.getD i 0) (fun i => f.out.clusterProbs.getD i 0) T (fun c hc => by
      obtain ⟨i, j, a, b, e, _⟩ := h.two c hc
      have hi : idx.getD i 0 ∈ idx := by
        rw [List.getD_eq_getElem?_getD, List.getElem?_eq_getElem (by omega : i < idx.length)]; exact List.getElem_mem _
      exact ⟨idx.getD i 0, hrange.2 _ hi, by rw [hrl _ hi]; exact e⟩) (fun c hc => by rw [← hrows]; exact k7 c hc)
  have hone : ∀ i ∈ idx, lab i ≠ -1 → ((branchCount ((clusterPoints n (rowLabel idx lab) (rowLabel idx lab i)).map fun i => f.out.subLabels.getD i 0) ≤
      (if sides then 1 else 2) ∧ T (rowLabel idx lab i).toNat = true) ↔ OneBranch sides idx lab nb mst (fun i => f.out.subLabels.getD i 0) (lab i)) := by
    intro i hi hn
    obtain ⟨a, b⟩ := hcl i hi hn
    obtain ⟨c, hc⟩ := Int.eq_ofNat_of_zero_le a
    unfold OneBranch
    rw [hrl i hi, hc, Int.toNat_natCast, ← hrows, e4 c (by omega), and_comm]
  refine ⟨{ f with out := { f.out with labels := (List.range f.out.labels.length).map s.labels, probs := (List.range f.out.labels.length).map s.probs } },
    by unfold DetectorFit.branches; rw [hcs, s1, Option.map_some], rfl, rfl, ⟨by simp [k5], by simp [k5], k6, ?_⟩, fun i hi hni => ?_,
    fun i hi hn => ?_, fun i hi hn => ?_, fun i hi j hj hin hjn => ?_⟩
  · simp only; rw [k4]; exact p2.2.2.2.2.2
  · obtain ⟨a, b⟩ := s2 i (fun hh => by
      have : rowLabel idx lab i = -1 := if_neg hni
      omega)
    obtain ⟨q1, q2, _⟩ := p3 i hi hni
    have c1 := k8 i hi fun c hc hm => hni (List.mem_filter.1 hm).1
    simp only [List.getElem?_map, List.getElem?_range (by rw [k5]; exact hi : i < f.out.labels.length), Option.map_some]
    rw [a, b, c1, k2, List.getD_eq_getElem?_getD, List.getD_eq_getElem?_getD, q1, q2]
    exact ⟨rfl, rfl⟩
  · have hin := hrange.2 i hi
    obtain ⟨a, b⟩ := s2 i (fun hh => by rw [hrl i hi] at hh; omega)
    obtain ⟨q1, q2, _⟩ := p5 i hi hn
    have c1 := k8 i hin fun c hc hm => by
      have := (List.mem_filter.1 hm).2
      simp only [decide_eq_true_eq] at this
      omega
    simp only [List.getElem?_map, List.getElem?_range (by rw [k5]; exact hin : i < f.out.labels.length), Option.map_some]
    rw [a, b, c1, k2, List.getD_eq_getElem?_getD, List.getD_eq_getElem?_getD, q1, q2]
    exact ⟨rfl, rfl⟩
  · have hin := hrange.2 i hi
    obtain ⟨a, b⟩ := hcl i hi hn
    obtain ⟨c1, c2, c3⟩ := s3 i hin (by rw [hrl i hi]; exact a) (by rw [hrl i hi]; exact b)
    beta_reduce at c2 c3
    rw [hone i hi hn] at c2 c3
    obtain ⟨_, _, sp, _, _, _, _, _, _, q1, q2⟩ := p6 i hi hn
    simp only [List.getElem?_map, List.getElem?_range (by rw [k5]; exact hin : i < f.out.labels.length), Option.map_some]
    refine ⟨⟨_, c1, rfl⟩, fun ho => ?_, fun ho => ?_⟩
    · rw [c2 ho, k3, List.getD_eq_getElem?_getD, (p4 i hi).2.2]; rfl
    · rw [c3 ho, k2, k4, List.getD_eq_getElem?_getD, List.getD_eq_getElem?_getD, q2, q1]; rfl
  · have hii := hrange.2 i hi
    have hjj := hrange.2 j hj
    obtain ⟨a, b⟩ := hcl i hi hin
    obtain ⟨a', b'⟩ := hcl j hj hjn
    have := s4 i hii j hjj (by rw [hrl i hi]; exact a) (by rw [hrl i hi]; exact b) (by rw [hrl j hj]; exact a') (by rw [hrl j hj]; exact b')
    beta_reduce at this
    rw [hone i hi hin, hrl i hi, hrl j hj] at this
    simp only [List.getElem?_map, List.getElem?_range (by rw [k5]; exact hii : i < f.out.labels.length),
      List.getElem?_range (by rw [k5]; exact hjj : j < f.out.labels.length), Option.map_some, Option.some.injEq]
    rw [this]
    have hg : ∀ i < n, f.out.subLabels[i]? = some (f.out.subLabels.getD i 0) := fun i hi => by
      rw [List.getD_eq_getElem?_getD, List.getElem?_eq_getElem (by rw [k6]; exact hi)]; rfl
    rw [hg i hii, hg j hjj, Option.some.injEq]

end

end Verif
