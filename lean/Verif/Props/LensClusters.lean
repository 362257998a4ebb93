import Verif.Props.LensGraph
import Verif.Props.Total

/-!
# C72: clusters of a lens
-/

namespace Verif
variable {W D K : Type*}

/-! ## Renumbering components -/

theorem relabel_loop (labels : List ℕ) (suf : List ℕ) : ∀ pre : List ℕ, (pre ++ suf).Pairwise (· < ·) → (∀ x ∈ labels, x ∈ pre ++ suf) →
    (∀ k (h : k < (pre ++ suf).length), k ≤ (pre ++ suf)[k]) →
    (suf.zipIdx pre.length).foldl (fun l p => l.map fun x => if x = p.1 then p.2 else x)
      (labels.map fun x => if x ∈ pre then pre.idxOf x else x) = labels.map fun x => (pre ++ suf).idxOf x := by
  induction suf with
  | nil =>
    intro pre _ hm _
    rw [List.append_nil] at hm ⊢
    exact List.map_congr_left fun x hx => if_pos (hm x hx)
  | cons a suf ih =>
    intro pre hp hm hk
    have e : pre ++ a :: suf = (pre ++ [a]) ++ suf := by simp
    rw [List.zipIdx_cons, List.foldl_cons]
    have ha : pre.length ≤ a := by
      have := hk pre.length (by simp)
      simpa using this
    have hna : a ∉ pre := fun h => by
      have := (List.pairwise_append.1 hp).2.2 a h a (by simp)
      exact lt_irrefl _ this
    have step : ((labels.map fun x => if x ∈ pre then pre.idxOf x else x).map fun x => if x = a then pre.length else x) =
        labels.map fun x => if x ∈ pre ++ [a] then (pre ++ [a]).idxOf x else x := by
      rw [List.map_map]
      refine List.map_congr_left fun x _ => ?_
      simp only [Function.comp]
      by_cases hx : x ∈ pre
      · have h1 : pre.idxOf x < pre.length := List.idxOf_lt_length_of_mem hx
        rw [if_pos hx, if_neg (by omega), if_pos (by simp [hx]), List.idxOf_append_of_mem hx]
      · rw [if_neg hx]
        by_cases hxa : x = a
        · subst hxa
          rw [if_pos rfl, if_pos (by simp), List.idxOf_append_of_notMem hna]; simp
        · rw [if_neg hxa, if_neg (by simp [hx, hxa])]
    rw [step, e]
    have := ih (pre ++ [a]) (e ▸ hp) (e ▸ hm) (by rw [← e]; exact hk)
    rwa [List.length_append, List.length_singleton] at this

theorem asc_ge {l : List ℕ} (h : l.Pairwise (· < ·)) : ∀ k (hk : k < l.length), k ≤ l[k] := by
  intro k
  induction k with
  | zero => intro _; omega
  | succ k ih =>
    intro hk
    have h1 := ih (by omega)
    have h2 := List.pairwise_iff_getElem.1 h k (k + 1) (by omega) hk (by omega)
    omega

theorem relabelComponents_eq (labels : List ℕ) :
    relabelComponents labels = labels.map fun x => (labels.dedup.insertionSort (· ≤ ·)).idxOf x := by
  have hs : (labels.dedup.insertionSort (· ≤ ·)).Pairwise (· < ·) := by
    have h1 : (labels.dedup.insertionSort (· ≤ ·)).Pairwise (· ≤ ·) := List.pairwise_insertionSort _ _
    have h2 : (labels.dedup.insertionSort (· ≤ ·)).Nodup := (List.perm_insertionSort _ _).nodup_iff.2 (List.nodup_dedup _)
    exact (h1.and h2).imp fun h => lt_of_le_of_ne h.1 h.2
  have := relabel_loop labels (labels.dedup.insertionSort (· ≤ ·)) [] hs
    (fun x hx => (List.perm_insertionSort _ _).mem_iff.2 (List.mem_dedup.2 hx)) (asc_ge hs)
  simpa [relabelComponents] using this

/-- The renumbered labels are equal where the labels are, and are the numbers below the number of different labels. -/
theorem relabelComponents_spec (labels : List ℕ) :
    (relabelComponents labels).length = labels.length ∧
      (∀ i j, i < labels.length → j < labels.length →
        ((relabelComponents labels)[i]? = (relabelComponents labels)[j]? ↔ labels[i]? = labels[j]?)) ∧
      ∀ l, l ∈ relabelComponents labels ↔ l < labels.toFinset.card := by
  rw [relabelComponents_eq]
  set u := labels.dedup.insertionSort (· ≤ ·) with hu
  have hmem : ∀ x, x ∈ u ↔ x ∈ labels := fun x => (List.perm_insertionSort _ _).mem_iff.trans List.mem_dedup
  have hnd : u.Nodup := (List.perm_insertionSort _ _).nodup_iff.2 (List.nodup_dedup _)
  have hlen : u.length = labels.toFinset.card := by rw [hu, List.length_insertionSort, List.card_toFinset]
  refine ⟨by simp, fun i j hi hj => ?_, fun l => ?_⟩
  · rw [List.getElem?_map, List.getElem?_map, List.getElem?_eq_getElem hi, List.getElem?_eq_getElem hj]
    simp only [Option.map_some, Option.some.injEq]
    refine ⟨fun h => ?_, fun h => by rw [h]⟩
    exact (List.idxOf_inj ((hmem _).2 (List.getElem_mem hi))).1 h
  · rw [List.mem_map]
    constructor
    · rintro ⟨x, hx, rfl⟩
      rw [← hlen]; exact List.idxOf_lt_length_of_mem ((hmem x).2 hx)
    · intro h
      rw [← hlen] at h
      exact ⟨u[l], (hmem _).1 (List.getElem_mem h), hnd.idxOf_getElem l h⟩

/-- As many different labels as components, if labels tell components apart. -/
theorem card_labels_eq {n : ℕ} {g : List (Edge W)} {f : ℕ → ℕ} (h : ∀ i j, f i = f j ↔ Conn g i j) :
    ((List.range n).map f).toFinset.card = compCount n g := by
  classical
  unfold compCount
  have e : ((List.range n).map f).toFinset =
      ((Finset.range n).filter (fun x => ∀ y, y < x → ¬ Conn g x y)).image f := by
    ext l
    simp only [List.mem_toFinset, List.mem_map, List.mem_range, Finset.mem_image, Finset.mem_filter, Finset.mem_range]
    constructor
    · rintro ⟨x, hx, rfl⟩
      have hex : ∃ y, Conn g x y := ⟨x, Conn.refl _ _⟩
      refine ⟨Nat.find hex, ⟨lt_of_le_of_lt (Nat.find_min' hex (Conn.refl _ _)) hx, fun y hy hc => ?_⟩, ?_⟩
      · exact Nat.find_min hex hy ((Nat.find_spec hex).trans hc)
      · exact (h _ _).2 (Nat.find_spec hex).symm
    · rintro ⟨x, ⟨hx, _⟩, rfl⟩
      exact ⟨x, hx, rfl⟩
  rw [e, Finset.card_image_of_injOn]
  intro a ha b hb hab
  simp only [Finset.coe_filter, Set.mem_setOf_eq] at ha hb
  have hc := (h a b).1 hab
  by_contra hne
  rcases Nat.lt_or_gt_of_ne hne with hlt | hlt
  · exact hb.2 a hlt hc.symm
  · exact ha.2 b hlt hc

section
variable [LinearOrder W] [OrderTop W] [Inhabited W] [LinearOrder D] [Field K] [LinearOrder K] [IsStrictOrderedRing K] [Inhabited K]

/-- **C72** (disconnected).  If the core graph is disconnected, the labels are those of its components, numbered from 0 without gaps, no sample is
noise, and the returned forest spans the components. -/
theorem C72_components {sortRow : LensRow W D → LensRow W D} (hs : SortsRows sortRow) (lam : W → K) (wt : ℕ → K) (o : ClusterOpts K) {n : ℕ}
    {nb : ℕ → List (Option ℕ)} {core : ℕ → D} {mst : List (Edge D)} {lens : ℕ → W} (hi : LensInput n nb mst) (hne : NoEmptyRow n nb mst)
    (hd : ∃ a b, a < n ∧ b < n ∧ ¬ Conn (lensEdges n nb mst lens) a b) :
    ∃ labels forest, coreGraphClusters sortRow lam wt o n nb core mst lens = some (.components labels forest) ∧ labels.length = n ∧
      (∀ i j, i < n → j < n → (labels[i]? = labels[j]? ↔ Conn (lensEdges n nb mst lens) i j)) ∧
      (∀ l, l ∈ labels ↔ l < compCount n (lensEdges n nb mst lens)) ∧ SpanningForest (lensEdges n nb mst lens) forest := by
  obtain ⟨h1, h2, h3⟩ := C71_lens_forest_partial (core := core) (lens := lens) hs hi hne
  have hc : 1 < compCount n (lensEdges n nb mst lens) := by
    by_contra hle
    obtain ⟨a, b, ha, hb, hab⟩ := hd
    exact hab (conn_of_compCount_le_one (by omega) ha hb)
  unfold coreGraphClusters
  simp only
  rw [if_pos (by rw [h3]; exact hc)]
  obtain ⟨g1, g2, g3⟩ := relabelComponents_spec ((List.range n).map (boruvkaMst n (lensGraph sortRow n nb core mst lens).weights).2.1)
  refine ⟨_, _, rfl, by rw [g1]; simp, fun i j hin hjn => ?_, fun l => ?_, h1⟩
  · rw [g2 i j (by simpa using hin) (by simpa using hjn), ← h2 i j]
    simp [hin, hjn]
  · rw [g3, card_labels_eq h2]

/-- **C72** (connected, partial).  If the core graph is connected, what is returned is the clustering of a spanning tree of it with lens weights,
and it has the meaning of C63.  Missing: `max_cluster_size` and a positive persistence, for which see C63. -/
theorem C72_connected_partial {sortRow : LensRow W D → LensRow W D} (hs : SortsRows sortRow) (lam : W → K) (hlam : Antitone lam)
    (hpos : ∀ d, 0 ≤ lam d) (wt : ℕ → K) (o : ClusterOpts K) {n : ℕ} (hn : 2 ≤ n) (h1 : 1 < o.minClusterSize) (h0 : ∀ x, x < n → 0 ≤ wt x)
    (hl : ∀ x, x < n → wt x < o.minClusterSize) (hper : o.persistence ≤ 0) (hmax : o.maxClusterSize = none)
    {nb : ℕ → List (Option ℕ)} {core : ℕ → D} {mst : List (Edge D)} {lens : ℕ → W} (hi : LensInput n nb mst) (hne : NoEmptyRow n nb mst)
    (hc : ∀ a b, a < n → b < n → Conn (lensEdges n nb mst lens) a b) :
    ∃ (t : List (Edge W)) (r : ClusterResult W K) (k : ℕ), coreGraphClusters sortRow lam wt o n nb core mst lens = some (.clustered r) ∧
      SpanningTree n t ∧ (∀ e ∈ t, e ∈ lensEdges n nb mst lens) ∧ clustersFromMst lam wt o t = some r ∧ CondTree n k r.condensed ∧
      NonNested r.condensed r.selected ∧ (∀ c ∈ r.selected, n ≤ c ∧ c < n + k) ∧ (r.selected = [] ↔ k = 1) ∧
      LabelsMean n r.condensed r.selected (epsLam o.epsilon) r.labels ∧
      ∀ x, x < n → 0 ≤ r.strengths x ∧ r.strengths x ≤ 1 ∧ (r.labels[x]? = some (-1) → r.strengths x = 0) := by
  obtain ⟨f1, _, f3⟩ := C71_lens_forest_partial (core := core) (lens := lens) hs hi hne
  set t := (boruvkaMst n (lensGraph sortRow n nb core mst lens).weights).2.2 with ht
  have hsub : ∀ e ∈ t, e ∈ lensEdges n nb mst lens := fun e he => f1.sub.subset he
  have htree : SpanningTree n t := by
    refine ⟨fun e he => ?_, f1.acyclic, fun a b ha hb => (f1.conn a b).2 (hc a b ha hb)⟩
    obtain ⟨hu, _, hv⟩ := (mem_lensEdges hi).1 (hsub e he)
    refine ⟨hu, ?_⟩
    rcases hv with h | ⟨m, hm, _, h⟩
    · exact (hi.knn _ hu _ h).1
    · rw [← h]; exact (hi.mst m hm).2.1
  obtain ⟨r, k, g1, g2, _, g4, g5, g6, g7, g8⟩ := C63_clustering_total_partial n hn wt t htree o h1 h0 hl lam hlam hpos (.inl hper)
    (.inr fun rows _ m hm => by rw [hmax] at hm; simp at hm)
  refine ⟨t, r, k, ?_, htree, hsub, g1, g2, g4, g5, g6, g7, g8⟩
  unfold coreGraphClusters
  simp only
  rw [if_neg (by rw [f3, compCount_eq_one (by omega) hc]; omega), ← ht, g1]
  rfl

/-- **C72** (connected, all options).  If the core graph is connected and clustering returns, what it returns is the clustering of a spanning tree of it
with lens weights, and it has the meaning of C63. -/
theorem C72_connected_returned {sortRow : LensRow W D → LensRow W D} (hs : SortsRows sortRow) (lam : W → K) (hlam : Antitone lam)
    (hpos : ∀ d, 0 ≤ lam d) (wt : ℕ → K) (o : ClusterOpts K) {n : ℕ} (hn : 2 ≤ n) (h1 : 1 < o.minClusterSize) (h0 : ∀ x, x < n → 0 ≤ wt x)
    (hl : ∀ x, x < n → wt x < o.minClusterSize)
    {nb : ℕ → List (Option ℕ)} {core : ℕ → D} {mst : List (Edge D)} {lens : ℕ → W} (hi : LensInput n nb mst) (hne : NoEmptyRow n nb mst)
    (hc : ∀ a b, a < n → b < n → Conn (lensEdges n nb mst lens) a b) {res : LensClusters W K}
    (hres : coreGraphClusters sortRow lam wt o n nb core mst lens = some res) :
    ∃ (t : List (Edge W)) (r : ClusterResult W K) (k : ℕ), res = .clustered r ∧
      SpanningTree n t ∧ (∀ e ∈ t, e ∈ lensEdges n nb mst lens) ∧ clustersFromMst lam wt o t = some r ∧ CondTree n k r.condensed ∧
      NonNested r.condensed r.selected ∧ (∀ c ∈ r.selected, n ≤ c ∧ c < n + k) ∧ (n ∈ r.selected → r.selected = [n]) ∧ (k = 1 → r.selected = []) ∧
      LabelsMean n r.condensed r.selected (epsLam o.epsilon) r.labels ∧
      ∀ x, x < n → 0 ≤ r.strengths x ∧ r.strengths x ≤ 1 ∧ (r.labels[x]? = some (-1) → r.strengths x = 0) := by
  obtain ⟨f1, _, f3⟩ := C71_lens_forest_partial (core := core) (lens := lens) hs hi hne
  set t := (boruvkaMst n (lensGraph sortRow n nb core mst lens).weights).2.2 with ht
  have hsub : ∀ e ∈ t, e ∈ lensEdges n nb mst lens := fun e he => f1.sub.subset he
  have htree : SpanningTree n t := by
    refine ⟨fun e he => ?_, f1.acyclic, fun a b ha hb => (f1.conn a b).2 (hc a b ha hb)⟩
    obtain ⟨hu, _, hv⟩ := (mem_lensEdges hi).1 (hsub e he)
    refine ⟨hu, ?_⟩
    rcases hv with h | ⟨m, hm, _, h⟩
    · exact (hi.knn _ hu _ h).1
    · rw [← h]; exact (hi.mst m hm).2.1
  unfold coreGraphClusters at hres
  simp only at hres
  rw [if_neg (by rw [f3, compCount_eq_one (by omega) hc]; omega), ← ht] at hres
  obtain ⟨r, hr, rfl⟩ := Option.map_eq_some_iff.1 hres
  obtain ⟨k, g2, _, g4, g5, g6, g7, g8, g9⟩ := C63_returned n hn wt t htree o h1 h0 hl lam hlam hpos hr
  exact ⟨t, r, k, rfl, htree, hsub, hr, g2, g4, g5, g6, g7, g8, g9⟩

end

/-- A stable sort of the rows for weights that are rationals or infinite. -/
def stableRowsQ (r : LensRow (WithTop ℚ) ℕ) : LensRow (WithTop ℚ) ℕ := r.insertionSort fun a b => a.2.1 ≤ b.2.1

theorem stableRowsQ_sorts : SortsRows stableRowsQ := by
  refine ⟨fun r => List.perm_insertionSort _ r, fun r => ?_⟩
  have : Std.Total (fun a b : ℕ × WithTop ℚ × ℕ => a.2.1 ≤ b.2.1) := ⟨fun a b => le_total _ _⟩
  have : IsTrans (ℕ × WithTop ℚ × ℕ) (fun a b => a.2.1 ≤ b.2.1) := ⟨fun a b c => le_trans⟩
  exact List.pairwise_insertionSort _ r

/-- Two pairs of mutual neighbours. -/
def pairNb (i : ℕ) : List (Option ℕ) := [[some 2], [some 3, none], [some 0], [some 1]].getD i []

theorem pairNb_input : LensInput 4 pairNb ([] : List (Edge ℕ)) ∧ NoEmptyRow 4 pairNb ([] : List (Edge ℕ)) := by
  refine ⟨⟨fun u hu v hv => ?_, by decide⟩, fun u hu => ?_⟩
  · interval_cases u <;> simp [pairNb] at hv <;> omega
  · interval_cases u <;> exact .inl ⟨_, List.mem_cons_self⟩

/-- The hypotheses of `C72_components` hold for two pairs of points without a tree edge between them. -/
example : ∃ a b, a < 4 ∧ b < 4 ∧ ¬ Conn (lensEdges 4 pairNb ([] : List (Edge ℕ)) fun _ => (1 : WithTop ℚ)) a b := by
  refine ⟨0, 1, by decide, by decide, fun h => ?_⟩
  have := conn_invariant (fun x => x % 2) (by decide +kernel) h
  simp at this

/-- The hypotheses of `C72_connected_partial` hold for the four points with a lens of rationals. -/
example : ∃ (t : List (Edge (WithTop ℚ))) (r : ClusterResult (WithTop ℚ) ℚ),
    coreGraphClusters stableRowsQ lamq (fun _ => 1) (exOpts .eom 0) 4 exNb exCoreD exTreeD
      (fun i => (((i : ℕ) + 1 : ℚ) : WithTop ℚ)) = some (.clustered r) ∧ SpanningTree 4 t ∧ clustersFromMst lamq (fun _ => 1) (exOpts .eom 0) t = some r := by
  obtain ⟨t, r, k, h1, h2, _, h3, _⟩ := C72_connected_partial (K := ℚ) (core := exCoreD) (n := 4) (nb := exNb) (mst := exTreeD)
    (lens := fun i => (((i : ℕ) + 1 : ℚ) : WithTop ℚ)) stableRowsQ_sorts lamq lamq_antitone lamq_nonneg (fun _ => 1) (exOpts .eom 0)
    (by decide) (by decide) (by decide) (by decide) (by decide) rfl exNb_input.1 exNb_input.2 (fun a b ha hb => by
      have h1 : ∀ e ∈ exTreeD, Conn (lensEdges 4 exNb exTreeD fun i => (((i : ℕ) + 1 : ℚ) : WithTop ℚ)) e.u e.v := fun e he =>
        Conn.edge (e := ⟨e.u, e.v, max (((e.u : ℕ) + 1 : ℚ) : WithTop ℚ) (((e.v : ℕ) + 1 : ℚ) : WithTop ℚ)⟩) ((mem_lensEdges exNb_input.1).2 ⟨(exNb_input.1.mst e he).1, rfl, .inr ⟨e, he, rfl, rfl⟩⟩)
      refine Conn.of_forall h1 ?_
      have c21 : Conn exTreeD 2 1 := Conn.edge (e := ⟨2, 1, 25⟩) (by simp [exTreeD])
      have c31 : Conn exTreeD 3 1 := Conn.edge (e := ⟨3, 1, 29⟩) (by simp [exTreeD])
      have c01 : Conn exTreeD 0 1 := Conn.edge (e := ⟨0, 1, 52⟩) (by simp [exTreeD])
      have : ∀ a, a < 4 → Conn exTreeD a 1 := by
        intro a ha
        interval_cases a
        · exact c01
        · exact Conn.refl _ _
        · exact c21
        · exact c31
      exact (this a ha).trans (this b hb).symm)
  exact ⟨t, r, h1, h2, h3⟩

end Verif
