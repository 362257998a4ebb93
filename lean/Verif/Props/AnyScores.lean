import Verif.Lemmas.AnyScores
import Verif.Props.RawFit
import Verif.Props.Duplicates

/-!
# C104: the clustering is sound whatever rounding and infinities do to the scores

The scores of excess-of-mass selection are float32 sums computed with `fastmath`; duplicate rows have lambda `np.inf`, and then scores may be infinite or NaN.
Nothing is assumed here about the arithmetic on scores.
-/

namespace Verif
universe u
variable {V W α β : Type*} {K : Type u} [Field K] [LinearOrder K] [IsStrictOrderedRing K] [LinearOrder W] [OrderTop W] [Inhabited W] [Inhabited K]

/-- The result with the number `B` in place of infinite lambdas. -/
def ClusterResult.mapTop (B : K) (r : ClusterResult W K (WithTop K)) : ClusterResult W K :=
  ⟨r.labels, r.strengths, r.linkage, r.condensed.map (CRow.mapLam (topTo B)), r.sortedMst, r.selected⟩

omit [IsStrictOrderedRing K] [Inhabited K] in
theorem topTo_antitone {lam : W → WithTop K} (hlam : Antitone lam) (B : K) : Antitone fun d => topTo B (lam d) :=
  fun _ _ h => topTo_mono B (hlam h)

omit [IsStrictOrderedRing K] [Inhabited K] in
theorem topTo_nonneg {l : WithTop K} (hl : 0 ≤ l) {B : K} (hB : 0 < B) : 0 ≤ topTo B l := by
  have := topTo_mono B hl
  rwa [(topTo_eq_zero hB 0).2 rfl] at this

omit [OrderTop W] in
/-- The condensed tree with infinite lambdas, and with numbers in their place. -/
theorem condense_topTo {n : ℕ} (hn : 2 ≤ n) {wt : ℕ → K} {t : List (Edge W)} (ht : SpanningTree n t) (mcs : K) (lam : W → WithTop K) (B : K) :
    condenseTree (Hier.ofRows (mstToLinkage wt (lexsortMst t))) wt mcs none (fun d => topTo B (lam d)) =
      (condenseTree (Hier.ofRows (mstToLinkage wt (lexsortMst t))) wt mcs none lam).map (CRow.mapLam (topTo B)) := by
  have ht' := ht.perm (lexsortMst_perm t)
  obtain ⟨hden, _⟩ := C12_linkage_is_dendrogram n (by omega) wt _ ht' (lexsortMst_sorted t)
  have := condenseTree_ofRows_mapLam (φ := id) (g := topTo B) (lam := lam) (lam' := fun d => topTo B (lam d))
    (rows := mstToLinkage wt (lexsortMst t)) hden.valid (fun _ _ => rfl) wt mcs none
  rw [← this]
  congr 2
  exact (List.map_id _).symm

/-- The condensed tree with infinite lambdas, and with a large number in their place. -/
theorem any_tree {n : ℕ} (hn : 2 ≤ n) {wt : ℕ → K} {t : List (Edge W)} (ht : SpanningTree n t)
    {o : ClusterOpts K} (h1 : 1 < o.minClusterSize) (h0 : ∀ x, x < n → 0 ≤ wt x)
    (hl : ∀ x, x < n → wt x < o.minClusterSize) {lam : W → WithTop K} (hlam : Antitone lam) (hpos : ∀ d, 0 ≤ lam d)
    {T : List (CRow (WithTop K) K)} (hT : T = condenseTree (Hier.ofRows (mstToLinkage wt (lexsortMst t))) wt o.minClusterSize none lam) :
    ∃ (B : K) (k : ℕ), 0 < B ∧ 1 / o.epsilon < B ∧ (∀ row ∈ T, row.lam ∈ belowOrTop B) ∧
      condenseTree (Hier.ofRows (mstToLinkage wt (lexsortMst t))) wt o.minClusterSize none (fun d => topTo B (lam d)) = T.map (CRow.mapLam (topTo B)) ∧
      CondTree n k (T.map (CRow.mapLam (topTo B))) ∧ CBinary n k (T.map (CRow.mapLam (topTo B))) ∧ CMono (T.map (CRow.mapLam (topTo B))) ∧
      (∀ row ∈ T.map (CRow.mapLam (topTo B)), 1 < row.size ↔ n ≤ row.child) ∧ (∀ row ∈ T.map (CRow.mapLam (topTo B)), 0 ≤ row.lam) ∧
      T.map (CRow.mapLam (topTo B)) ≠ [] ∧ CondTree n k T ∧ (∀ row ∈ T, 1 < row.size ↔ n ≤ row.child) ∧ (∀ row ∈ T, 0 ≤ row.lam) ∧ T ≠ [] := by
  obtain ⟨B, hB, hBe, hBl⟩ := exists_topTo_bound (1 / o.epsilon) T
  have hlamB := topTo_antitone hlam B
  have hposB : ∀ d, 0 ≤ topTo B (lam d) := fun d => topTo_nonneg (hpos d) hB
  obtain ⟨rows, k, hs, hct, hbin, hmono, hkind, hlamr, hne⟩ :=
    simplified_tree (o := { o with persistence := 0 }) hn ht h1 h0 hl hlamB hposB (.inl le_rfl)
  have hTm := condense_topTo hn ht (wt := wt) o.minClusterSize lam B
  rw [← hT] at hTm
  have hrows : rows = T.map (CRow.mapLam (topTo B)) := by
    rw [← hTm]
    unfold simplifyIf at hs
    rw [if_neg (fun h => absurd h.1 (lt_irrefl _))] at hs
    exact (Option.some.inj hs).symm
  rw [hrows] at hct hbin hmono hkind hlamr hne
  refine ⟨B, k, hB, hBe, hBl, hTm, hct, hbin, hmono, hkind, hlamr, hne, hct.of_mapLam,
    fun row hrow => hkind (row.mapLam (topTo B)) (List.mem_map_of_mem hrow), fun row hrow => ?_, fun h => hne (by rw [h]; rfl)⟩
  by_contra hneg
  have h3 := hlamr (row.mapLam (topTo B)) (List.mem_map_of_mem hrow)
  have h4 := topTo_strictMonoOn B (hBl row hrow) (.inr (WithTop.coe_lt_coe.2 hB)) (not_le.1 hneg)
  rw [show topTo B ((0 : K) : WithTop K) = 0 from (topTo_eq_zero hB _).2 rfl] at h4
  exact absurd h3 (not_le.2 h4)

omit [LinearOrder W] [OrderTop W] [Inhabited W] [Inhabited K] in
theorem epsilonIfTop_eq {eps B : K} (hBe : 1 / eps < B) (T : List (CRow (WithTop K) K)) (sel0 : List ℕ) :
    epsilonIf eps (T.map (CRow.mapLam (topTo B))) sel0 = epsilonIfTop eps T sel0 := by
  unfold epsilonIf epsilonIfTop
  by_cases hc : 1 < sel0.length ∧ 0 < eps
  · rw [if_pos hc, if_pos hc, clusterTree_mapLam, epsilonSearch_mapLam (fun l => epsClose_topTo hc.2 hBe l)]
  · rw [if_neg hc, if_neg hc]

omit [Inhabited K] in
theorem labelVector_topTo {eps B : K} (hB : 0 < B) (hBe : 1 / eps < B) {T : List (CRow (WithTop K) K)} (hBl : ∀ row ∈ T, row.lam ∈ belowOrTop B)
    (sel : List ℕ) (n : ℕ) :
    labelVector (T.map (CRow.mapLam (topTo B))) sel (epsLam eps) n = labelVector T sel ((epsLam eps).map WithTop.some) n := by
  have hel : (epsLam eps : Option K) = ((epsLam eps).map WithTop.some).map (topTo B) := by
    unfold epsLam
    by_cases hc : 0 < eps
    · simp only [if_pos hc, Option.map_some]
      exact congrArg some (min_eq_left hBe.le).symm
    · simp [if_neg hc]
  conv_lhs => rw [hel]
  refine labelVector_mapLam (topTo_strictMonoOn B) (fun l _ => topTo_eq_zero hB l) T hBl sel _ (fun l hl' => ?_) n
  unfold epsLam at hl'
  by_cases hc : 0 < eps
  · simp only [if_pos hc, Option.map_some, Option.mem_def, Option.some.injEq] at hl'
    subst hl'
    exact .inr (WithTop.coe_lt_coe.2 hBe)
  · simp [if_neg hc] at hl'

omit [Inhabited K] in
/-- Labels mean the same with infinite lambdas as with numbers in their place. -/
theorem LabelsMean.of_topTo {n : ℕ} {eps B : K} (hB : 0 < B) (hBe : 1 / eps < B) {T : List (CRow (WithTop K) K)} (hBl : ∀ row ∈ T, row.lam ∈ belowOrTop B)
    {sel : List ℕ} {labels : List ℤ} (h : LabelsMean n (T.map (CRow.mapLam (topTo B))) sel (epsLam eps) labels) :
    LabelsMean n T sel ((epsLam eps).map WithTop.some) labels := by
  refine ⟨h.1, fun row hrow hx => ?_⟩
  obtain ⟨m1, m2, m3⟩ := h.2 (row.mapLam (topTo B)) (List.mem_map_of_mem hrow) hx
  have hz : (row.mapLam (topTo B)).lam ≠ 0 ↔ row.lam ≠ 0 := (topTo_eq_zero hB row.lam).not
  have hd : DenseEnough n (T.map (CRow.mapLam (topTo B))) (epsLam eps) (row.mapLam (topTo B)) ↔ DenseEnough n T ((epsLam eps).map WithTop.some) row := by
    unfold epsLam
    by_cases hc : 0 < eps
    · simp only [if_pos hc, Option.map_some, DenseEnough]
      have he : topTo B ((1 / eps : K) : WithTop K) = 1 / eps := min_eq_left hBe.le
      change 1 / eps ≤ topTo B row.lam ↔ ((1 / eps : K) : WithTop K) ≤ row.lam
      conv_lhs => rw [← he]
      exact (topTo_strictMonoOn B).le_iff_le (.inr (WithTop.coe_lt_coe.2 hBe)) (hBl row hrow)
    · simp only [if_neg hc, Option.map_none, DenseEnough, List.forall_mem_map]
      exact forall_congr' fun row' => forall_congr' fun hr' => forall_congr' fun _ =>
        (topTo_strictMonoOn B).le_iff_le (hBl row' hr') (hBl row hrow)
  refine ⟨fun hn i => ?_, fun hn i => ?_, m3⟩
  · rw [← hz]
    simp only [CDesc.mapLam_iff] at m1
    exact m1 hn i
  · rw [← hz, ← hd]
    exact m2 hn i

omit [Inhabited K] in
/-- Labels are below the number of selected clusters. -/
theorem LabelsMean.lt_length {L S : Type*} [LinearOrder L] [Zero L] {n k : ℕ} {rows : List (CRow L S)} (hct : CondTree n k rows) {sel : List ℕ} {e : Option L}
    {labels : List ℤ} (h : LabelsMean n rows sel e labels) : ∀ l ∈ labels, l < sel.length := by
  intro l hl'
  obtain ⟨x, hx⟩ := List.mem_iff_getElem?.1 hl'
  have hxn : x < n := by rw [← h.1]; exact (List.getElem?_eq_some_iff.1 hx).1
  obtain ⟨row, hrow, rfl⟩ := List.mem_map.1 ((hct.children x).2 (.inl hxn))
  obtain ⟨m1, m2, m3⟩ := h.2 row hrow hxn
  rcases lt_or_ge l 0 with hneg | hge
  · exact lt_of_lt_of_le hneg (Int.natCast_nonneg _)
  · obtain ⟨i, rfl⟩ := Int.eq_ofNat_of_zero_le hge
    by_cases htop : n ∈ sel
    · have := ((m2 htop i).1 hx).1
      have := List.length_pos_of_mem htop
      omega
    · obtain ⟨_, s, hs1, _⟩ := (m1 htop i).1 hx
      have := (List.getElem?_eq_some_iff.1 hs1).1
      rw [List.length_insertionSort] at this
      exact_mod_cast this

/-- What clustering a spanning tree returns with infinite lambdas and any score arithmetic has the common properties of clusterings. -/
theorem clustered_of_any {n : ℕ} (hn : 2 ≤ n) {wt : ℕ → K} {t : List (Edge W)} (ht : SpanningTree n t)
    {o : ClusterOpts K} (h1 : 1 < o.minClusterSize) (h0 : ∀ x, x < n → 0 ≤ wt x)
    (hl : ∀ x, x < n → wt x < o.minClusterSize) {lam : W → WithTop K} (hlam : Antitone lam) (hpos : ∀ d, 0 ≤ lam d) (hper : o.persistence ≤ 0)
    (a : StabOps V (WithTop K) K) (ops : ScoreOps V) {r : ClusterResult W K (WithTop K)} (hr : clustersFromMstAny a ops lam wt o t = some r) :
    ∃ B : K, 0 < B ∧ 1 / o.epsilon < B ∧ (∀ row ∈ r.condensed, row.lam ∈ belowOrTop B) ∧
      Clustered n (fun d => topTo B (lam d)) wt o t (r.mapTop B) ∧ r.linkage = mstToLinkage wt (lexsortMst t) ∧
      (n ∈ r.selected → o.method ≠ .leaf ∧ o.allowSingle = true ∨ 0 < o.epsilon) := by
  have hlen := ht.length (by omega)
  obtain ⟨T, hT⟩ : ∃ T, T = condenseTree (Hier.ofRows (mstToLinkage wt (lexsortMst t))) wt o.minClusterSize none lam := ⟨_, rfl⟩
  unfold clustersFromMstAny at hr
  simp only [hlen] at hr
  rw [← hT] at hr
  obtain ⟨sel0, e0, hr⟩ := Option.bind_eq_some_iff.1 hr
  obtain ⟨sel, e1, hr⟩ := Option.bind_eq_some_iff.1 hr
  obtain ⟨labels, e2, hr⟩ := Option.bind_eq_some_iff.1 hr
  obtain ⟨str, e3, rfl⟩ := Option.map_eq_some_iff.1 hr
  obtain ⟨B, k, hB, hBe, hBl, hTm, hct, hbin, hmono, hkind, hlamr, hne, hctT, hkindT, hlamT, hneT⟩ := any_tree hn ht h1 h0 hl hlam hpos hT
  obtain ⟨sel0', e0', g1, g2, g3, g4, g5⟩ := hctT.baseSelectionAny_sound hneT hkindT a ops o
  obtain rfl := Option.some.inj (e0.symm.trans e0')
  have e1' := (epsilonIfTop_eq hBe T sel0).trans e1
  obtain ⟨sel', f1, f2, f3, f4, f5, f6⟩ := hct.epsilon_any hkind hbin hmono o.epsilon g1 ((NonNested.mapLam_iff _).2 g2) g3 g4
  obtain rfl := Option.some.inj (e1'.symm.trans f1)
  have e2' := (labelVector_topTo hB hBe hBl sel n).trans e2
  obtain ⟨labels', _, d1, _, d3, _⟩ := hct.labels_safe hne hlamr sel f2 f3 (epsLam o.epsilon) (by
    by_cases htop : n ∈ sel
    · exact .inr (.inl (f5 htop))
    · refine .inr (.inr ⟨fun c hc => lt_of_le_of_ne (f4 c hc).1 fun he => htop (he ▸ hc), fun hlen1 row hrow hx hl0 hd hden => ?_⟩)
      obtain ⟨c, rfl⟩ := List.length_eq_one_iff.1 hlen1
      have := C26_key_error _ hct c (lt_of_le_of_ne (f4 c (by simp)).1 fun he => htop (by simp [he])) (epsLam o.epsilon) row hrow hx hl0 (hd c (by simp)) hden
      rw [e2'] at this
      cases this)
  obtain rfl := Option.some.inj (e2'.symm.trans d1)
  obtain ⟨str', s1, s2⟩ := C28_strengths T hctT hneT hlamT sel labels d3.1 (d3.lt_length hct)
  obtain rfl := Option.some.inj (e3.symm.trans s1)
  refine ⟨B, hB, hBe, hBl, ⟨?_, .inl hper, ⟨k, hct, f2, f3, f4, f5, f6, d3, fun x hx => ?_⟩, ⟨toTop B, ?_⟩⟩, rfl, fun htop => ?_⟩
  · rw [hTm]
    unfold simplifyIf
    rw [if_neg (fun h => absurd h.1 (not_lt.2 hper))]
    rfl
  · obtain ⟨row, hrow, rfl⟩ := List.mem_map.1 ((hctT.children x).2 (.inl hx))
    have hlt : row.child < labels.length := by rw [d3.1]; exact hx
    obtain ⟨q1, q2, -, -⟩ := s2 row hrow hx _ (List.getElem?_eq_getElem hlt)
    refine ⟨q1.1, q1.2, fun hlab => q2 ?_⟩
    replace hlab : labels[row.child]? = some (-1) := hlab
    rw [List.getElem?_eq_getElem hlt, Option.some.injEq] at hlab
    omega
  · change strengthVector ((T.map (CRow.mapLam (topTo B))).map _) sel labels = some str
    rw [List.map_map, show T.map _ = T from ?_]
    · exact e3
    · conv_rhs => rw [← List.map_id T]
      refine List.map_congr_left fun row hrow => ?_
      simp only [Function.comp, CRow.mapLam, toTop_topTo (hBl row hrow)]
      rfl
  · by_contra hno
    push Not at hno
    have : sel = sel0 := by
      unfold epsilonIfTop at e1
      rw [if_neg (fun h => absurd h.2 (not_lt.2 hno.2))] at e1
      exact (Option.some.inj e1).symm
    change n ∈ sel at htop
    rw [this] at htop
    refine g5 ?_ htop
    by_cases hm : o.method = .leaf
    · exact .inl hm
    · exact .inr (by simpa using hno.1 hm)

/-- **C104** (partial).  For every spanning tree, lambdas that may be infinite and every arithmetic on scores: whenever clustering the tree returns, the selected clusters
are clusters of the returned condensed tree, none nested in another; the labels mean what they should; strengths lie in `[0, 1]` and are 0 for noise; the whole data set
is selected only with `allow_single_cluster` or an epsilon.
Missing: positive persistence. -/
theorem C104_returned_partial (n : ℕ) (hn : 2 ≤ n) (wt : ℕ → K) (t : List (Edge W)) (ht : SpanningTree n t)
    (o : ClusterOpts K) (h1 : 1 < o.minClusterSize) (h0 : ∀ x, x < n → 0 ≤ wt x)
    (hl : ∀ x, x < n → wt x < o.minClusterSize) (lam : W → WithTop K) (hlam : Antitone lam) (hpos : ∀ d, 0 ≤ lam d) (hper : o.persistence ≤ 0)
    (a : StabOps V (WithTop K) K) (ops : ScoreOps V) (r : ClusterResult W K (WithTop K)) (hr : clustersFromMstAny a ops lam wt o t = some r) :
    (∃ k, CondTree n k r.condensed ∧ r.selected.Nodup ∧
      NonNested r.condensed r.selected ∧ (∀ c ∈ r.selected, n ≤ c ∧ c < n + k) ∧ (n ∈ r.selected → r.selected = [n]) ∧ (k = 1 → r.selected = []) ∧
      LabelsMean n r.condensed r.selected ((epsLam o.epsilon).map WithTop.some) r.labels) ∧
      (∀ x, x < n → 0 ≤ r.strengths x ∧ r.strengths x ≤ 1 ∧ (r.labels[x]? = some (-1) → r.strengths x = 0)) ∧
      (n ∈ r.selected → o.method ≠ .leaf ∧ o.allowSingle = true ∨ 0 < o.epsilon) := by
  obtain ⟨B, hB, hBe, hBl, hcl, -, htop⟩ := clustered_of_any hn ht h1 h0 hl hlam hpos hper a ops hr
  obtain ⟨k, a1, a2, a3, a4, a5, a6, a7, a8⟩ := hcl.tree
  exact ⟨⟨k, a1.of_mapLam, a2, (NonNested.mapLam_iff _).1 a3, a4, a5, a6, a7.of_topTo hB hBe hBl⟩, a8, htop⟩

/-- **C104** (partial), the clusters: without infinite edges, unless the whole data set is selected, every label marks samples joined by tree edges inside the cluster, whose
weights sum to at least `min_cluster_size`, and every selected cluster has its label.
Missing: positive persistence; infinite edges. -/
theorem C104_clusters_partial (n : ℕ) (hn : 2 ≤ n) (wt : ℕ → K) (t : List (Edge W)) (ht : SpanningTree n t)
    (o : ClusterOpts K) (h1 : 1 < o.minClusterSize) (h0 : ∀ x, x < n → 0 ≤ wt x)
    (hl : ∀ x, x < n → wt x < o.minClusterSize) (lam : W → WithTop K) (hlam : Antitone lam) (hpos : ∀ d, 0 ≤ lam d) (hper : o.persistence ≤ 0)
    (hfin : ∀ e ∈ t, lam e.w ≠ 0)
    (a : StabOps V (WithTop K) K) (ops : ScoreOps V) (r : ClusterResult W K (WithTop K)) (hr : clustersFromMstAny a ops lam wt o t = some r)
    (htop : n ∉ r.selected) :
    r.labels.length = n ∧ (∀ l ∈ r.labels, -1 ≤ l ∧ l < r.selected.length) ∧
      ∀ l : ℤ, 0 ≤ l → l < r.selected.length →
        l ∈ r.labels ∧ o.minClusterSize ≤ ((Finset.range n).filter fun x => r.labels[x]? = some l).sum wt ∧
        ∀ x y, r.labels[x]? = some l → r.labels[y]? = some l →
          Conn (t.filter fun e => decide (r.labels[e.u]? = some l ∧ r.labels[e.v]? = some l)) x y := by
  obtain ⟨B, hB, hBe, hBl, hcl, -, -⟩ := clustered_of_any hn ht h1 h0 hl hlam hpos hper a ops hr
  have hf : ∀ e ∈ t, topTo B (lam e.w) ≠ 0 := fun e he h => hfin e he ((topTo_eq_zero hB _).1 h)
  obtain ⟨c1, c2, c3⟩ := Clustered.weight hn ht h1 h0 hl (topTo_antitone hlam B) hf hcl htop
  exact ⟨c1, c2, fun l hl0 hl1 => ⟨(c3 l hl0 hl1).1, (c3 l hl0 hl1).2, fun x y hx hy =>
    Clustered.connected hn ht h1 h0 hl (topTo_antitone hlam B) (.inl hf) hcl htop hl0 hx hy⟩⟩

/-- **C104**, clustering returns: with the leaf method always; with excess of mass if no `max_cluster_size` is given and the arithmetic never finds `0.0` greater
than `max(score, 0.0)`. -/
theorem C104_returns (n : ℕ) (hn : 2 ≤ n) (wt : ℕ → K) (t : List (Edge W)) (ht : SpanningTree n t)
    (o : ClusterOpts K) (h1 : 1 < o.minClusterSize) (h0 : ∀ x, x < n → 0 ≤ wt x)
    (hl : ∀ x, x < n → wt x < o.minClusterSize) (lam : W → WithTop K) (hlam : Antitone lam) (hpos : ∀ d, 0 ≤ lam d)
    (a : StabOps V (WithTop K) K) (ops : ScoreOps V)
    (hmax : o.method = .leaf ∨ o.maxClusterSize = none ∧ ∀ x, ops.gt ops.zero (ops.pos x) = false) :
    ∃ r, clustersFromMstAny a ops lam wt o t = some r := by
  have hlen := ht.length (by omega)
  obtain ⟨T, hT⟩ : ∃ T, T = condenseTree (Hier.ofRows (mstToLinkage wt (lexsortMst t))) wt o.minClusterSize none lam := ⟨_, rfl⟩
  obtain ⟨B, k, hB, hBe, hBl, hTm, hct, hbin, hmono, hkind, hlamr, hne, hctT, hkindT, hlamT, hneT⟩ := any_tree hn ht h1 h0 hl hlam hpos hT
  obtain ⟨sel0, e0, g1, g2, g3, g4, -⟩ := hctT.baseSelectionAny_sound hneT hkindT a ops o
  obtain ⟨sel, e1, f1, f2, f3, f4, -⟩ := hct.epsilon_total hkind hbin hmono o.epsilon g1 ((NonNested.mapLam_iff _).2 g2) g3 g4
    (fun hs c hc1 hc2 hc3 => by
      obtain ⟨s, q1, q2⟩ := hctT.baseSelectionAny_covers hneT hkindT a ops o hmax e0 hs hc1 hc2
        (fun row hrow hp => hc3 (row.mapLam (topTo B)) (List.mem_map_of_mem hrow) hp)
      exact ⟨s, q1, (CDesc.mapLam_iff _).2 q2⟩)
  obtain ⟨labels, _, e2, -, e3, -⟩ := hct.labels_total hne hlamr sel f1 f2 (epsLam o.epsilon) f4
  obtain ⟨str, e4, -⟩ := C28_strengths T hctT hneT hlamT sel labels e3.1 (e3.lt_length hct)
  unfold clustersFromMstAny
  simp only [hlen]
  rw [← hT, e0, Option.bind_some, ← epsilonIfTop_eq hBe, e1, Option.bind_some, ← labelVector_topTo hB hBe hBl, e2, Option.bind_some, e4]
  exact ⟨_, rfl⟩

omit [OrderTop W] in
/-- **C104**, the two models: with exact arithmetic and finite lambdas this is the clustering of the other properties. -/
theorem C104_exact (n : ℕ) (hn : 2 ≤ n) (wt : ℕ → K) (t : List (Edge W)) (ht : SpanningTree n t) (lam : W → K) (o : ClusterOpts K) (hper : o.persistence ≤ 0) :
    (clustersFromMstAny (StabOps.exact K) (ScoreOps.exact K) (fun d => (lam d : WithTop K)) wt o t).map
        (fun r => (r.labels, r.strengths, r.linkage, r.sortedMst, r.selected, r.condensed)) =
      (clustersFromMst lam wt o t).map fun r => (r.labels, r.strengths, r.linkage, r.sortedMst, r.selected, r.condensed.map (CRow.mapLam WithTop.some)) := by
  obtain ⟨hden, _⟩ := C12_linkage_is_dendrogram n (by omega) wt _ (ht.perm (lexsortMst_perm t)) (lexsortMst_sorted t)
  have hT := condenseTree_ofRows_mapLam (φ := id) (g := (WithTop.some : K → WithTop K)) (lam := lam) (lam' := fun d => (lam d : WithTop K))
    (rows := mstToLinkage wt (lexsortMst t)) hden.valid (fun _ _ => rfl) wt o.minClusterSize none
  rw [show (mstToLinkage wt (lexsortMst t)).map (LRow.mapD id) = mstToLinkage wt (lexsortMst t) from List.map_id _] at hT
  unfold clustersFromMstAny clustersFromMst
  simp only [hT]
  generalize condenseTree (Hier.ofRows (mstToLinkage wt (lexsortMst t))) wt o.minClusterSize none lam = T
  have hs : simplifyIf o.persistence T = some T := by
    unfold simplifyIf
    rw [if_neg (fun h => absurd h.1 (not_lt.2 hper))]
  have hb : ∀ m, baseSelectionAny (StabOps.exact K) (ScoreOps.exact K) o m (T.map (CRow.mapLam WithTop.some)) = baseSelection o m T := by
    intro m
    unfold baseSelectionAny baseSelection
    cases o.method
    · exact extractEomAny_exact T _ _
    · simp only
      rw [clusterTree_mapLam, leafSelection_mapLam]
  have he : ∀ sel, epsilonIfTop o.epsilon (T.map (CRow.mapLam WithTop.some)) sel = epsilonIf o.epsilon T sel := by
    intro sel
    unfold epsilonIfTop epsilonIf
    rw [clusterTree_mapLam, epsilonSearch_mapLam (close := epsClose o.epsilon) (close' := epsCloseTop o.epsilon) (g := WithTop.some) (fun _ => rfl)]
  have hv : ∀ sel m, labelVector (T.map (CRow.mapLam WithTop.some)) sel ((epsLam o.epsilon).map WithTop.some) m = labelVector T sel (epsLam o.epsilon) m :=
    fun sel m => labelVector_mapLam (s := Set.univ) (fun _ _ _ _ h => WithTop.coe_lt_coe.2 h) (fun _ _ => WithTop.coe_eq_zero) T (fun _ _ => trivial) sel _
      (fun _ _ => trivial) m
  rw [hs, Option.bind_some, hb]
  cases baseSelection o (t.length + 1) T with
  | none => rfl
  | some sel0 =>
    simp only [Option.bind_some, he]
    cases epsilonIf o.epsilon T sel0 with
    | none => rfl
    | some sel =>
      simp only [Option.bind_some, hv]
      cases labelVector T sel (epsLam o.epsilon) (t.length + 1) with
      | none => rfl
      | some labels =>
        simp only [Option.bind_some, Option.map_map]
        rfl

/-! ## `fit` -/

/-- What `fit` stores, with the number `B` in place of infinite lambdas. -/
def FitResult.mapTop (B : K) (r : FitResult W K (WithTop K)) : FitResult W K :=
  ⟨r.labels, r.strengths, r.linkage, r.condensed.map (CRow.mapLam (topTo B))⟩

omit [IsStrictOrderedRing K] [Inhabited W] [Inhabited K] in
theorem fitModel_mapTop {B : K} (hB : 0 < B) {finite : α → Bool} {cluster : List α → List β → Option (ClusterResult W K (WithTop K))} {outliers : List ℕ} {X : List α}
    {side : List β} {r : FitResult W K (WithTop K)} (hr : fitModel finite (fastWith cluster) outliers X side = .ok r) :
    fitModel finite (fastWith fun X s => (cluster X s).map (ClusterResult.mapTop B)) outliers X side = .ok (r.mapTop B) := by
  have hcore : ∀ {P : List α} {s : List β} {r0 : FitResult W K (WithTop K)}, fastWith cluster P s = .ok r0 →
      fastWith (fun X s => (cluster X s).map (ClusterResult.mapTop B)) P s = .ok (r0.mapTop B) := by
    intro P s r0 h
    unfold fastWith at h ⊢
    split at h
    · rename_i hlt
      rw [if_pos hlt]
      cases h
      rfl
    · rename_i hlt
      rw [if_neg hlt]
      cases hc : cluster P s with
      | none => rw [hc] at h; cases h
      | some r1 =>
        rw [hc] at h
        cases h
        simp only [hc, Option.map_some]
        rfl
  unfold fitModel at hr ⊢
  split at hr
  · rename_i hall
    rw [if_pos hall]
    exact hcore hr
  · rename_i hall
    rw [if_neg hall]
    simp only at hr ⊢
    cases hc : fastWith cluster (takeRows X (finiteIndex finite X)) (takeRows side (finiteIndex finite X)) with
    | error e => rw [hc] at hr; cases hr
    | ok r0 =>
      rw [hc] at hr
      rw [hcore hc]
      simp only at hr ⊢
      have hrm : ∀ (T c : List (CRow (WithTop K) K)), remapCondensed (finiteIndex finite X) outliers T = .ok c →
          remapCondensed (finiteIndex finite X) outliers (T.map (CRow.mapLam (topTo B))) = .ok (c.map (CRow.mapLam (topTo B))) := by
        intro T c hc'
        cases T with
        | nil => cases hc'
        | cons row rest =>
          simp only [remapCondensed, List.map_cons, Except.ok.injEq] at hc' ⊢
          rw [← hc']
          simp only [List.map_append, List.map_map, List.map_cons]
          congr 1
          refine List.map_congr_left fun q _ => ?_
          simp only [Function.comp, CRow.mapLam, (topTo_eq_zero hB 0).2 rfl]
      have e1 : (r0.mapTop B).condensed = r0.condensed.map (CRow.mapLam (topTo B)) := rfl
      have e2 : (r0.mapTop B).linkage = r0.linkage := rfl
      rw [e1, e2]
      cases hm : remapCondensed (finiteIndex finite X) outliers r0.condensed with
      | error e => rw [hm] at hr; cases hr
      | ok c =>
        rw [hm] at hr
        rw [hrm _ c hm]
        simp only at hr ⊢
        cases hk : remapLinkage (finiteIndex finite X) outliers r0.linkage with
        | error e => rw [hk] at hr; cases hr
        | ok lk =>
          rw [hk] at hr
          cases hr
          rfl

/-- **C104** (partial), `fit`: for any way to measure distances and build the spanning tree, sample weights, infinite lambdas and every arithmetic on scores, if the
spanning tree is a minimum spanning tree of symmetric distances `reach` between the finite rows: whenever `fit` returns there is one label and one strength per row, and
the groups of rows are sound; or else `allow_single_cluster` or an epsilon is given and there is at most one label besides noise.
Missing: positive persistence; infinite edges; weights that reach `min_cluster_size`; in the second case the cluster may be apart. -/
theorem C104_fit_partial (lam : W → WithTop K) (hlam : Antitone lam) (hpos : ∀ d, 0 ≤ lam d) (a : StabOps V (WithTop K) K) (ops : ScoreOps V)
    (finite : α → Bool) (reach : α → α → W) (hsym : ∀ x y, reach x y = reach y x) (X : List α) (side : List β) (hside : side.length = X.length)
    (h2 : 2 ≤ (X.filter finite).length) (wt : β → K) (o : ClusterOpts K) (h1 : 1 < o.minClusterSize)
    (hw0 : ∀ b ∈ side, 0 ≤ wt b ∧ wt b < o.minClusterSize) (mst : List α → List β → List (Edge W)) (t : List (Edge W))
    (hmst : mst (X.filter finite) (((X.zip side).filter fun p => finite p.1).map Prod.snd) = t)
    (hspan : SpanningTree (X.filter finite).length t)
    (hmin : MinSpanningForest (completeGraph (X.filter finite).length (rowDist reach (X.filter finite))) t)
    (hper : o.persistence ≤ 0) (hfin : ∀ e ∈ t, lam e.w ≠ 0)
    (outliers : List ℕ) (hout : outliers.Perm ((List.range X.length).filter fun i => !(X[i]?.map finite).getD false))
    (r : FitResult W K (WithTop K)) (hr : fitModel finite (fastHdbscanAny a ops lam mst wt o) outliers X side = .ok r) :
    LabelledRows finite X r.labels r.strengths ∧
      (SoundGroups finite reach (fun i => (side[i]?.map wt).getD 1) o.minClusterSize X r.labels r.strengths ∨
        (o.method ≠ .leaf ∧ o.allowSingle = true ∨ 0 < o.epsilon) ∧ ∀ l ∈ r.labels, l = -1 ∨ l = 0) := by
  obtain ⟨sideP, hsP⟩ : ∃ s, s = ((X.zip side).filter fun p => finite p.1).map Prod.snd := ⟨_, rfl⟩
  have hside' : ∀ b ∈ sideP, b ∈ side := by
    intro b hb
    rw [hsP] at hb
    obtain ⟨q, hq, rfl⟩ := List.mem_map.1 hb
    exact (List.of_mem_zip (show (q.1, q.2) ∈ _ from (List.mem_filter.1 hq).1)).2
  have hwt : ∀ i : ℕ, 0 ≤ (sideP[i]?.map wt).getD 1 ∧ (sideP[i]?.map wt).getD 1 < o.minClusterSize := by
    intro i
    cases hi : sideP[i]? with
    | none => exact ⟨zero_le_one, h1⟩
    | some b => exact hw0 b (hside' b (List.mem_of_getElem? hi))
  obtain ⟨B, hB, hcl⟩ : ∃ B : K, 0 < B ∧ ∀ r1, clustersFromMstAny a ops lam (fun i => (sideP[i]?.map wt).getD 1) o t = some r1 →
      Clustered (X.filter finite).length (fun d => topTo B (lam d)) (fun i => (sideP[i]?.map wt).getD 1) o t (r1.mapTop B) ∧
      ((X.filter finite).length ∈ r1.selected → o.method ≠ .leaf ∧ o.allowSingle = true ∨ 0 < o.epsilon) := by
    cases hc : clustersFromMstAny a ops lam (fun i => (sideP[i]?.map wt).getD 1) o t with
    | none => exact ⟨1, one_pos, fun _ h => by cases h⟩
    | some r1 =>
      obtain ⟨B, hB, -, -, hcl, -, htop⟩ := clustered_of_any h2 hspan h1 (fun x _ => (hwt x).1) (fun x _ => (hwt x).2) hlam hpos hper a ops hc
      refine ⟨B, hB, fun r2 h => ?_⟩
      obtain rfl := Option.some.inj h
      exact ⟨hcl, htop⟩
  obtain ⟨r1, h3, h4, h5, h6⟩ := fit_sound_with (wt := wt) (t := t) (topTo_antitone hlam B) (fun d => topTo_nonneg (hpos d) hB) hsym hside h2 h1 hw0 hspan hmin hout
    (fun r1 h3 => by
      beta_reduce at h3
      rw [← hsP] at h3 hmst ⊢
      rw [hmst] at h3
      obtain ⟨r2, h3b, rfl⟩ := Option.map_eq_some_iff.1 h3
      exact ⟨(hcl r2 h3b).1, fun _ => .inl fun e he h => hfin e he ((topTo_eq_zero hB _).1 h)⟩) (fitModel_mapTop hB hr)
  beta_reduce at h3
  rw [← hsP] at h3 hmst
  rw [hmst] at h3
  obtain ⟨r2, h3b, rfl⟩ := Option.map_eq_some_iff.1 h3
  refine ⟨h4, ?_⟩
  by_cases htop : (X.filter finite).length ∈ r2.selected
  · exact .inr ⟨(hcl r2 h3b).2 htop, h6 htop⟩
  · exact .inl (h5 htop)

/-- **C104** with **C103** (partial): identical rows get the same label and strength although their lambdas are infinite and their scores may be NaN
(`algorithm='kruskal'` without `knn_k`, `min_samples` at most 1).
Missing: as in C103; positive persistence. -/
theorem C104_duplicates_partial [Zero W] (lam : W → WithTop K) (hlam : Antitone lam) (hpos : ∀ d, 0 ≤ lam d) (a : StabOps V (WithTop K) K) (ops : ScoreOps V)
    (finite : α → Bool) (dist : α → α → W)
    (hsym : ∀ x y, dist x y = dist y x) (hnn : ∀ x y, 0 ≤ dist x y) (htr : ∀ x y z, dist x y = 0 → dist y z = 0 → dist x z = 0) (ms : ℕ) (hms : ms ≤ 1)
    (X : List α) (side : List β) (hside : side.length = X.length) (h2 : 2 ≤ (X.filter finite).length) (wt : β → K) (o : ClusterOpts K) (h1 : 1 < o.minClusterSize)
    (hw0 : ∀ b ∈ side, 0 ≤ wt b ∧ wt b < o.minClusterSize) (hper : o.persistence ≤ 0)
    (outliers : List ℕ) (hout : outliers.Perm ((List.range X.length).filter fun i => !(X[i]?.map finite).getD false))
    (r : FitResult W K (WithTop K)) (hr : fitModel finite (fastHdbscanAny a ops lam (kruskalRows dist ms) wt o) outliers X side = .ok r)
    (i j : ℕ) (x y : α) (hi : X[i]? = some x) (hj : X[j]? = some y) (hfx : finite x = true) (hfy : finite y = true) (hxy : dist x y = 0) :
    r.labels[i]? = r.labels[j]? ∧ r.strengths[i]? = r.strengths[j]? := by
  obtain ⟨sideP, hsP⟩ : ∃ s, s = ((X.zip side).filter fun p => finite p.1).map Prod.snd := ⟨_, rfl⟩
  have hside' : ∀ b ∈ sideP, b ∈ side := by
    intro b hb
    rw [hsP] at hb
    obtain ⟨q, hq, rfl⟩ := List.mem_map.1 hb
    exact (List.of_mem_zip (show (q.1, q.2) ∈ _ from (List.mem_filter.1 hq).1)).2
  have hwt : ∀ i : ℕ, 0 ≤ (sideP[i]?.map wt).getD 1 ∧ (sideP[i]?.map wt).getD 1 < o.minClusterSize := by
    intro i
    cases hi : sideP[i]? with
    | none => exact ⟨zero_le_one, h1⟩
    | some b => exact hw0 b (hside' b (List.mem_of_getElem? hi))
  obtain ⟨hspan, -⟩ := kruskalRows_tree dist hsym ms (X.filter finite) h2 sideP
  obtain ⟨B, hB, hcl⟩ : ∃ B : K, 0 < B ∧ ∀ r1, clustersFromMstAny a ops lam (fun i => (sideP[i]?.map wt).getD 1) o (kruskalRows dist ms (X.filter finite) sideP) = some r1 →
      Clustered (X.filter finite).length (fun d => topTo B (lam d)) (fun i => (sideP[i]?.map wt).getD 1) o (kruskalRows dist ms (X.filter finite) sideP) (r1.mapTop B) := by
    cases hc : clustersFromMstAny a ops lam (fun i => (sideP[i]?.map wt).getD 1) o (kruskalRows dist ms (X.filter finite) sideP) with
    | none => exact ⟨1, one_pos, fun _ h => by cases h⟩
    | some r1 =>
      obtain ⟨B, hB, -, -, hcl, -⟩ := clustered_of_any h2 hspan h1 (fun x _ => (hwt x).1) (fun x _ => (hwt x).2) hlam hpos hper a ops hc
      refine ⟨B, hB, fun r2 h => ?_⟩
      obtain rfl := Option.some.inj h
      exact hcl
  refine fit_same_with (wt := wt) (o := o) (topTo_antitone hlam B) hsym hnn htr hms hside h2 h1 hw0 hout (fun r1 h3 => ?_) (fitModel_mapTop hB hr) hi hj hfx hfy hxy
  beta_reduce at h3
  rw [← hsP] at h3 ⊢
  obtain ⟨r2, h3b, rfl⟩ := Option.map_eq_some_iff.1 h3
  exact hcl r2 h3b

/-- **C104**, `fit` returns: with the leaf method always; with excess of mass if no `max_cluster_size` is given and the arithmetic never finds `0.0` greater than
`max(score, 0.0)`. -/
theorem C104_fit_returns (lam : W → WithTop K) (hlam : Antitone lam) (hpos : ∀ d, 0 ≤ lam d) (a : StabOps V (WithTop K) K) (ops : ScoreOps V)
    (finite : α → Bool) (X : List α) (side : List β) (hside : side.length = X.length)
    (h2 : 2 ≤ (X.filter finite).length) (wt : β → K) (o : ClusterOpts K) (h1 : 1 < o.minClusterSize) (hper : o.persistence ≤ 0)
    (hw0 : ∀ b ∈ side, 0 ≤ wt b ∧ wt b < o.minClusterSize) (mst : List α → List β → List (Edge W))
    (hspan : SpanningTree (X.filter finite).length (mst (X.filter finite) (((X.zip side).filter fun p => finite p.1).map Prod.snd)))
    (outliers : List ℕ) (hout : outliers.Perm ((List.range X.length).filter fun i => !(X[i]?.map finite).getD false))
    (hmax : o.method = .leaf ∨ o.maxClusterSize = none ∧ ∀ x, ops.gt ops.zero (ops.pos x) = false) :
    ∃ r, fitModel finite (fastHdbscanAny a ops lam mst wt o) outliers X side = .ok r := by
  obtain ⟨sideP, hsP⟩ : ∃ s, s = ((X.zip side).filter fun p => finite p.1).map Prod.snd := ⟨_, rfl⟩
  have hside' : ∀ b ∈ sideP, b ∈ side := by
    intro b hb
    rw [hsP] at hb
    obtain ⟨q, hq, rfl⟩ := List.mem_map.1 hb
    exact (List.of_mem_zip (show (q.1, q.2) ∈ _ from (List.mem_filter.1 hq).1)).2
  have hwt : ∀ i : ℕ, 0 ≤ (sideP[i]?.map wt).getD 1 ∧ (sideP[i]?.map wt).getD 1 < o.minClusterSize := by
    intro i
    cases hi : sideP[i]? with
    | none => exact ⟨zero_le_one, h1⟩
    | some b => exact hw0 b (hside' b (List.mem_of_getElem? hi))
  rw [← hsP] at hspan
  obtain ⟨r1, hr1⟩ := C104_returns _ h2 _ _ hspan o h1 (fun x _ => (hwt x).1) (fun x _ => (hwt x).2) lam hlam hpos a ops hmax
  have hcore : fastHdbscanAny a ops lam mst wt o (X.filter finite) sideP =
      .ok ⟨r1.labels, (List.range (X.filter finite).length).map r1.strengths, r1.linkage, r1.condensed⟩ := by
    unfold fastHdbscanAny fastWith
    rw [if_neg (by omega)]
    simp only [hr1]
  refine (fit_returns (w := fun i => (sideP[i]?.map wt).getD 1) hside hout h2 fun r0 hr0 => ?_).2 ⟨_, by rw [← hsP]; exact hcore⟩
  rw [← hsP, hcore] at hr0
  cases hr0
  obtain ⟨B, -, -, -, hcl, hlk, -⟩ := clustered_of_any h2 hspan h1 (fun x _ => (hwt x).1) (fun x _ => (hwt x).2) hlam hpos hper a ops hr1
  obtain ⟨b1, -, b3, k, b4⟩ := Clustered.trees h2 hspan hcl hlk
  refine ⟨b1, fun h => b3 ?_, k, b4.of_mapLam⟩
  change r1.condensed.map _ = []
  rw [show r1.condensed = [] from h]
  rfl

/-! ## Concrete cases -/

/-- Floating point scores without rounding: NaN, infinities and numbers. -/
inductive Score
  | nan
  | ninf
  | fin (q : ℚ)
  | inf

namespace Score

def times : WithTop ℚ → ℚ → Score
  | ⊤, s => if s = 0 then nan else if 0 < s then inf else ninf
  | (q : ℚ), s => fin (q * s)

def neg : Score → Score
  | nan => nan
  | ninf => inf
  | inf => ninf
  | fin q => fin (-q)

def add : Score → Score → Score
  | nan, _ | _, nan | inf, ninf | ninf, inf => nan
  | inf, _ | _, inf => inf
  | ninf, _ | _, ninf => ninf
  | fin a, fin b => fin (a + b)

def le : Score → Score → Bool
  | nan, _ | _, nan => false
  | ninf, _ | _, inf => true
  | inf, _ | _, ninf => false
  | fin a, fin b => decide (a ≤ b)

end Score

open Score in
/-- `-lambda * size` and `score + lambda * size`. -/
def scoreStab : StabOps Score (WithTop ℚ) ℚ := ⟨fin 0, fun l s => (times l s).neg, fun v l s => v.add (times l s)⟩

open Score in
/-- Comparisons as in IEEE 754: every comparison with NaN is false. -/
def ieeeOps : ScoreOps Score := ⟨fin 0, fun x => if le x (fin 0) then fin 0 else x, add, fun x y => le y x && !le x y⟩

open Score in
/-- Comparisons as a compiler may make them under `fastmath`, where `x > y` may be computed as `not (x <= y)`. -/
def fastmathOps : ScoreOps Score := ⟨fin 0, fun x => if le x (fin 0) then fin 0 else x, add, fun x y => !le x y⟩

theorem ieeeOps_gt (x : Score) : ieeeOps.gt ieeeOps.zero (ieeeOps.pos x) = false := by
  cases x with
  | nan => rfl
  | ninf => decide +kernel
  | inf => rfl
  | fin q =>
    by_cases h : q ≤ 0
    · simp [ieeeOps, Score.le, h]
    · have : 0 ≤ q := le_of_lt (not_le.1 h)
      simp [ieeeOps, Score.le, h, this]

/-- `1 / distance`: infinite for distance 0. -/
def lamTop : WithTop ℚ → WithTop ℚ
  | ⊤ => 0
  | (q : ℚ) => if q ≤ 0 then ⊤ else ((1 / q : ℚ) : WithTop ℚ)

theorem lamTop_nonneg (d : WithTop ℚ) : 0 ≤ lamTop d := by
  cases d with
  | top => exact le_rfl
  | coe q =>
    simp only [lamTop]
    split
    · exact le_top
    · rename_i h
      exact WithTop.coe_le_coe.2 (by have := not_le.1 h; positivity)

theorem lamTop_antitone : Antitone lamTop := by
  intro a b hab
  cases b with
  | top => exact lamTop_nonneg a
  | coe b =>
    cases a with
    | top => exact absurd hab (by simp)
    | coe a =>
      have hab := WithTop.coe_le_coe.1 hab
      simp only [lamTop]
      by_cases ha : a ≤ 0
      · rw [if_pos ha]; exact le_top
      · have ha' := not_le.1 ha
        rw [if_neg ha, if_neg (not_le.2 (lt_of_lt_of_le ha' hab))]
        exact WithTop.coe_le_coe.2 (one_div_le_one_div_of_le ha' hab)

theorem lamTop_ne_zero (q : ℚ) : lamTop q ≠ 0 := by
  simp only [lamTop]
  split
  · simp
  · rename_i h
    have := not_le.1 h
    exact fun h => absurd (WithTop.coe_eq_zero.1 h) (by positivity)

/-- Four identical samples, joined in pairs first. -/
def fourTwins : List (Edge (WithTop ℚ)) := [⟨0, 1, 0⟩, ⟨2, 3, 0⟩, ⟨3, 0, 0⟩]

/-- **C104**: the arithmetic may decide the labels: for four identical samples both clusters of two score NaN; with IEEE comparisons both are selected, with comparisons allowed
under `fastmath` neither is. -/
theorem C104_fastmath_decides :
    (clustersFromMstAny scoreStab ieeeOps lamTop (fun _ => 1) (exOpts .eom 0) fourTwins).map ClusterResult.labels = some [1, 1, 0, 0] ∧
    (clustersFromMstAny scoreStab fastmathOps lamTop (fun _ => 1) (exOpts .eom 0) fourTwins).map ClusterResult.labels = some [-1, -1, -1, -1] := by
  constructor <;> decide +kernel

theorem fourTwins_tree : SpanningTree 4 fourTwins := by
  have h0 : ∀ a, a < 4 → Conn fourTwins a 0 := by
    have h1 : Conn fourTwins 3 0 := Conn.edge (e := ⟨3, 0, 0⟩) (by simp [fourTwins])
    intro a ha
    interval_cases a
    · exact Conn.refl _ _
    · exact (Conn.edge (e := ⟨0, 1, 0⟩) (by simp [fourTwins])).symm
    · exact (Conn.edge (e := ⟨2, 3, 0⟩) (by simp [fourTwins])).trans h1
    · exact h1
  have hconn : ∀ a b, a < 4 → b < 4 → Conn fourTwins a b := fun a b ha hb => (h0 a ha).trans (h0 b hb).symm
  have hr : InRange 4 fourTwins := by
    intro e he
    simp only [fourTwins, List.mem_cons, List.not_mem_nil, or_false] at he
    rcases he with rfl | rfl | rfl <;> decide
  exact ⟨hr, acyclic_of_connected hr hconn (by decide), hconn⟩

/-- The hypotheses of `C104_returned_partial` and `C104_clusters_partial` hold for this tree with both kinds of comparisons. -/
example (ops : ScoreOps Score) (r : ClusterResult (WithTop ℚ) ℚ (WithTop ℚ))
    (hr : clustersFromMstAny scoreStab ops lamTop (fun _ => 1) (exOpts .eom 0) fourTwins = some r) (htop : 4 ∉ r.selected) :
    r.selected.Nodup ∧ r.labels.length = 4 := by
  obtain ⟨⟨k, -, h, -⟩, -⟩ := C104_returned_partial 4 (by decide) _ _ fourTwins_tree (exOpts .eom 0) (by decide +kernel) (fun _ _ => zero_le_one)
    (fun _ _ => by decide +kernel) lamTop lamTop_antitone lamTop_nonneg le_rfl scoreStab ops r hr
  exact ⟨h, (C104_clusters_partial 4 (by decide) _ _ fourTwins_tree (exOpts .eom 0) (by decide +kernel) (fun _ _ => zero_le_one)
    (fun _ _ => by decide +kernel) lamTop lamTop_antitone lamTop_nonneg le_rfl (by
      intro e he
      simp only [fourTwins, List.mem_cons, List.not_mem_nil, or_false] at he
      rcases he with rfl | rfl | rfl <;> exact lamTop_ne_zero 0) scoreStab ops r hr htop).1⟩

example : ∃ r, clustersFromMstAny scoreStab ieeeOps lamTop (fun _ => 1) (exOpts .eom 0) fourTwins = some r :=
  C104_returns 4 (by decide) _ _ fourTwins_tree (exOpts .eom 0) (by decide +kernel) (fun _ _ => zero_le_one)
    (fun _ _ => by decide +kernel) lamTop lamTop_antitone lamTop_nonneg scoreStab ieeeOps (.inr ⟨rfl, ieeeOps_gt⟩)

/-- `C104_exact` on five samples. -/
example : (clustersFromMstAny (StabOps.exact ℚ) (ScoreOps.exact ℚ) (fun d => (lamq d : WithTop ℚ)) (fun _ => 1) (exOpts .eom 0) exFive).map ClusterResult.labels =
    some [1, 1, 1, 0, 0] := by
  have h := C104_exact 5 (by decide) (fun _ => 1) exFive exFive_tree lamq (exOpts .eom 0) le_rfl
  have h2 : (clustersFromMst lamq (fun _ => 1) (exOpts .eom 0) exFive).map ClusterResult.labels = some [1, 1, 1, 0, 0] := by decide +kernel
  have h3 := congrArg (Option.map Prod.fst) h
  rw [Option.map_map, Option.map_map] at h3
  exact h3.trans h2

/-- Rows with duplicates and a missing row. -/
def twinData : List (Option ℚ) := [some 0, some 0, some 0, none, some 5, some 5, some 6]

/-- The hypotheses of `C104_fit_partial`, `C104_fit_returns` and `C104_duplicates_partial` hold for these rows. -/
example : ∃ r, fitModel Option.isSome (fastHdbscanAny scoreStab ieeeOps lamTop (kruskalRows rowLine 1) (fun _ => 1) (exOpts .eom 0)) [3] twinData
      (twinData.map fun _ => ()) = .ok r ∧ LabelledRows Option.isSome twinData r.labels r.strengths ∧ r.labels[0]? = r.labels[2]? := by
  obtain ⟨h3, h4⟩ := kruskalRows_tree rowLine rowLine_comm 1 (twinData.filter Option.isSome) (by decide)
    (((twinData.zip (twinData.map fun _ => ())).filter fun p => p.1.isSome).map Prod.snd)
  obtain ⟨r, hr⟩ := C104_fit_returns lamTop lamTop_antitone lamTop_nonneg scoreStab ieeeOps Option.isSome twinData (twinData.map fun _ => ()) (by simp) (by decide)
    (fun _ => 1) (exOpts .eom 0) (by decide +kernel) le_rfl (fun _ _ => by decide +kernel) (kruskalRows rowLine 1) h3 [3] (by decide +kernel) (.inr ⟨rfl, ieeeOps_gt⟩)
  refine ⟨r, hr, ?_, ?_⟩
  · exact (C104_fit_partial lamTop lamTop_antitone lamTop_nonneg scoreStab ieeeOps Option.isSome _ (rowReach_comm rowLine_comm _ 1) twinData
      (twinData.map fun _ => ()) (by simp) (by decide) (fun _ => 1) (exOpts .eom 0) (by decide +kernel) (fun _ _ => by decide +kernel) (kruskalRows rowLine 1) _ rfl h3 h4 le_rfl
      (by decide +kernel) [3] (by decide +kernel) r hr).1
  · exact (C104_duplicates_partial lamTop lamTop_antitone lamTop_nonneg scoreStab ieeeOps Option.isSome rowLine rowLine_comm rowLine_nonneg
      (fun x y z h1 h2 => rowLine_zero.2 ((rowLine_zero.1 h1).trans (rowLine_zero.1 h2))) 1 le_rfl twinData (twinData.map fun _ => ()) (by simp) (by decide) (fun _ => 1)
      (exOpts .eom 0) (by decide +kernel) (fun _ _ => by decide +kernel) le_rfl [3] (by decide +kernel) r hr 0 2 (some 0) (some 0) rfl rfl rfl rfl (by decide +kernel)).1

/-- Its labels. -/
example : (match fitModel Option.isSome (fastHdbscanAny scoreStab ieeeOps lamTop (kruskalRows rowLine 1) (fun _ => 1) (exOpts .eom 0)) [3] twinData (twinData.map fun _ => ()) with
    | .ok r => decide (r.labels = [1, 1, 1, -1, 0, 0, 0])
    | .error _ => false) = true := by decide +kernel

end Verif
