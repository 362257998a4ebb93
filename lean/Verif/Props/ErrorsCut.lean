import Verif.Props.Errors
import Verif.Props.Dbscan

/-!
# C121: `dbscan_clustering` and errors in the distances
-/

namespace Verif
variable {K S : Type*} [Field K] [LinearOrder K] [IsStrictOrderedRing K] [AddCommMonoid S] {n : ℕ} {δ : K}

omit [AddCommMonoid S] in
/-- Errors do not change what is connected below a length that is far from all edges of the spanning tree. -/
theorem below_close (hδ : 0 ≤ δ) {d d' : ℕ → ℕ → WithTop K} (hc : CloseDist n δ d d') {t : List (Edge (WithTop K))} (hf : MinSpanningForest (completeGraph n d) t)
    {eps : WithTop K} (hgap : ∀ e ∈ t, e.w + δ < eps ∨ eps + δ ≤ e.w) (a b : ℕ) :
    Conn (below eps (completeGraph n d)) a b ↔ Conn (below eps (completeGraph n d')) a b := by
  have hδ' : ∀ x : WithTop K, x ≤ x + δ := fun x => le_add_of_nonneg_right (by exact_mod_cast hδ)
  constructor
  · rw [← hf.conn_below]
    refine Conn.of_forall fun f hft => ?_
    obtain ⟨hft, hlt⟩ := mem_below.1 hft
    obtain ⟨m1, m2, m3, m4⟩ := mem_completeGraph.1 (hf.forest.sub.subset hft)
    have : d' f.u f.v < eps := by
      rcases hgap f hft with h | h
      · exact ((hc _ m1 _ m2).2.trans_eq (by rw [m4])).trans_lt h
      · exact absurd hlt (not_lt.2 ((hδ' _).trans h))
    exact Conn.edge (e := ⟨f.u, f.v, d' f.u f.v⟩) (mem_below.2 ⟨mem_completeGraph.2 ⟨m1, m2, m3, rfl⟩, this⟩)
  · intro h
    have h2 : Conn (below (eps + δ) (completeGraph n d)) a b := by
      refine Conn.of_forall (fun f hft => ?_) h
      obtain ⟨hft, hlt⟩ := mem_below.1 hft
      obtain ⟨m1, m2, m3, m4⟩ := mem_completeGraph.1 hft
      exact Conn.edge (e := ⟨f.u, f.v, d f.u f.v⟩) (mem_below.2 ⟨mem_completeGraph.2 ⟨m1, m2, m3, rfl⟩, (hc _ m1 _ m2).1.trans_lt (add_coe_lt.2 (m4 ▸ hlt))⟩)
    rw [← hf.conn_below] at h2 ⊢
    refine h2.mono fun e he => ?_
    obtain ⟨het, hlt⟩ := mem_below.1 he
    rcases hgap e het with h | h
    · exact mem_below.2 ⟨het, (hδ' _).trans_lt h⟩
    · exact absurd hlt (not_lt.2 h)

/-- **C121**: `dbscan_clustering` gives the same noise and the same clusters for distances with errors of at most `δ`, if no edge of the spanning tree has a length within
`δ` of `eps`; for any minimum spanning trees of the two data sets, with any ties. -/
theorem C121_cut (hn : 0 < n) (hδ : 0 ≤ δ) {d d' : ℕ → ℕ → WithTop K} (hc : CloseDist n δ d d') {t t' : List (Edge (WithTop K))}
    (hf : MinSpanningForest (completeGraph n d) t) (hf' : MinSpanningForest (completeGraph n d') t') (ht : SpanningTree n t) (ht' : SpanningTree n t')
    {eps : WithTop K} (hgap : ∀ e ∈ t, e.w + δ < eps ∨ eps + δ ≤ e.w) (wt : ℕ → S) (mcs : ℕ) :
    ∃ lab lab' : ℕ → ℤ, cutLabels (mstToLinkage wt (lexsortMst t)) eps mcs = (List.range n).map lab ∧
      cutLabels (mstToLinkage wt (lexsortMst t')) eps mcs = (List.range n).map lab' ∧
      ∀ i, i < n → (lab i = -1 ↔ lab' i = -1) ∧ ∀ j, j < n → lab i ≠ -1 → (lab i = lab j ↔ lab' i = lab' j) := by
  obtain ⟨lab, q1, q2, q3⟩ := C14_cut_is_dbscan_star n hn wt _ t [] t hf (by simp) ht (by simp) eps mcs
  obtain ⟨lab', p1, p2, p3⟩ := C14_cut_is_dbscan_star n hn wt _ t' [] t' hf' (by simp) ht' (by simp) eps mcs
  have key := below_close hδ hc hf hgap
  have hnoise : ∀ i, i < n → (lab i = -1 ↔ lab' i = -1) := fun i hi => by
    rw [q3 i hi, p3 i hi]
    classical
    exact iff_of_eq (congrArg (fun s : Finset ℕ => s.card < mcs) (Finset.filter_congr fun j _ => key i j))
  refine ⟨lab, lab', q1, p1, fun i hi => ⟨hnoise i hi, fun j hj hne => ?_⟩⟩
  rw [q2 i j hi hj hne, p2 i j hi hj fun h => hne ((hnoise i hi).2 h), key]

/-- **C121** from the distances between the rows, for `algorithm='kruskal'` and any `min_samples`. -/
theorem C121_kruskal (hn : 0 < n) (hδ : 0 ≤ δ) {D D' : ℕ → ℕ → WithTop K} (hD : ∀ i j, D i j = D j i) (hD' : ∀ i j, D' i j = D' j i) (hc : CloseDist n δ D D') (ms : ℕ)
    {eps : WithTop K} (hgap : ∀ e ∈ kruskalBrute n ms D CLParams.none, e.w + δ < eps ∨ eps + δ ≤ e.w) (wt : ℕ → S) (mcs : ℕ) :
    ∃ lab lab' : ℕ → ℤ, cutLabels (mstToLinkage wt (lexsortMst (kruskalBrute n ms D CLParams.none))) eps mcs = (List.range n).map lab ∧
      cutLabels (mstToLinkage wt (lexsortMst (kruskalBrute n ms D' CLParams.none))) eps mcs = (List.range n).map lab' ∧
      ∀ i, i < n → (lab i = -1 ↔ lab' i = -1) ∧ ∀ j, j < n → lab i ≠ -1 → (lab i = lab j ↔ lab' i = lab' j) := by
  obtain ⟨s1, s2⟩ := kruskalBrute_msf (ms := ms) hn hD
  obtain ⟨s1', s2'⟩ := kruskalBrute_msf (ms := ms) hn hD'
  exact C121_cut hn hδ (closeDist_reach hδ ms hc) s2 s2' s1 s1' hgap wt mcs

/-- **C121** for Kruskal in double precision against any run of `algorithm='boruvka'` in single precision, on any schedule.  Missing: as for
`C35_minimum_spanning_tree_partial`. -/
theorem C121_algorithms_partial (hδ : 0 ≤ δ) {D : ℕ → ℕ → WithTop K} (hD : ∀ i j, D i j = D j i)
    {R : Type*} [LinearOrder R] {vis : List (WithTop K) → WithTop K → Prop} (hvis : ∀ h w, vis h w → anyVis h w)
    {ar : Arith R (WithTop K)} (ha : ar.Lawful) {rt : WithTop K → WithTop K} (hrt : Monotone rt) (hz : rt ar.zero = 0) (zero : R) (pts : ℕ → ℕ → R) (dims leafSize ms : ℕ)
    (hls : 1 ≤ leafSize) (hn : 2 ≤ n) (hms : ms < n) (hbig : ms < 32768)
    (hdist : ∀ i < n, ∀ j < n, rdist ar dims (pts i) (pts j) < ⊤) (hc : CloseDist n δ D fun i j => rt (rdist ar dims (pts i) (pts j)))
    (t : KdTree R) (ht : buildKdTree ar zero pts dims n leafSize = some t)
    (repro : Option ℕ) (edges : List (Edge (WithTop K))) (core : ℕ → WithTop K)
    (h : TreeBoruvka vis ar rt dims pts t (numNodes n leafSize) n ms repro (edges.map fun e => ⟨e.u, some e.v, e.w⟩) core)
    {eps : WithTop K} (hgap : ∀ e ∈ kruskalBrute n ms D CLParams.none, e.w + δ < eps ∨ eps + δ ≤ e.w) (wt : ℕ → S) (mcs : ℕ) :
    ∃ lab lab' : ℕ → ℤ, cutLabels (mstToLinkage wt (lexsortMst (kruskalBrute n ms D CLParams.none))) eps mcs = (List.range n).map lab ∧
      cutLabels (mstToLinkage wt (lexsortMst edges)) eps mcs = (List.range n).map lab' ∧
      ∀ i, i < n → (lab i = -1 ↔ lab' i = -1) ∧ ∀ j, j < n → lab i ≠ -1 → (lab i = lab j ↔ lab' i = lab' j) := by
  have inj : ∀ {a b : List (Edge (WithTop K))}, a.map (fun e => (⟨e.u, some e.v, e.w⟩ : TEdge (WithTop K))) = b.map (fun e => ⟨e.u, some e.v, e.w⟩) → a = b := by
    intro a b hab
    refine List.map_injective_iff.2 (fun x y hxy => ?_) hab
    cases x; cases y
    simpa using hxy
  obtain ⟨hcore, tree, e1, q1, q2⟩ := C35_minimum_spanning_tree_partial hvis ha hrt zero pts dims n leafSize ms hls hn hms hbig hdist t ht repro _ core h
  rw [← inj e1] at q1 q2
  obtain ⟨s1, s2⟩ := kruskalBrute_msf (ms := ms) (show 0 < n by omega) hD
  set D' : ℕ → ℕ → WithTop K := fun i j => rt (rdist ar dims (pts i) (pts j)) with hD'
  have hcore' : ∀ i, i < n → core i = bruteCore n ms D' i := fun i hi => by
    rw [hcore i hi]
    unfold bruteCore
    by_cases h1 : 1 < ms
    · rw [if_pos h1, if_neg (by omega), if_pos hms]
    · rw [if_neg h1, if_pos (by omega), hz]
  refine C121_cut (show 0 < n by omega) hδ (fun i hi j hj => ?_) s2 q2 s1 q1 hgap wt mcs
  have := closeDist_reach hδ ms hc i hi j hj
  simp only [hcore' i hi, hcore' j hj]
  exact this

/-- Case: the eight points with an error of one half, `min_samples=2`, cut at 30: the lengths next to 30 are 29 and 31. -/
example : ∃ lab lab' : ℕ → ℤ, cutLabels (mstToLinkage (fun _ => (1 : ℕ)) (lexsortMst (kruskalBrute 8 2 (onLine exTrue) CLParams.none))) ((30 : ℚ) : WithTop ℚ) 2 =
      (List.range 8).map lab ∧
    cutLabels (mstToLinkage (fun _ => (1 : ℕ)) (lexsortMst (kruskalBrute 8 2 (onLine exMeasured) CLParams.none))) ((30 : ℚ) : WithTop ℚ) 2 = (List.range 8).map lab' ∧
    ∀ i, i < 8 → (lab i = -1 ↔ lab' i = -1) ∧ ∀ j, j < 8 → lab i ≠ -1 → (lab i = lab j ↔ lab' i = lab' j) :=
  C121_kruskal (by decide) (by norm_num) (onLine_comm _) (onLine_comm _) exClose 2 (by decide +kernel) _ 2

/-- What it gives here: three rows on the left, three on the right, the outer two noise. -/
example : cutLabels (mstToLinkage (fun _ => (1 : ℕ)) (lexsortMst (kruskalBrute 8 2 (onLine exTrue) CLParams.none))) ((30 : ℚ) : WithTop ℚ) 2 =
    [-1, 0, 0, 0, 1, 1, 1, -1] := by decide +kernel

/-- **C121**, why the gap is asked for: at 31.25 a tree edge of length 31 is within one half, and the last row is in a cluster for the one data set and noise for the other. -/
theorem C121_near : ∃ (D D' : ℕ → ℕ → WithTop ℚ) (eps : ℚ), (∀ i j, D i j = D j i) ∧ (∀ i j, D' i j = D' j i) ∧ CloseDist 8 (1 / 2 : ℚ) D D' ∧
    cutLabels (mstToLinkage (fun _ => (1 : ℕ)) (lexsortMst (kruskalBrute 8 2 D CLParams.none))) (eps : WithTop ℚ) 2 = [-1, 0, 0, 0, 1, 1, 1, 1] ∧
    cutLabels (mstToLinkage (fun _ => (1 : ℕ)) (lexsortMst (kruskalBrute 8 2 D' CLParams.none))) (eps : WithTop ℚ) 2 = [-1, 0, 0, 0, 1, 1, 1, -1] :=
  ⟨onLine exTrue, onLine exMeasured, 125 / 4, onLine_comm _, onLine_comm _, exClose, by decide +kernel, by decide +kernel⟩

end Verif
