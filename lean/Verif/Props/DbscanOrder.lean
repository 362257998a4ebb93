import Verif.Props.Denser
import Verif.Props.SameTree

/-!
# C124: `dbscan_clustering` and the order of the rows
-/

namespace Verif
variable {W S : Type*} [LinearOrder W] [OrderTop W] [Zero W] [AddCommMonoid S] {n : ℕ}

/-- **C124**: `dbscan_clustering` gives the same noise and the same clusters for any order of the rows and for any minimum spanning trees, with any ties. -/
theorem C124_cut (hn : 0 < n) {f : Equiv.Perm ℕ} (hf : ∀ x, f x < n ↔ x < n) {D D' : ℕ → ℕ → W} (h : ∀ i j, i < n → j < n → D' (f i) (f j) = D i j)
    (h0 : ∀ i, i < n → ∀ j, j < n → 0 ≤ D i j) (ms : ℕ) {t t' : List (Edge W)} (ht : SpanningTree n t) (ht' : SpanningTree n t')
    (hm : MinSpanningForest (completeGraph n fun i j => max (max (D i j) (bruteCore n ms D i)) (bruteCore n ms D j)) t)
    (hm' : MinSpanningForest (completeGraph n fun i j => max (max (D' i j) (bruteCore n ms D' i)) (bruteCore n ms D' j)) t') (wt wt' : ℕ → S) (eps : W) (mcs : ℕ) :
    ∃ lab lab' : ℕ → ℤ, cutLabels (mstToLinkage wt (lexsortMst t)) eps mcs = (List.range n).map lab ∧
      cutLabels (mstToLinkage wt' (lexsortMst t')) eps mcs = (List.range n).map lab' ∧
      ∀ i, i < n → (lab i = -1 ↔ lab' (f i) = -1) ∧ ∀ j, j < n → lab i ≠ -1 → (lab i = lab j ↔ lab' (f i) = lab' (f j)) := by
  have hs : ∀ x, x < n → f.symm x < n := fun x hx => by rw [← hf, Equiv.apply_symm_apply]; exact hx
  have hsymm : ∀ i j, i < n → j < n → D (f.symm i) (f.symm j) = D' i j := fun i j hi hj => by
    rw [← h _ _ (hs i hi) (hs j hj), Equiv.apply_symm_apply, Equiv.apply_symm_apply]
  have d1 : Denser n n D D' f := ⟨fun i hi => (hf i).2 hi, fun i _ j _ e => f.injective e, fun i hi j hj => (h i j hi hj).le⟩
  have d2 : Denser n n D' D f.symm := ⟨hs, fun i _ j _ e => f.symm.injective e, fun i hi j hj => (hsymm i j hi hj).le⟩
  have h0' : ∀ i, i < n → ∀ j, j < n → 0 ≤ D' i j := fun i hi j hj => by rw [← hsymm i j hi hj]; exact h0 _ (hs i hi) _ (hs j hj)
  obtain ⟨lab', lab, p', p, key⟩ := C122_cut hn hn d1 h0 (le_refl ms) (le_refl eps) (le_refl mcs) ht' ht hm' hm wt' wt
  obtain ⟨lab2, lab2', q, q', key'⟩ := C122_cut hn hn d2 h0' (le_refl ms) (le_refl eps) (le_refl mcs) ht ht' hm hm' wt wt'
  have e : ∀ i, i < n → lab2 i = lab i := fun i hi => List.map_inj_left.1 (q.symm.trans p) i (List.mem_range.2 hi)
  have e' : ∀ i, i < n → lab2' i = lab' i := fun i hi => List.map_inj_left.1 (q'.symm.trans p') i (List.mem_range.2 hi)
  have back : ∀ i, i < n → lab' (f i) ≠ -1 → lab i ≠ -1 ∧ ∀ j, j < n → lab' (f i) = lab' (f j) → lab i = lab j := fun i hi hne => by
    have hfi := (hf i).2 hi
    rw [← e' _ hfi] at hne
    obtain ⟨k1, k2⟩ := key' (f i) hfi hne
    rw [Equiv.symm_apply_apply, e i hi] at k1
    refine ⟨k1, fun j hj hij => ?_⟩
    have := k2 (f j) ((hf j).2 hj) (by rw [e' _ hfi, e' _ ((hf j).2 hj)]; exact hij)
    rwa [Equiv.symm_apply_apply, Equiv.symm_apply_apply, e i hi, e j hj] at this
  refine ⟨lab, lab', p, p', fun i hi => ⟨⟨fun hl => ?_, fun hl => ?_⟩, fun j hj hne => ⟨(key i hi hne).2 j hj, (back i hi (key i hi hne).1).2 j hj⟩⟩⟩
  · by_contra hne; exact (back i hi hne).1 hl
  · by_contra hne; exact (key i hi hne).1 hl

/-- **C124** from the distances between the rows, for `algorithm='kruskal'`. -/
theorem C124_kruskal (hn : 0 < n) {f : Equiv.Perm ℕ} (hf : ∀ x, f x < n ↔ x < n) {D D' : ℕ → ℕ → W} (hD : ∀ i j, D i j = D j i) (hD' : ∀ i j, D' i j = D' j i)
    (h : ∀ i j, i < n → j < n → D' (f i) (f j) = D i j) (h0 : ∀ i, i < n → ∀ j, j < n → 0 ≤ D i j) (ms : ℕ) (wt wt' : ℕ → S) (eps : W) (mcs : ℕ) :
    ∃ lab lab' : ℕ → ℤ, cutLabels (mstToLinkage wt (lexsortMst (kruskalBrute n ms D CLParams.none))) eps mcs = (List.range n).map lab ∧
      cutLabels (mstToLinkage wt' (lexsortMst (kruskalBrute n ms D' CLParams.none))) eps mcs = (List.range n).map lab' ∧
      ∀ i, i < n → (lab i = -1 ↔ lab' (f i) = -1) ∧ ∀ j, j < n → lab i ≠ -1 → (lab i = lab j ↔ lab' (f i) = lab' (f j)) := by
  obtain ⟨s1, s2⟩ := kruskalBrute_msf (ms := ms) hn hD
  obtain ⟨s1', s2'⟩ := kruskalBrute_msf (ms := ms) hn hD'
  exact C124_cut hn hf h h0 ms s1 s1' s2 s2' wt wt' eps mcs

/-- **C124** (partial): any run of `algorithm='boruvka'`, on any schedule, gives the same noise and the same clusters as `algorithm='kruskal'`, with any ties.  Missing: as for
`C35_minimum_spanning_tree_partial`. -/
theorem C124_algorithms_partial {R : Type*} [LinearOrder R] {vis : List W → W → Prop} (hvis : ∀ h w, vis h w → anyVis h w)
    {ar : Arith R W} (ha : ar.Lawful) {rt : W → W} (hrt : Monotone rt) (hz : rt ar.zero = 0) (zero : R) (pts : ℕ → ℕ → R) (dims leafSize ms : ℕ)
    (hls : 1 ≤ leafSize) (hn : 2 ≤ n) (hms : ms < n) (hbig : ms < 32768)
    (hdist : ∀ i < n, ∀ j < n, rdist ar dims (pts i) (pts j) < ⊤)
    (t : KdTree R) (ht : buildKdTree ar zero pts dims n leafSize = some t)
    (repro : Option ℕ) (edges : List (Edge W)) (core : ℕ → W)
    (h : TreeBoruvka vis ar rt dims pts t (numNodes n leafSize) n ms repro (edges.map fun e => ⟨e.u, some e.v, e.w⟩) core) (wt : ℕ → S) (eps : W) (mcs : ℕ) :
    ∃ lab lab' : ℕ → ℤ, cutLabels (mstToLinkage wt (lexsortMst (kruskalBrute n ms (fun i j => rt (rdist ar dims (pts i) (pts j))) CLParams.none))) eps mcs =
        (List.range n).map lab ∧
      cutLabels (mstToLinkage wt (lexsortMst edges)) eps mcs = (List.range n).map lab' ∧
      ∀ i, i < n → (lab i = -1 ↔ lab' i = -1) ∧ ∀ j, j < n → lab i ≠ -1 → (lab i = lab j ↔ lab' i = lab' j) := by
  have inj : ∀ {a b : List (Edge W)}, a.map (fun e => (⟨e.u, some e.v, e.w⟩ : TEdge W)) = b.map (fun e => ⟨e.u, some e.v, e.w⟩) → a = b := by
    intro a b hab
    refine List.map_injective_iff.2 (fun x y hxy => ?_) hab
    cases x; cases y
    simpa using hxy
  obtain ⟨hcore, tree, e1, q1, q2⟩ := C35_minimum_spanning_tree_partial hvis ha hrt zero pts dims n leafSize ms hls hn hms hbig hdist t ht repro _ core h
  rw [← inj e1] at q1 q2
  set D : ℕ → ℕ → W := fun i j => rt (rdist ar dims (pts i) (pts j)) with hD
  obtain ⟨s1, s2⟩ := kruskalBrute_msf (ms := ms) (show 0 < n by omega) (D := D) fun i j => by rw [hD]; simp only [rdist_comm ha dims (pts i) (pts j)]
  have hcore' : ∀ i, i < n → core i = bruteCore n ms D i := fun i hi => by
    rw [hcore i hi]
    unfold bruteCore
    by_cases h1 : 1 < ms
    · rw [if_pos h1, if_neg (by omega), if_pos hms]
    · rw [if_neg h1, if_pos (by omega), hz]
  have hg : completeGraph n (fun i j => max (max (D i j) (core i)) (core j)) = completeGraph n fun i j => max (max (D i j) (bruteCore n ms D i)) (bruteCore n ms D j) := by
    unfold completeGraph
    refine List.flatMap_congr fun i hi => List.map_congr_left fun j hj => ?_
    simp only [hcore' i (List.mem_range.1 hi), hcore' j (List.mem_range.1 (List.mem_filter.1 hj).1)]
  rw [hg] at q2
  exact C124_cut (show 0 < n by omega) (f := 1) (fun _ => Iff.rfl) (D := D) (D' := D) (fun _ _ _ _ => rfl) (fun i _ j _ => hz ▸ hrt (rdist_nonneg ha dims _ _)) ms s1 q1 s2 q2 wt wt eps mcs

/-! ### Cases -/

/-- The row in the middle is as far from both groups; `fit` puts it in the group that comes first (`C92_general_position`). -/
def exMiddle : List ℚ := [0, 1, 21 / 10, 6, 103 / 10, 229 / 20, 127 / 10]

/-- Case: these rows in reverse order, cut at 4, for `min_samples=2`. -/
example : ∃ lab lab' : ℕ → ℤ, cutLabels (mstToLinkage (fun _ => (1 : ℕ)) (lexsortMst (kruskalBrute 7 2 (onLine exMiddle) CLParams.none))) ((4 : ℚ) : WithTop ℚ) 2 =
      (List.range 7).map lab ∧
    cutLabels (mstToLinkage (fun _ => (1 : ℕ)) (lexsortMst (kruskalBrute 7 2 (onLine exMiddle.reverse) CLParams.none))) ((4 : ℚ) : WithTop ℚ) 2 = (List.range 7).map lab' ∧
    ∀ i, i < 7 → (lab i = -1 ↔ lab' (reverse7 i) = -1) ∧ ∀ j, j < 7 → lab i ≠ -1 → (lab i = lab j ↔ lab' (reverse7 i) = lab' (reverse7 j)) :=
  C124_kruskal (by decide) reverse7_lt (onLine_comm _) (onLine_comm _)
    (fun i j hi hj => (by decide +kernel : ∀ i < 7, ∀ j < 7, onLine exMiddle.reverse (reverse7 i) (reverse7 j) = onLine exMiddle i j) i hi j hj)
    (by decide +kernel) 2 _ _ _ _

example : cutLabels (mstToLinkage (fun _ => (1 : ℕ)) (lexsortMst (kruskalBrute 7 2 (onLine exMiddle) CLParams.none))) ((4 : ℚ) : WithTop ℚ) 2 =
    [0, 0, 0, -1, 1, 1, 1] := by decide +kernel

/-- Five points on a line with gaps 1, 1, 3 and 1. -/
def tiedPts (i _ : ℕ) : ℤ := [0, 1, 2, 5, 6].getD i 0

/-- Case: a run of Boruvka on points with ties, against Kruskal, cut at the squared distance 9. -/
example : ∃ (t : KdTree ℤ) (edges : List (Edge (WithTop ℤ))) (core : ℕ → WithTop ℤ) (lab lab' : ℕ → ℤ),
    TreeBoruvka lastVis (roundedArith (id : ℤ → ℤ)) id 1 tiedPts t (numNodes 5 2) 5 1 none (edges.map fun e => ⟨e.u, some e.v, e.w⟩) core ∧
    cutLabels (mstToLinkage (fun _ => (1 : ℕ)) (lexsortMst (kruskalBrute 5 1 (fun i j => rdist (roundedArith (id : ℤ → ℤ)) 1 (tiedPts i) (tiedPts j)) CLParams.none)))
      ((9 : ℤ) : WithTop ℤ) 2 = (List.range 5).map lab ∧
    cutLabels (mstToLinkage (fun _ => (1 : ℕ)) (lexsortMst edges)) ((9 : ℤ) : WithTop ℤ) 2 = (List.range 5).map lab' ∧
    ∀ i, i < 5 → (lab i = -1 ↔ lab' i = -1) ∧ ∀ j, j < 5 → lab i ≠ -1 → (lab i = lab j ↔ lab' i = lab' j) := by
  have ha : (roundedArith (id : ℤ → ℤ)).Lawful := exactArith_lawful
  have hfin : ∀ i < 5, ∀ j < 5, rdist (roundedArith (id : ℤ → ℤ)) 1 (tiedPts i) (tiedPts j) < ⊤ := by decide +kernel
  obtain ⟨t, ht, _⟩ := buildKdTree_valid (roundedArith (id : ℤ → ℤ)) 0 tiedPts 1 5 2 (by decide) (by decide)
  obtain ⟨e1, c1, r1⟩ := C35_gives_result ha id 0 tiedPts 1 5 2 1 (by decide) (by decide) (by decide) (by decide) hfin t ht none (by simp)
  have hv : ∀ (h : List (WithTop ℤ)) w, lastVis h w → anyVis h w := fun _ _ => lastVis_anyVis
  obtain ⟨_, t1, q1, _, _⟩ := C35_minimum_spanning_tree_partial hv ha monotone_id 0 tiedPts 1 5 2 1 (by decide) (by decide) (by decide) (by decide) hfin t ht none e1 c1 r1
  rw [q1] at r1
  obtain ⟨lab, lab', h1, h2, h3⟩ := C124_algorithms_partial hv ha monotone_id rfl 0 tiedPts 1 2 1 (by decide) (by decide) (by decide) (by decide) hfin t ht none t1 c1 r1
    (fun _ => (1 : ℕ)) ((9 : ℤ) : WithTop ℤ) 2
  exact ⟨t, t1, c1, lab, lab', r1, h1, h2, h3⟩

end Verif
