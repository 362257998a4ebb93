import Verif.Model.Centrality
import Verif.Props.ApproxGraph
import Mathlib.Tactic.Abel
import Mathlib.Tactic.Module
import Mathlib.Algebra.BigOperators.Group.List.Lemmas

/-!
# C90: centralities
-/

namespace Verif
variable {E K V D : Type*}

section
variable [Field K] [LinearOrder K] [AddCommGroup E] [Module K E]

omit [LinearOrder K] in
theorem sum_smul_sub (data : ℕ → E) (probs : ℕ → K) (m : E) (points : List ℕ) :
    (points.map fun p => probs p • (data p - m)).sum = (points.map fun p => probs p • data p).sum - (points.map probs).sum • m := by
  induction points with
  | nil => simp
  | cons p points ih => simp only [List.map_cons, List.sum_cons, ih]; module

/-- The centroid is the point in which the samples balance. -/
theorem centroid_iff {data : ℕ → E} {probs : ℕ → K} {points : List ℕ} {m : E} :
    centroid data probs points = some m ↔ (points.map probs).sum ≠ 0 ∧ (points.map fun p => probs p • (data p - m)).sum = 0 := by
  unfold centroid
  simp only
  rw [sum_smul_sub, sub_eq_zero]
  split_ifs with h
  · simp [h]
  · rw [Option.some.injEq]
    constructor
    · rintro rfl
      exact ⟨h, by rw [smul_smul, mul_inv_cancel₀ h, one_smul]⟩
    · rintro ⟨_, e⟩
      rw [e, smul_smul, inv_mul_cancel₀ h, one_smul]

theorem centroid_rigid {E' : Type*} [AddCommGroup E'] [Module K E'] (L : E →ₗ[K] E') (t : E') (data : ℕ → E) (probs : ℕ → K) (points : List ℕ) :
    centroid (fun i => L (data i) + t) probs points = (centroid data probs points).map fun m => L m + t := by
  cases h : centroid data probs points with
  | none =>
    unfold centroid at h ⊢
    simp only at h ⊢
    split_ifs at h with h0
    rw [if_pos h0]; rfl
  | some m =>
    obtain ⟨h1, h2⟩ := centroid_iff.1 h
    rw [Option.map_some]
    refine centroid_iff.2 ⟨h1, ?_⟩
    have := congrArg L h2
    rw [map_list_sum, List.map_map, map_zero] at this
    rw [← this]
    congr 1
    refine List.map_congr_left fun p _ => ?_
    simp only [Function.comp, map_smul, map_sub]
    congr 1
    abel

theorem computeCentrality_rigid {E' : Type*} [AddCommGroup E'] [Module K E'] {norm : E → K} {norm' : E' → K} (L : E →ₗ[K] E') (hL : ∀ x, norm' (L x) = norm x)
    (t : E') (data : ℕ → E) (probs : ℕ → K) (points : List ℕ) :
    computeCentrality norm' (fun i => L (data i) + t) probs points = computeCentrality norm data probs points := by
  unfold computeCentrality
  rw [centroid_rigid, Option.map_map]
  congr 1
  funext m
  refine List.map_congr_left fun p _ => ?_
  have : L (data p) + t - (L m + t) = L (data p - m) := by rw [map_sub]; abel
  unfold inverseNorm
  rw [this, hL]

/-- **C90**: `compute_centrality` raises an error exactly if the strengths of the samples add up to 0.  Otherwise there is a point in which the samples,
weighted by their strengths, balance; a sample in that point has centrality infinity, any other the inverse of its distance to it. -/
theorem C90_centrality (norm : E → K) (data : ℕ → E) (probs : ℕ → K) (points : List ℕ) :
    (computeCentrality norm data probs points = none ↔ (points.map probs).sum = 0) ∧
    ∀ ls, computeCentrality norm data probs points = some ls → ls.length = points.length ∧
      ∃ m : E, (points.map fun p => probs p • (data p - m)).sum = 0 ∧
        ∀ k p : ℕ, points[k]? = some p → (norm (data p - m) = 0 → ls[k]? = some ⊤) ∧
          (norm (data p - m) ≠ 0 → ∃ x : K, ls[k]? = some (x : WithTop K) ∧ x * norm (data p - m) = 1) := by
  unfold computeCentrality
  constructor
  · rw [Option.map_eq_none_iff]
    unfold centroid
    simp only
    split_ifs with h <;> simp [h]
  · intro ls hls
    obtain ⟨m, hm, rfl⟩ := Option.map_eq_some_iff.1 hls
    refine ⟨by simp, m, (centroid_iff.1 hm).2, fun k p hp => ⟨fun h => ?_, fun h => ⟨(norm (data p - m))⁻¹, ?_, inv_mul_cancel₀ h⟩⟩⟩
    · rw [List.getElem?_map, hp, Option.map_some, inverseNorm, if_pos h]
    · rw [List.getElem?_map, hp, Option.map_some, inverseNorm, if_neg h]

/-- **C90**: nearer to the centre is more central. -/
theorem C90_order [IsStrictOrderedRing K] {norm : E → K} (h0 : ∀ x, 0 ≤ norm x) (data : ℕ → E) (probs : ℕ → K) (points : List ℕ) {ls : List (WithTop K)}
    (hls : computeCentrality norm data probs points = some ls) :
    ∃ m : E, (points.map fun p => probs p • (data p - m)).sum = 0 ∧ ∀ k l p q : ℕ, points[k]? = some p → points[l]? = some q →
      ∃ a b, ls[k]? = some a ∧ ls[l]? = some b ∧ (a ≤ b ↔ norm (data q - m) ≤ norm (data p - m)) := by
  unfold computeCentrality at hls
  obtain ⟨m, hm, rfl⟩ := Option.map_eq_some_iff.1 hls
  refine ⟨m, (centroid_iff.1 hm).2, fun k l p q hp hq => ⟨_, _, by rw [List.getElem?_map, hp, Option.map_some], by rw [List.getElem?_map, hq, Option.map_some], ?_⟩⟩
  unfold inverseNorm
  have hp0 := h0 (data p - m)
  have hq0 := h0 (data q - m)
  split_ifs with h1 h2 h2
  · simp [h1, h2]
  · rw [h1]
    simp only [top_le_iff, WithTop.coe_ne_top, false_iff, not_le]
    exact lt_of_le_of_ne hq0 (Ne.symm h2)
  · rw [h2]; simp [hp0]
  · rw [WithTop.coe_le_coe]
    exact inv_le_inv₀ (lt_of_le_of_ne hp0 (Ne.symm h1)) (lt_of_le_of_ne hq0 (Ne.symm h2))

theorem centralities_rigid {E' : Type*} [AddCommGroup E'] [Module K E'] {norm : E → K} {norm' : E' → K} (L : E →ₗ[K] E') (hL : ∀ x, norm' (L x) = norm x) (t : E')
    (data : ℕ → E) (N : ℕ) (labels : ℕ → ℤ) (probs : ℕ → K) :
    centralities norm' (fun i => L (data i) + t) N labels probs = centralities norm data N labels probs := by
  unfold centralities
  simp only [computeCentrality_rigid L hL]

/-- **C90**: moving all samples by a translation and a linear map that keeps lengths (a rotation, a reflection, an embedding in more dimensions) changes
nothing, whatever the other arguments. -/
theorem C90_rigid [Inhabited K] [LinearOrder D] [Add V] [LT V] [DecidableLT V] {E' : Type*} [AddCommGroup E'] [Module K E'] {norm : E → K} {norm' : E' → K}
    (L : E →ₗ[K] E') (hL : ∀ x, norm' (L x) = norm x) (t : E') (inv : WithTop K → Option V) (zero : V) (propagate sides : Bool)
    (sortRow : LensRow (WithTop K) D → LensRow (WithTop K) D) (lam : WithTop K → K) (wt : ℕ → K) (o : ClusterOpts K) (n : ℕ) (tree : List (CRow K K))
    (data : ℕ → E) (labels : ℕ → ℤ) (probs : ℕ → K) (nb : ℕ → List (Option ℕ)) (core : ℕ → D) (mst : List (Edge D)) :
    branchFit inv zero propagate sides norm' sortRow lam wt o n tree (fun i => L (data i) + t) labels probs nb core mst =
      branchFit inv zero propagate sides norm sortRow lam wt o n tree data labels probs nb core mst := by
  unfold branchFit
  simp only
  rw [← centralities_rigid L hL t]
  rfl

/-- **C90**: in another unit of length all centralities are divided by the same number. -/
theorem C90_scale [IsStrictOrderedRing K] {norm : E → K} (hn : ∀ (s : K) x, norm (s • x) = |s| * norm x) {s : K} (hs : s ≠ 0) (data : ℕ → E) (probs : ℕ → K) (points : List ℕ) :
    computeCentrality norm (fun i => s • data i) probs points =
      (computeCentrality norm data probs points).map (List.map (WithTop.map fun x => x / |s|)) := by
  have := centroid_rigid (s • (LinearMap.id : E →ₗ[K] E)) 0 data probs points
  simp only [LinearMap.smul_apply, LinearMap.id_apply, add_zero] at this
  unfold computeCentrality
  rw [this, Option.map_map, Option.map_map]
  congr 1
  funext m
  simp only [Function.comp, List.map_map]
  refine List.map_congr_left fun p _ => ?_
  unfold inverseNorm
  have hs' : |s| ≠ 0 := abs_ne_zero.2 hs
  simp only [Function.comp]
  rw [← smul_sub, hn]
  by_cases h : norm (data p - m) = 0
  · simp [h]
  · rw [if_neg (mul_ne_zero hs' h), if_neg h, WithTop.map_coe, mul_inv, div_eq_inv_mul]

end

section
variable [Field K] [LinearOrder K] [IsStrictOrderedRing K] [AddCommGroup E] [Module K E] [LinearOrder D] [Inhabited K]

/-- **C90** with C87 (partial): if in every cluster the strengths do not add up to 0 and no sample lies in the centre, `BranchDetector.fit` without propagation
succeeds, and its labels are as in C87. -/
theorem C90_branches_partial [LinearOrder V] [Add V] (inv : WithTop K → Option V) (zero : V) {n num : ℕ} {tree : List (CRow K K)} {idx : List ℕ}
    (hrec : recoverFinite n tree = some idx ∨ (recoverFinite n tree = none ∧ idx = List.range n))
    {lab : ℕ → ℤ} {nb : ℕ → List (Option ℕ)} {mst : List (Edge D)} (h : SubInput idx.length num (atFinite idx lab) nb mst)
    (hnum : 0 < num) {sortRow : LensRow (WithTop K) D → LensRow (WithTop K) D} (hs : SortsRows sortRow) (lam : WithTop K → K) (hlam : Antitone lam)
    (hpos : ∀ x : K, 0 < lam x) (htop : 0 ≤ lam ⊤) (wt : ℕ → K) (o : ClusterOpts K) (h1 : 1 < o.minClusterSize) (h0 : ∀ x ∈ idx, 0 ≤ wt x)
    (hl : ∀ x ∈ idx, wt x < o.minClusterSize) (core : ℕ → D) (probs : ℕ → K)
    (norm : E → K) (data : ℕ → E) (hsum : ∀ c : ℕ, c < num → ((rowsIn idx lab c).map probs).sum ≠ 0)
    (hcen : ∀ c : ℕ, c < num → ∀ m : E, ((rowsIn idx lab c).map fun p => probs p • (data p - m)).sum = 0 → ∀ i ∈ rowsIn idx lab c, norm (data i - m) ≠ 0)
    (sides : Bool) (hok : (o.persistence ≤ 0 ∧ o.maxClusterSize = none) ∨ ∃ g, branchFit inv zero false sides norm sortRow lam wt o n tree data lab probs nb core mst = some g) :
    ∃ g, branchFit inv zero false sides norm sortRow lam wt o n tree data lab probs nb core mst = some g ∧ g.out.labels.length = n ∧
        (∀ i < n, (i ∉ idx ∨ lab i = -1) → g.out.labels[i]? = some (-1)) ∧
        (∀ i ∈ idx, lab i ≠ -1 → ∃ l : ℤ, 0 ≤ l ∧ g.out.labels[i]? = some l) ∧
        ∀ i ∈ idx, ∀ j ∈ idx, lab i ≠ -1 → lab j ≠ -1 → (g.out.labels[i]? = g.out.labels[j]? ↔
          lab i = lab j ∧ (OneBranch sides idx lab nb mst (fun i => g.out.subLabels.getD i 0) (lab i) ∨ g.out.subLabels[i]? = g.out.subLabels[j]?)) := by
  have hidx : (recoverFinite n tree).getD (List.range n) = idx := by
    rcases hrec with hrec | ⟨hrec, rfl⟩
    · rw [hrec]; rfl
    · rw [hrec]; rfl
  have hmapK : ∀ (g : ℕ → K) (c : ℕ), (clusterPoints idx.length (atFinite idx lab) c).map (atFinite idx g) = (rowsIn idx lab c).map g := by
    intro g c
    rw [← remap_clusterPoints]
    unfold remapPoints
    rw [List.map_map]; rfl
  have hmapd : ∀ (g : ℕ → E) (c : ℕ), (clusterPoints idx.length (atFinite idx lab) c).map (atFinite idx g) = (rowsIn idx lab c).map g := by
    intro g c
    rw [← remap_clusterPoints]
    unfold remapPoints
    rw [List.map_map]; rfl
  have hex : ∀ c : ℕ, ∃ ls : List (WithTop K), c < num → computeCentrality norm (atFinite idx data) (atFinite idx probs) (clusterPoints idx.length (atFinite idx lab) c) = some ls ∧
      ∀ x ∈ ls, x ≠ ⊤ := by
    intro c
    by_cases hc : c < num
    · obtain ⟨a, b⟩ := C90_centrality norm (atFinite idx data) (atFinite idx probs) (clusterPoints idx.length (atFinite idx lab) c)
      cases hls : computeCentrality norm (atFinite idx data) (atFinite idx probs) (clusterPoints idx.length (atFinite idx lab) c) with
      | none =>
        have := a.1 hls
        rw [hmapK] at this
        exact absurd this (hsum c hc)
      | some ls =>
        refine ⟨ls, fun _ => ⟨rfl, fun x hx htop => ?_⟩⟩
        obtain ⟨hlen, m, m1, m2⟩ := b ls hls
        obtain ⟨k, hk⟩ := List.mem_iff_getElem?.1 hx
        have hkl : k < (clusterPoints idx.length (atFinite idx lab) c).length := by rw [← hlen]; exact (List.getElem?_eq_some_iff.1 hk).1
        have hkp := List.getElem?_eq_getElem hkl
        obtain ⟨p1, p2⟩ := clusterPoints_get hkp
        have hsum0 := m1
        have e := hmapd (fun p => probs p • (data p - m)) c
        have e' : (clusterPoints idx.length (atFinite idx lab) c).map (atFinite idx fun p => probs p • (data p - m)) =
          (clusterPoints idx.length (atFinite idx lab) c).map fun p => atFinite idx probs p • (atFinite idx data p - m) := rfl
        rw [← e', e] at hsum0
        have hne := hcen c hc m hsum0 (idx.getD ((clusterPoints idx.length (atFinite idx lab) c)[k]) 0) (by
          rw [← remap_clusterPoints]; exact List.mem_map_of_mem (List.getElem_mem _))
        obtain ⟨y, hy, _⟩ := (m2 k _ hkp).2 hne
        rw [hk, Option.some.injEq, htop] at hy
        exact WithTop.coe_ne_top hy.symm
    · exact ⟨[], fun h => absurd h hc⟩
  choose ls hls using hex
  have hlens : centralities norm (atFinite idx data) idx.length (atFinite idx lab) (atFinite idx probs) =
      some fun c i => (((List.range num).map ls).getD c []).getD i 0 := by
    unfold centralities
    rw [h.numClusters hnum, Option.bind_some, mapM_of_some (g := ls) fun c hc => (hls c (List.mem_range.1 hc)).1, Option.map_some]
  set lens : ℕ → ℕ → WithTop K := fun c i => (((List.range num).map ls).getD c []).getD i 0 with hlensd
  have hfin : ∀ c i, 0 < lam (lens c i) := by
    intro c i
    have : lens c i ≠ ⊤ := by
      rw [hlensd]
      simp only [List.getD_eq_getElem?_getD, List.getElem?_map]
      by_cases hc : c < num
      · rw [List.getElem?_range hc, Option.map_some, Option.getD_some]
        cases hi : (ls c)[i]? with
        | none => exact WithTop.zero_ne_top
        | some x => exact (hls c hc).2 x (List.mem_of_getElem? hi)
      · rw [List.getElem?_eq_none (l := List.range num) (by simpa using hc)]
        exact WithTop.zero_ne_top
    obtain ⟨x, hx⟩ := WithTop.ne_top_iff_exists.1 this
    rw [← hx]; exact hpos x
  have hpos' : ∀ d, 0 ≤ lam d := fun d => by
    cases d with
    | top => exact htop
    | coe x => exact (hpos x).le
  obtain ⟨⟨f, hf⟩, hall⟩ := C87_branches_partial inv zero hrec h hnum hs lam hlam hpos' wt o h1 h0 hl core probs lens hfin false sides
    (hok.imp_right fun ⟨g, hg⟩ => by
      unfold branchFit at hg
      simp only at hg
      rw [hidx, hlens, Option.bind_some] at hg
      exact (Option.bind_eq_some_iff.1 hg).imp fun _ h => h.1)
  obtain ⟨g, g1, g2, _, g4, g5, g6, g7, g8⟩ := hall f hf
  refine ⟨g, ?_, g4.1, fun i hi hor => ?_, fun i hi hn => (g7 i hi hn).1, g8⟩
  · unfold branchFit
    simp only
    rw [hidx, hlens, Option.bind_some, hf, Option.bind_some, g1]
  · by_cases hm : i ∈ idx
    · exact (g6 i hm (hor.resolve_left fun h => h hm)).1
    · exact (g5 i hi hm).1

end

end Verif
