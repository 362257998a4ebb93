import Verif.Props.Denser

/-!
# C125: `dbscan_clustering` and identical rows
-/

namespace Verif
variable {W S : Type*} [LinearOrder W] [OrderTop W] [Zero W] [AddCommMonoid S] {n : ℕ}

omit [AddCommMonoid S] in
/-- A row that is connected to another is connected to its copies. -/
theorem copy_conn {D : ℕ → ℕ → W} (hD : ∀ i j, D i j = D j i) (hself : ∀ i, i < n → D i i = 0) (h0 : ∀ i, i < n → ∀ j, j < n → 0 ≤ D i j) {ms : ℕ} {eps : W} {i j : ℕ}
    (hi : i < n) (hj : j < n) (hcopy : ∀ k, k < n → D i k = D j k) {k : ℕ} (hk : k ≠ i) (hc : Conn (below eps (completeGraph n (reachOf n ms D))) i k) :
    Conn (below eps (completeGraph n (reachOf n ms D))) i j := by
  by_cases hij : i = j
  · subst hij; exact Conn.refl _ _
  have hlt : bruteCore n ms D i < eps := by
    rcases Relation.ReflTransGen.cases_head hc with rfl | ⟨c, ⟨e, he, hor⟩, _⟩
    · exact absurd rfl hk
    obtain ⟨h1, h2⟩ := mem_below.1 he
    obtain ⟨_, _, _, h6⟩ := mem_completeGraph.1 h1
    rw [h6] at h2
    simp only [reachOf, max_lt_iff] at h2
    rcases hor with ⟨rfl, _⟩ | ⟨_, rfl⟩
    · exact h2.1.2
    · exact h2.2
  have hcore : bruteCore n ms D j = bruteCore n ms D i := by
    unfold bruteCore
    have : (List.range n).map (D j) = (List.range n).map (D i) := List.map_congr_left fun k hk => (hcopy k (List.mem_range.1 hk)).symm
    rw [this]
  refine Conn.edge (e := ⟨i, j, reachOf n ms D i j⟩) (mem_below.2 ⟨mem_completeGraph.2 ⟨hi, hj, hij, rfl⟩, ?_⟩)
  simp only [reachOf, max_lt_iff, hcore]
  exact ⟨⟨by rw [hcopy j hj, hself j hj]; exact (bruteCore_nonneg (h0 i hi) le_top ms).trans_lt hlt, hlt⟩, hlt⟩

/-- **C125**: identical rows get the same label from `dbscan_clustering`, for every minimum size from 2 on and any minimum spanning tree; for
`min_samples` at most 1 and positive `eps` also for a minimum size of 1. -/
theorem C125_cut (hn : 0 < n) {D : ℕ → ℕ → W} (hD : ∀ i j, D i j = D j i) (hself : ∀ i, i < n → D i i = 0) (h0 : ∀ i, i < n → ∀ j, j < n → 0 ≤ D i j) (ms : ℕ)
    {t : List (Edge W)} (ht : SpanningTree n t) (hm : MinSpanningForest (completeGraph n fun i j => max (max (D i j) (bruteCore n ms D i)) (bruteCore n ms D j)) t)
    (wt : ℕ → S) (eps : W) {mcs : ℕ} (hmcs : 2 ≤ mcs ∨ ms ≤ 1 ∧ 0 < eps) :
    ∃ lab : ℕ → ℤ, cutLabels (mstToLinkage wt (lexsortMst t)) eps mcs = (List.range n).map lab ∧
      ∀ i, i < n → ∀ j, j < n → (∀ k, k < n → D i k = D j k) → lab i = lab j := by
  classical
  obtain ⟨lab, q1, q2, q3⟩ := C14_cut_is_dbscan_star n hn wt _ t [] t hm (by simp) ht (by simp) eps mcs
  have key : ∀ i, i < n → ∀ j, j < n → (∀ k, k < n → D i k = D j k) → lab i ≠ -1 → lab i = lab j := fun i hi j hj hcopy hne => by
    refine (q2 i j hi hj hne).2 ?_
    rcases hmcs with hmcs | ⟨hms, heps⟩
    case inr =>
      by_cases hij : i = j
      · subst hij; exact Conn.refl _ _
      have hcore : ∀ i, bruteCore n ms D i = 0 := fun i => by unfold bruteCore; rw [if_pos hms]
      refine Conn.edge (e := ⟨i, j, reachOf n ms D i j⟩) (mem_below.2 ⟨mem_completeGraph.2 ⟨hi, hj, hij, rfl⟩, ?_⟩)
      simp only [reachOf, hcore, hcopy j hj, hself j hj, max_self]
      exact heps
    have hcard := hne
    rw [Ne, q3 i hi, not_lt] at hcard
    obtain ⟨k, hk, hki⟩ := Finset.exists_mem_ne (lt_of_lt_of_le (by omega) hcard) i
    exact copy_conn hD hself h0 hi hj hcopy hki (Finset.mem_filter.1 hk).2
  refine ⟨lab, q1, fun i hi j hj hcopy => ?_⟩
  by_cases h1 : lab i = -1
  · by_cases h2 : lab j = -1
    · rw [h1, h2]
    · exact (key j hj i hi (fun k hk => (hcopy k hk).symm) h2).symm
  · exact key i hi j hj hcopy h1

/-- **C125** from the distances between the rows, for `algorithm='kruskal'`. -/
theorem C125_kruskal (hn : 0 < n) {D : ℕ → ℕ → W} (hD : ∀ i j, D i j = D j i) (hself : ∀ i, i < n → D i i = 0) (h0 : ∀ i, i < n → ∀ j, j < n → 0 ≤ D i j) (ms : ℕ)
    (wt : ℕ → S) (eps : W) {mcs : ℕ} (hmcs : 2 ≤ mcs ∨ ms ≤ 1 ∧ 0 < eps) :
    ∃ lab : ℕ → ℤ, cutLabels (mstToLinkage wt (lexsortMst (kruskalBrute n ms D CLParams.none))) eps mcs = (List.range n).map lab ∧
      ∀ i, i < n → ∀ j, j < n → (∀ k, k < n → D i k = D j k) → lab i = lab j := by
  obtain ⟨s1, s2⟩ := kruskalBrute_msf (ms := ms) hn hD
  exact C125_cut hn hD hself h0 ms s1 s2 wt eps hmcs

/-- Rows 0 and 3, and rows 2 and 5, are copies. -/
def exTwins : List ℚ := [0, 1, 9, 0, 8, 9]

/-- Case: `min_samples=2`, cut at 2. -/
example : ∃ lab : ℕ → ℤ, cutLabels (mstToLinkage (fun _ => (1 : ℕ)) (lexsortMst (kruskalBrute 6 2 (onLine exTwins) CLParams.none))) ((2 : ℚ) : WithTop ℚ) 2 = (List.range 6).map lab ∧
    lab 0 = lab 3 ∧ lab 2 = lab 5 := by
  obtain ⟨lab, h1, h2⟩ := C125_kruskal (n := 6) (by decide) (onLine_comm exTwins) (by decide +kernel) (by decide +kernel) 2 (fun _ => (1 : ℕ)) ((2 : ℚ) : WithTop ℚ) (mcs := 2) (.inl (by decide))
  exact ⟨lab, h1, h2 0 (by decide) 3 (by decide) (by decide +kernel), h2 2 (by decide) 5 (by decide) (by decide +kernel)⟩

example : cutLabels (mstToLinkage (fun _ => (1 : ℕ)) (lexsortMst (kruskalBrute 6 2 (onLine exTwins) CLParams.none))) ((2 : ℚ) : WithTop ℚ) 2 = [0, 0, 1, 0, 1, 1] := by decide +kernel

/-- With a minimum size of 1 and larger `min_samples`, possible only by calling `get_cluster_labelling_at_cut` directly, copies whose core distance is not below `eps` are clusters of
their own. -/
theorem C125_size_one :
    cutLabels (mstToLinkage (fun _ => (1 : ℕ)) (lexsortMst (kruskalBrute 3 2 (onLine [0, 0, 5]) CLParams.none))) ((2 : ℚ) : WithTop ℚ) 1 = [0, 1, 2] := by decide +kernel

end Verif
