import Verif.Props.Dbscan
import Verif.Props.Rename
import Verif.Lemmas.BruteMst
import Verif.Spec.Denser

/-!
# C122: `dbscan_clustering` on denser data
-/

namespace Verif
variable {W S : Type*} [LinearOrder W] [OrderTop W] [Zero W] [AddCommMonoid S] {m n : ℕ}

omit [AddCommMonoid S] in
theorem bruteCore_nonneg {D : ℕ → ℕ → W} {i : ℕ} (h0 : ∀ j, j < n → 0 ≤ D i j) (htop : (0 : W) ≤ ⊤) (ms : ℕ) : 0 ≤ bruteCore n ms D i := by
  unfold bruteCore
  split
  · exact le_rfl
  split
  · rename_i hms
    have hl : ms < (((List.range n).map (D i)).insertionSort (· ≤ ·)).length := by simpa using hms
    rw [List.getD_eq_getElem?_getD, List.getElem?_eq_getElem hl, Option.getD_some]
    obtain ⟨k, hk, he⟩ := List.mem_map.1 ((List.mem_insertionSort _).1 (List.getElem_mem hl))
    rw [← he]
    exact h0 k (List.mem_range.1 hk)
  · exact htop

omit [AddCommMonoid S] in
/-- In denser data and with a smaller `min_samples`, core distances are no larger. -/
theorem bruteCore_denser {D' D : ℕ → ℕ → W} {f : ℕ → ℕ} (hd : Denser m n D' D f) {ms ms' : ℕ} (hms : ms ≤ ms') {i : ℕ} (hi : i < m) (h0 : ∀ j, j < m → 0 ≤ D' i j)
    {eps : W} (h : bruteCore m ms' D' i < eps) : bruteCore n ms D (f i) < eps := by
  by_cases h1 : ms ≤ 1
  · have := (bruteCore_nonneg h0 le_top ms').trans_lt h
    unfold bruteCore
    rwa [if_pos h1]
  unfold bruteCore at h
  rw [if_neg (by omega)] at h
  split at h
  case isFalse => exact absurd h (not_lt.2 le_top)
  rename_i hm
  have hcard : ∀ (k : ℕ) (g : ℕ → W), ((List.range k).map g).countP (· < eps) = ((Finset.range k).filter fun j => g j < eps).card := fun k g => by
    rw [List.countP_map, List.countP_eq_length_filter, ← List.toFinset_card_of_nodup (List.Nodup.filter _ List.nodup_range)]
    congr 1
    ext j
    simp
  rw [sorted_getD_lt (List.pairwise_insertionSort _ _), (List.perm_insertionSort _ _).countP_eq, hcard] at h
  have hle : ((Finset.range m).filter fun j => D' i j < eps).card ≤ ((Finset.range n).filter fun j => D (f i) j < eps).card := by
    refine Finset.card_le_card_of_injOn f (fun j hj => ?_) fun a ha b hb hab => ?_
    · obtain ⟨hj, hlt⟩ := Finset.mem_filter.1 hj
      have hj := Finset.mem_range.1 hj
      exact Finset.mem_filter.2 ⟨Finset.mem_range.2 (hd.lt j hj), (hd.le i hi j hj).trans_lt hlt⟩
    · exact hd.inj a (Finset.mem_range.1 (Finset.mem_filter.1 ha).1) b (Finset.mem_range.1 (Finset.mem_filter.1 hb).1) hab
  have hn : ((Finset.range n).filter fun j => D (f i) j < eps).card ≤ n := (Finset.card_filter_le _ _).trans_eq (Finset.card_range n)
  unfold bruteCore
  rw [if_neg h1, if_pos (by omega), sorted_getD_lt (List.pairwise_insertionSort _ _), (List.perm_insertionSort _ _).countP_eq, hcard]
  omega

/-- The mutual reachability distances of `_kruskal_mst_brute`. -/
abbrev reachOf (n ms : ℕ) (D : ℕ → ℕ → W) : ℕ → ℕ → W := fun i j => max (max (D i j) (bruteCore n ms D i)) (bruteCore n ms D j)

omit [AddCommMonoid S] in
/-- What is connected stays connected in denser data. -/
theorem conn_denser {D' D : ℕ → ℕ → W} {f : ℕ → ℕ} (hd : Denser m n D' D f) (h0 : ∀ i, i < m → ∀ j, j < m → 0 ≤ D' i j) {ms ms' : ℕ} (hms : ms ≤ ms')
    {eps eps' : W} (heps : eps' ≤ eps) {a b : ℕ} (h : Conn (below eps' (completeGraph m (reachOf m ms' D'))) a b) :
    Conn (below eps (completeGraph n (reachOf n ms D))) (f a) (f b) := by
  induction h with
  | refl => exact Conn.refl _ _
  | tail _ hadj ih =>
    rename_i p q _
    refine ih.trans ?_
    obtain ⟨e, he, hor⟩ := hadj
    obtain ⟨h1, h2⟩ := mem_below.1 he
    obtain ⟨h3, h4, h5, h6⟩ := mem_completeGraph.1 h1
    rw [h6] at h2
    have h2 := h2.trans_le heps
    simp only [reachOf, max_lt_iff] at h2
    have hne : f e.u ≠ f e.v := fun hh => h5 (hd.inj _ h3 _ h4 hh)
    have hc : Conn (below eps (completeGraph n (reachOf n ms D))) (f e.u) (f e.v) := by
      refine Conn.edge (e := ⟨f e.u, f e.v, reachOf n ms D (f e.u) (f e.v)⟩) (mem_below.2 ⟨mem_completeGraph.2 ⟨hd.lt _ h3, hd.lt _ h4, hne, rfl⟩, ?_⟩)
      simp only [reachOf, max_lt_iff]
      exact ⟨⟨(hd.le _ h3 _ h4).trans_lt h2.1.1, bruteCore_denser hd hms h3 (h0 _ h3) h2.1.2⟩, bruteCore_denser hd hms h4 (h0 _ h4) h2.2⟩
    rcases hor with ⟨rfl, rfl⟩ | ⟨rfl, rfl⟩
    · exact hc
    · exact hc.symm

/-- **C122**: more rows, smaller distances, a smaller `min_samples`, a larger `eps` and a smaller minimum size never make a clustered row of `dbscan_clustering` noise and never
divide a cluster; for any minimum spanning trees of the mutual reachability distances. -/
theorem C122_cut (hm : 0 < m) (hn : 0 < n) {D' D : ℕ → ℕ → W} {f : ℕ → ℕ} (hd : Denser m n D' D f) (h0 : ∀ i, i < m → ∀ j, j < m → 0 ≤ D' i j) {ms ms' : ℕ} (hms : ms ≤ ms')
    {eps eps' : W} (heps : eps' ≤ eps) {mcs mcs' : ℕ} (hmcs : mcs ≤ mcs') {t t' : List (Edge W)} (ht : SpanningTree n t) (ht' : SpanningTree m t')
    (hf : MinSpanningForest (completeGraph n fun i j => max (max (D i j) (bruteCore n ms D i)) (bruteCore n ms D j)) t)
    (hf' : MinSpanningForest (completeGraph m fun i j => max (max (D' i j) (bruteCore m ms' D' i)) (bruteCore m ms' D' j)) t') (wt wt' : ℕ → S) :
    ∃ lab lab' : ℕ → ℤ, cutLabels (mstToLinkage wt (lexsortMst t)) eps mcs = (List.range n).map lab ∧
      cutLabels (mstToLinkage wt' (lexsortMst t')) eps' mcs' = (List.range m).map lab' ∧
      ∀ i, i < m → lab' i ≠ -1 → lab (f i) ≠ -1 ∧ ∀ j, j < m → lab' i = lab' j → lab (f i) = lab (f j) := by
  classical
  obtain ⟨lab, q1, q2, q3⟩ := C14_cut_is_dbscan_star n hn wt _ t [] t hf (by simp) ht (by simp) eps mcs
  obtain ⟨lab', p1, p2, p3⟩ := C14_cut_is_dbscan_star m hm wt' _ t' [] t' hf' (by simp) ht' (by simp) eps' mcs'
  refine ⟨lab, lab', q1, p1, fun i hi hne => ?_⟩
  have hlab : lab (f i) ≠ -1 := by
    rw [Ne, q3 _ (hd.lt i hi), not_lt]
    rw [Ne, p3 i hi, not_lt] at hne
    refine hmcs.trans (hne.trans ?_)
    refine Finset.card_le_card_of_injOn f (fun j hj => ?_) fun a ha b hb hab => ?_
    · obtain ⟨hj, hc⟩ := Finset.mem_filter.1 hj
      exact Finset.mem_filter.2 ⟨Finset.mem_range.2 (hd.lt j (Finset.mem_range.1 hj)), conn_denser hd h0 hms heps hc⟩
    · exact hd.inj a (Finset.mem_range.1 (Finset.mem_filter.1 ha).1) b (Finset.mem_range.1 (Finset.mem_filter.1 hb).1) hab
  refine ⟨hlab, fun j hj hij => ?_⟩
  rw [q2 _ _ (hd.lt i hi) (hd.lt j hj) hlab]
  exact conn_denser hd h0 hms heps ((p2 i j hi hj hne).1 hij)

/-- **C122** from the distances between the rows, for `algorithm='kruskal'`. -/
theorem C122_kruskal (hm : 0 < m) {D' D : ℕ → ℕ → W} (hD : ∀ i j, D i j = D j i) (hD' : ∀ i j, D' i j = D' j i) {f : ℕ → ℕ} (hd : Denser m n D' D f)
    (h0 : ∀ i, i < m → ∀ j, j < m → 0 ≤ D' i j) {ms ms' : ℕ} (hms : ms ≤ ms') {eps eps' : W} (heps : eps' ≤ eps) {mcs mcs' : ℕ} (hmcs : mcs ≤ mcs') (wt wt' : ℕ → S) :
    ∃ lab lab' : ℕ → ℤ, cutLabels (mstToLinkage wt (lexsortMst (kruskalBrute n ms D CLParams.none))) eps mcs = (List.range n).map lab ∧
      cutLabels (mstToLinkage wt' (lexsortMst (kruskalBrute m ms' D' CLParams.none))) eps' mcs' = (List.range m).map lab' ∧
      ∀ i, i < m → lab' i ≠ -1 → lab (f i) ≠ -1 ∧ ∀ j, j < m → lab' i = lab' j → lab (f i) = lab (f j) := by
  have hn : 0 < n := Nat.zero_lt_of_lt (hd.lt 0 hm)
  obtain ⟨s1, s2⟩ := kruskalBrute_msf (ms := ms) hn hD
  obtain ⟨s1', s2'⟩ := kruskalBrute_msf (ms := ms') hm hD'
  exact C122_cut hm hn hd h0 hms heps hmcs s1 s1' s2 s2' wt wt'

/-! ### Cases -/

/-- Two groups of four rows. -/
def exSparse : List ℚ := [0, 1, 2, 3, 20, 21, 22, 23]

/-- The same with a row between them. -/
def exDense : List ℚ := [0, 1, 2, 3, 20, 21, 22, 23, 11]

theorem exDenser : Denser 8 9 (onLine exSparse) (onLine exDense) id := by
  have h : ∀ i < 8, ∀ j < 8, onLine exDense i j ≤ onLine exSparse i j := by decide +kernel
  exact ⟨fun i hi => by simp only [id]; omega, fun i _ j _ hij => hij, fun i hi j hj => h i hi j hj⟩

/-- Case: a row is added, `min_samples` lowered from 3 to 2, and `eps` raised from 5 to 8. -/
example : ∃ lab lab' : ℕ → ℤ, cutLabels (mstToLinkage (fun _ => (1 : ℕ)) (lexsortMst (kruskalBrute 9 2 (onLine exDense) CLParams.none))) ((8 : ℚ) : WithTop ℚ) 2 =
      (List.range 9).map lab ∧
    cutLabels (mstToLinkage (fun _ => (1 : ℕ)) (lexsortMst (kruskalBrute 8 3 (onLine exSparse) CLParams.none))) ((5 : ℚ) : WithTop ℚ) 3 = (List.range 8).map lab' ∧
    ∀ i, i < 8 → lab' i ≠ -1 → lab (id i) ≠ -1 ∧ ∀ j, j < 8 → lab' i = lab' j → lab (id i) = lab (id j) :=
  C122_kruskal (by decide) (onLine_comm _) (onLine_comm _) exDenser (by decide +kernel) (by decide) (by decide +kernel) (by decide) _ _

/-- The labels of this case. -/
example : cutLabels (mstToLinkage (fun _ => (1 : ℕ)) (lexsortMst (kruskalBrute 8 3 (onLine exSparse) CLParams.none))) ((5 : ℚ) : WithTop ℚ) 3 = [0, 0, 0, 0, 1, 1, 1, 1] := by decide +kernel

example : cutLabels (mstToLinkage (fun _ => (1 : ℕ)) (lexsortMst (kruskalBrute 9 2 (onLine exDense) CLParams.none))) ((8 : ℚ) : WithTop ℚ) 2 = [0, 0, 0, 0, 1, 1, 1, 1, -1] := by decide +kernel

/-- At 9.5 the new row joins both groups. -/
example : cutLabels (mstToLinkage (fun _ => (1 : ℕ)) (lexsortMst (kruskalBrute 9 2 (onLine exDense) CLParams.none))) ((19 / 2 : ℚ) : WithTop ℚ) 2 = [0, 0, 0, 0, 0, 0, 0, 0, 0] := by decide +kernel

/-- **C122** is about `dbscan_clustering` only: with `fit`, for either method, another row can divide a cluster. -/
theorem C122_fit_row (method : Method) :
    (clustersFromMst lamq (fun _ => 1) ⟨2, method, none, false, 0, 0⟩ (kruskalBrute 5 1 (onLine [0, 1, 30, 31, 3]) CLParams.none)).map ClusterResult.labels =
      some [0, 0, 1, 1, 0] ∧
    (clustersFromMst lamq (fun _ => 1) ⟨2, method, none, false, 0, 0⟩ (kruskalBrute 6 1 (onLine [0, 1, 30, 31, 3, 4]) CLParams.none)).map ClusterResult.labels =
      some [2, 2, 0, 0, 1, 1] := by
  cases method <;> refine ⟨?_, ?_⟩ <;> decide +kernel

/-- With `fit` a smaller `min_samples` can divide a cluster. -/
theorem C122_fit_min_samples :
    (clustersFromMst lamq (fun _ => 1) ⟨2, .leaf, none, false, 0, 0⟩ (kruskalBrute 7 2 (onLine [0, 1, 3, 4, 30, 31, 32]) CLParams.none)).map ClusterResult.labels =
      some [0, 0, 0, 0, 1, 1, 1] ∧
    (clustersFromMst lamq (fun _ => 1) ⟨2, .leaf, none, false, 0, 0⟩ (kruskalBrute 7 1 (onLine [0, 1, 3, 4, 30, 31, 32]) CLParams.none)).map ClusterResult.labels =
      some [2, 2, 1, 1, 0, 0, 0] := by
  refine ⟨?_, ?_⟩ <;> decide +kernel

end Verif
