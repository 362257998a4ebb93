import Verif.Props.DbscanKept

/-!
# C126: `dbscan_clustering` of a separated group
-/

namespace Verif
variable {W S : Type*} [LinearOrder W] [OrderTop W] [Zero W] [AddCommMonoid S] {n n' : ℕ}

omit [AddCommMonoid S] in
theorem kept_denser {D D' : ℕ → ℕ → W} {wt wt' : ℕ → S} {σ : ℕ → ℕ} (h : Kept n n' D D' wt wt' σ) : Denser n' n D' D σ :=
  ⟨h.range, fun i hi j hj => h.inj i j hi hj, fun i hi j hj => (h.dist i j hi hj).ge⟩

omit [AddCommMonoid S] in
/-- Core distances below `eps` do not need rows outside the group. -/
theorem bruteCore_local {D D' : ℕ → ℕ → W} {wt wt' : ℕ → S} {σ : ℕ → ℕ} (h : Kept n n' D D' wt wt' σ) {eps : W} {a : ℕ} (ha : a < n')
    (hfar : ∀ x, x < n → (∀ b, b < n' → σ b ≠ x) → eps ≤ D (σ a) x) (ms : ℕ) (hlt : bruteCore n ms D (σ a) < eps) : bruteCore n' ms D' a < eps := by
  unfold bruteCore at hlt ⊢
  by_cases h1 : ms ≤ 1
  · rw [if_pos h1] at hlt ⊢; exact hlt
  rw [if_neg h1] at hlt ⊢
  split at hlt
  case isFalse => exact absurd hlt (not_lt.2 le_top)
  have hcard : ∀ (k : ℕ) (g : ℕ → W), ((List.range k).map g).countP (· < eps) = ((Finset.range k).filter fun j => g j < eps).card := fun k g => by
    rw [List.countP_map, List.countP_eq_length_filter, ← List.toFinset_card_of_nodup (List.Nodup.filter _ List.nodup_range)]
    congr 1
    ext j
    simp
  rw [sorted_getD_lt (List.pairwise_insertionSort _ _), (List.perm_insertionSort _ _).countP_eq, hcard] at hlt
  have hle : ((Finset.range n).filter fun j => D (σ a) j < eps).card ≤ ((Finset.range n').filter fun j => D' a j < eps).card := by
    refine (Finset.card_le_card fun y hy => ?_).trans (Finset.card_image_le (f := σ))
    obtain ⟨hy, hd⟩ := Finset.mem_filter.1 hy
    have : ∃ b, b < n' ∧ σ b = y := by
      by_contra hno
      push Not at hno
      exact absurd hd (not_lt.2 (hfar y (Finset.mem_range.1 hy) hno))
    obtain ⟨b, hb, rfl⟩ := this
    exact Finset.mem_image.2 ⟨b, Finset.mem_filter.2 ⟨Finset.mem_range.2 hb, by rw [h.dist a b ha hb]; exact hd⟩, rfl⟩
  have hn : ((Finset.range n').filter fun j => D' a j < eps).card ≤ n' := (Finset.card_filter_le _ _).trans_eq (Finset.card_range n')
  rw [if_pos (by omega), sorted_getD_lt (List.pairwise_insertionSort _ _), (List.perm_insertionSort _ _).countP_eq, hcard]
  omega

omit [AddCommMonoid S] in
/-- What is connected to a row of the group below `eps` lies in the group, and is connected there. -/
theorem local_back {D D' : ℕ → ℕ → W} (hD : ∀ i j, D i j = D j i) {wt wt' : ℕ → S} {σ : ℕ → ℕ} (h : Kept n n' D D' wt wt' σ) {eps : W}
    (hfar : ∀ a, a < n' → ∀ x, x < n → (∀ b, b < n' → σ b ≠ x) → eps ≤ D (σ a) x) {ms a : ℕ} (ha : a < n') {y : ℕ}
    (hc : Conn (below eps (completeGraph n (reachOf n ms D))) (σ a) y) : ∃ b, b < n' ∧ σ b = y ∧ Conn (below eps (completeGraph n' (reachOf n' ms D'))) a b := by
  induction hc with
  | refl => exact ⟨a, ha, rfl, Conn.refl _ _⟩
  | tail hp hadj ih =>
    rename_i p q
    obtain ⟨b, hb, rfl, hcb⟩ := ih
    obtain ⟨e, he, hor⟩ := id hadj
    obtain ⟨h1, h2⟩ := mem_below.1 he
    obtain ⟨h3, h4, h5, h6⟩ := mem_completeGraph.1 h1
    rw [h6] at h2
    simp only [reachOf, max_lt_iff] at h2
    have key : q < n ∧ σ b ≠ q ∧ D (σ b) q < eps ∧ bruteCore n ms D (σ b) < eps ∧ bruteCore n ms D q < eps := by
      rcases hor with ⟨h7, h8⟩ | ⟨h7, h8⟩
      · rw [← h7, ← h8]
        exact ⟨h4, h5, h2.1.1, h2.1.2, h2.2⟩
      · rw [← h7, ← h8]
        exact ⟨h3, fun hh => h5 hh.symm, by rw [hD]; exact h2.1.1, h2.2, h2.1.2⟩
    obtain ⟨hq, hne, hlt, k1, k2⟩ := key
    have : ∃ c, c < n' ∧ σ c = q := by
      by_contra hno
      push Not at hno
      exact absurd hlt (not_lt.2 (hfar b hb q hq hno))
    obtain ⟨c, hc, rfl⟩ := this
    refine ⟨c, hc, rfl, hcb.trans (Conn.edge (e := ⟨b, c, reachOf n' ms D' b c⟩) (mem_below.2 ⟨mem_completeGraph.2 ⟨hb, hc, fun hh => hne (congrArg σ hh), rfl⟩, ?_⟩))⟩
    simp only [reachOf, max_lt_iff]
    exact ⟨⟨by rw [h.dist b c hb hc]; exact hlt, bruteCore_local h hb (hfar b hb) ms k1⟩, bruteCore_local h hc (hfar c hc) ms k2⟩

/-- **C126**: if the rows of a group are at least `eps` away from all other rows, `dbscan_clustering` gives the group the noise and the clusters that it gives for the group alone,
for any `min_samples` and any minimum spanning trees. -/
theorem C126_cut (hn : 0 < n) (hn' : 0 < n') {D D' : ℕ → ℕ → W} (hD : ∀ i j, D i j = D j i) (h0 : ∀ i, i < n' → ∀ j, j < n' → 0 ≤ D' i j) (ms : ℕ) {t t' : List (Edge W)}
    (ht : SpanningTree n t) (ht' : SpanningTree n' t')
    (hm : MinSpanningForest (completeGraph n fun i j => max (max (D i j) (bruteCore n ms D i)) (bruteCore n ms D j)) t)
    (hm' : MinSpanningForest (completeGraph n' fun i j => max (max (D' i j) (bruteCore n' ms D' i)) (bruteCore n' ms D' j)) t')
    {wt wt' : ℕ → S} {σ : ℕ → ℕ} (h : Kept n n' D D' wt wt' σ) {eps : W} (hfar : ∀ a, a < n' → ∀ x, x < n → (∀ b, b < n' → σ b ≠ x) → eps ≤ D (σ a) x) (mcs : ℕ) :
    ∃ lab lab' : ℕ → ℤ, cutLabels (mstToLinkage wt (lexsortMst t)) eps mcs = (List.range n).map lab ∧
      cutLabels (mstToLinkage wt' (lexsortMst t')) eps mcs = (List.range n').map lab' ∧
      ∀ a, a < n' → (lab' a = -1 ↔ lab (σ a) = -1) ∧ ∀ b, b < n' → lab' a ≠ -1 → (lab' a = lab' b ↔ lab (σ a) = lab (σ b)) := by
  classical
  obtain ⟨lab, lab', q1, p1, key⟩ := C122_cut hn' hn (kept_denser h) h0 (le_refl ms) (le_refl eps) (le_refl mcs) ht ht' hm hm' wt wt'
  obtain ⟨lab2, r1, q2, q3⟩ := C14_cut_is_dbscan_star n hn wt _ t [] t hm (by simp) ht (by simp) eps mcs
  obtain ⟨lab2', r1', p2, p3⟩ := C14_cut_is_dbscan_star n' hn' wt' _ t' [] t' hm' (by simp) ht' (by simp) eps mcs
  have e : ∀ i, i < n → lab2 i = lab i := fun i hi => List.map_inj_left.1 (r1.symm.trans q1) i (List.mem_range.2 hi)
  have e' : ∀ i, i < n' → lab2' i = lab' i := fun i hi => List.map_inj_left.1 (r1'.symm.trans p1) i (List.mem_range.2 hi)
  refine ⟨lab, lab', q1, p1, fun a ha => ?_⟩
  have hiff : lab' a = -1 ↔ lab (σ a) = -1 := by
    constructor
    · intro hl
      rw [← e' a ha, p3 a ha] at hl
      rw [← e _ (h.range a ha), q3 _ (h.range a ha)]
      refine lt_of_le_of_lt ?_ hl
      refine (Finset.card_le_card fun y hy => ?_).trans (Finset.card_image_le (f := σ))
      obtain ⟨hy, hc⟩ := Finset.mem_filter.1 hy
      obtain ⟨b, hb, rfl, hcb⟩ := local_back hD h hfar ha hc
      exact Finset.mem_image.2 ⟨b, Finset.mem_filter.2 ⟨Finset.mem_range.2 hb, hcb⟩, rfl⟩
    · intro hl
      by_contra hne
      exact (key a ha hne).1 hl
  refine ⟨hiff, fun b hb hne => ⟨(key a ha hne).2 b hb, fun hab => ?_⟩⟩
  have hne' : lab (σ a) ≠ -1 := fun hh => hne (hiff.2 hh)
  rw [← e _ (h.range a ha)] at hne' hab
  rw [← e _ (h.range b hb), q2 _ _ (h.range a ha) (h.range b hb) hne'] at hab
  obtain ⟨c, hc1, hc2, hc3⟩ := local_back hD h hfar ha hab
  rw [h.inj c b hc1 hb hc2] at hc3
  rw [← e' a ha] at hne ⊢
  rw [← e' b hb]
  exact (p2 a b ha hb hne).2 hc3

/-- **C126** from the distances between the rows, for `algorithm='kruskal'`. -/
theorem C126_kruskal (hn : 0 < n) (hn' : 0 < n') {D D' : ℕ → ℕ → W} (hD : ∀ i j, D i j = D j i) (hD' : ∀ i j, D' i j = D' j i)
    (h0 : ∀ i, i < n' → ∀ j, j < n' → 0 ≤ D' i j) (ms : ℕ) {wt wt' : ℕ → S} {σ : ℕ → ℕ} (h : Kept n n' D D' wt wt' σ) {eps : W}
    (hfar : ∀ a, a < n' → ∀ x, x < n → (∀ b, b < n' → σ b ≠ x) → eps ≤ D (σ a) x) (mcs : ℕ) :
    ∃ lab lab' : ℕ → ℤ, cutLabels (mstToLinkage wt (lexsortMst (kruskalBrute n ms D CLParams.none))) eps mcs = (List.range n).map lab ∧
      cutLabels (mstToLinkage wt' (lexsortMst (kruskalBrute n' ms D' CLParams.none))) eps mcs = (List.range n').map lab' ∧
      ∀ a, a < n' → (lab' a = -1 ↔ lab (σ a) = -1) ∧ ∀ b, b < n' → lab' a ≠ -1 → (lab' a = lab' b ↔ lab (σ a) = lab (σ b)) := by
  obtain ⟨s1, s2⟩ := kruskalBrute_msf (ms := ms) hn hD
  obtain ⟨s1', s2'⟩ := kruskalBrute_msf (ms := ms) hn' hD'
  exact C126_cut hn hn' hD h0 ms s1 s1' s2 s2' h hfar mcs

/-- The first group of the rows of `exDense`, and the row next to it. -/
def exGroup : List ℚ := [0, 1, 2, 3, 11]

/-- Where they are in `exDense`. -/
def exGroupRow (a : ℕ) : ℕ := [0, 1, 2, 3, 8].getD a 9

/-- Case: at 9 these five rows are separated from the others; `min_samples=3`. -/
example : ∃ lab lab' : ℕ → ℤ, cutLabels (mstToLinkage (fun _ => (1 : ℕ)) (lexsortMst (kruskalBrute 9 3 (onLine exDense) CLParams.none))) ((9 : ℚ) : WithTop ℚ) 3 =
      (List.range 9).map lab ∧
    cutLabels (mstToLinkage (fun _ => (1 : ℕ)) (lexsortMst (kruskalBrute 5 3 (onLine exGroup) CLParams.none))) ((9 : ℚ) : WithTop ℚ) 3 = (List.range 5).map lab' ∧
    ∀ a, a < 5 → (lab' a = -1 ↔ lab (exGroupRow a) = -1) ∧ ∀ b, b < 5 → lab' a ≠ -1 → (lab' a = lab' b ↔ lab (exGroupRow a) = lab (exGroupRow b)) := by
  have hd : ∀ a < 5, ∀ b < 5, onLine exGroup a b = onLine exDense (exGroupRow a) (exGroupRow b) := by decide +kernel
  have hi : ∀ a < 5, ∀ b < 5, exGroupRow a = exGroupRow b → a = b := by decide +kernel
  have hr : ∀ a < 5, exGroupRow a < 9 := by decide +kernel
  have hf : ∀ a < 5, ∀ x < 9, (∀ b < 5, exGroupRow b ≠ x) → ((9 : ℚ) : WithTop ℚ) ≤ onLine exDense (exGroupRow a) x := by decide +kernel
  exact C126_kruskal (by decide) (by decide) (onLine_comm _) (onLine_comm _) (by decide +kernel) 3
    ⟨hr, fun a b ha hb => hi a ha b hb, fun a b ha hb => hd a ha b hb, fun _ _ => rfl⟩ (fun a ha x hx => hf a ha x hx) 3

example : cutLabels (mstToLinkage (fun _ => (1 : ℕ)) (lexsortMst (kruskalBrute 5 3 (onLine exGroup) CLParams.none))) ((9 : ℚ) : WithTop ℚ) 3 = [0, 0, 0, 0, -1] := by decide +kernel

end Verif
