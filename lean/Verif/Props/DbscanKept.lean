import Verif.Props.Denser
import Verif.Spec.Kept

/-!
# C123: `dbscan_clustering` without its noise
-/

namespace Verif
variable {W K S : Type*} [LinearOrder W] [OrderTop W] [AddCommMonoid S] {n n' : ℕ}

omit [AddCommMonoid S] [OrderTop W] in
theorem kept_conn {d d' : ℕ → ℕ → W} {wt wt' : ℕ → K} {σ : ℕ → ℕ} (h : Kept n n' d d' wt wt' σ) {eps : W} {a b : ℕ}
    (hc : Conn (below eps (completeGraph n' d')) a b) : Conn (below eps (completeGraph n d)) (σ a) (σ b) := by
  induction hc with
  | refl => exact Conn.refl _ _
  | tail _ hadj ih =>
    refine ih.trans ?_
    obtain ⟨e, he, hor⟩ := hadj
    obtain ⟨h1, h2⟩ := mem_below.1 he
    obtain ⟨h3, h4, h5, h6⟩ := mem_completeGraph.1 h1
    have hc : Conn (below eps (completeGraph n d)) (σ e.u) (σ e.v) :=
      Conn.edge (e := ⟨σ e.u, σ e.v, d (σ e.u) (σ e.v)⟩) (mem_below.2 ⟨mem_completeGraph.2 ⟨h.range _ h3, h.range _ h4, fun hh => h5 (h.inj _ _ h3 h4 hh), rfl⟩,
        by simp only; rw [← h.dist _ _ h3 h4, ← h6]; exact h2⟩)
    rcases hor with ⟨rfl, rfl⟩ | ⟨rfl, rfl⟩
    · exact hc
    · exact hc.symm

omit [AddCommMonoid S] [OrderTop W] in
/-- A component of which no row was left out is still connected. -/
theorem kept_back {d d' : ℕ → ℕ → W} (hd : ∀ i j, d i j = d j i) {wt wt' : ℕ → K} {σ : ℕ → ℕ} (h : Kept n n' d d' wt wt' σ) {eps : W} {a : ℕ} (ha : a < n')
    (hall : ∀ y, y < n → Conn (below eps (completeGraph n d)) (σ a) y → ∃ b, b < n' ∧ σ b = y) {y : ℕ}
    (hc : Conn (below eps (completeGraph n d)) (σ a) y) : ∃ b, b < n' ∧ σ b = y ∧ Conn (below eps (completeGraph n' d')) a b := by
  induction hc with
  | refl => exact ⟨a, ha, rfl, Conn.refl _ _⟩
  | tail hp hadj ih =>
    rename_i p q
    obtain ⟨b, hb, rfl, hcb⟩ := ih
    obtain ⟨e, he, hor⟩ := id hadj
    obtain ⟨h1, h2⟩ := mem_below.1 he
    obtain ⟨h3, h4, h5, h6⟩ := mem_completeGraph.1 h1
    have key : q < n ∧ σ b ≠ q ∧ d (σ b) q < eps := by
      rcases hor with ⟨h7, h8⟩ | ⟨h7, h8⟩
      · rw [← h7, ← h8]
        exact ⟨h4, h5, h6 ▸ h2⟩
      · rw [← h7, ← h8]
        exact ⟨h3, fun hh => h5 hh.symm, by rw [hd, ← h6]; exact h2⟩
    obtain ⟨hq, hne, hlt⟩ := key
    obtain ⟨c, hc, rfl⟩ := hall q hq (Relation.ReflTransGen.tail hp hadj)
    refine ⟨c, hc, rfl, hcb.trans (Conn.edge (e := ⟨b, c, d' b c⟩) (mem_below.2 ⟨mem_completeGraph.2 ⟨hb, hc, fun hh => hne (congrArg σ hh), rfl⟩, ?_⟩))⟩
    show d' b c < eps
    rw [h.dist _ _ hb hc]; exact hlt

/-- **C123**: leaving out rows that are noise changes nothing for the others in `dbscan_clustering`, for given mutual reachability distances and any minimum spanning trees. -/
theorem C123_cut (hn : 0 < n) (hn' : 0 < n') {d d' : ℕ → ℕ → W} (hd : ∀ i j, d i j = d j i) {t t' : List (Edge W)} (hf : MinSpanningForest (completeGraph n d) t)
    (hf' : MinSpanningForest (completeGraph n' d') t') (ht : SpanningTree n t) (ht' : SpanningTree n' t') {wt wt' : ℕ → S} {σ : ℕ → ℕ} (h : Kept n n' d d' wt wt' σ)
    (eps : W) (mcs : ℕ) :
    ∃ lab lab' : ℕ → ℤ, cutLabels (mstToLinkage wt (lexsortMst t)) eps mcs = (List.range n).map lab ∧
      cutLabels (mstToLinkage wt' (lexsortMst t')) eps mcs = (List.range n').map lab' ∧
      ((∀ x, x < n → (∀ a, a < n' → σ a ≠ x) → lab x = -1) → ∀ a, a < n' → (lab' a = -1 ↔ lab (σ a) = -1) ∧
        ∀ b, b < n' → lab' a ≠ -1 → (lab' a = lab' b ↔ lab (σ a) = lab (σ b))) := by
  classical
  obtain ⟨lab, q1, q2, q3⟩ := C14_cut_is_dbscan_star n hn wt _ t [] t hf (by simp) ht (by simp) eps mcs
  obtain ⟨lab', p1, p2, p3⟩ := C14_cut_is_dbscan_star n' hn' wt' _ t' [] t' hf' (by simp) ht' (by simp) eps mcs
  refine ⟨lab, lab', q1, p1, fun hnoise a ha => ?_⟩
  have hall : lab (σ a) ≠ -1 → ∀ y, y < n → Conn (below eps (completeGraph n d)) (σ a) y → ∃ b, b < n' ∧ σ b = y := fun hne y hy hc => by
    by_contra hno
    push Not at hno
    exact hne (((q2 _ y (h.range a ha) hy hne).2 hc).trans (hnoise y hy hno))
  have hiff : lab' a = -1 ↔ lab (σ a) = -1 := by
    constructor
    · intro hl
      by_contra hne
      have hcard := (p3 a ha).1 hl
      refine absurd ((q3 _ (h.range a ha)).2 (lt_of_le_of_lt ?_ hcard)) hne
      refine (Finset.card_le_card fun y hy => ?_).trans (Finset.card_image_le (f := σ))
      obtain ⟨hy, hc⟩ := Finset.mem_filter.1 hy
      obtain ⟨b, hb, rfl, hcb⟩ := kept_back hd h ha (hall hne) hc
      exact Finset.mem_image.2 ⟨b, Finset.mem_filter.2 ⟨Finset.mem_range.2 hb, hcb⟩, rfl⟩
    · intro hl
      refine (p3 a ha).2 (lt_of_le_of_lt ?_ ((q3 _ (h.range a ha)).1 hl))
      refine Finset.card_le_card_of_injOn σ (fun b hb => ?_) fun x hx y hy hxy => ?_
      · obtain ⟨hb, hc⟩ := Finset.mem_filter.1 hb
        exact Finset.mem_filter.2 ⟨Finset.mem_range.2 (h.range b (Finset.mem_range.1 hb)), kept_conn h hc⟩
      · exact h.inj x y (Finset.mem_range.1 (Finset.mem_filter.1 hx).1) (Finset.mem_range.1 (Finset.mem_filter.1 hy).1) hxy
  refine ⟨hiff, fun b hb hne => ?_⟩
  have hne' : lab (σ a) ≠ -1 := fun hh => hne (hiff.2 hh)
  rw [p2 a b ha hb hne, q2 _ _ (h.range a ha) (h.range b hb) hne']
  refine ⟨kept_conn h, fun hc => ?_⟩
  obtain ⟨c, hc1, hc2, hc3⟩ := kept_back hd h ha (hall hne') hc
  rw [← h.inj c b hc1 hb hc2]
  exact hc3

/-- **C123** (partial) from the distances between the rows, for `algorithm='kruskal'` with `min_samples` at most 1.  Missing: with a larger `min_samples` it is false
(`C123_core_distances`). -/
theorem C123_kruskal_partial [Zero W] (hn : 0 < n) (hn' : 0 < n') {D D' : ℕ → ℕ → W} (hD : ∀ i j, D i j = D j i) (hD' : ∀ i j, D' i j = D' j i) {ms : ℕ} (hms : ms ≤ 1)
    {wt wt' : ℕ → S} {σ : ℕ → ℕ} (h : Kept n n' D D' wt wt' σ) (eps : W) (mcs : ℕ) :
    ∃ lab lab' : ℕ → ℤ, cutLabels (mstToLinkage wt (lexsortMst (kruskalBrute n ms D CLParams.none))) eps mcs = (List.range n).map lab ∧
      cutLabels (mstToLinkage wt' (lexsortMst (kruskalBrute n' ms D' CLParams.none))) eps mcs = (List.range n').map lab' ∧
      ((∀ x, x < n → (∀ a, a < n' → σ a ≠ x) → lab x = -1) → ∀ a, a < n' → (lab' a = -1 ↔ lab (σ a) = -1) ∧
        ∀ b, b < n' → lab' a ≠ -1 → (lab' a = lab' b ↔ lab (σ a) = lab (σ b))) := by
  obtain ⟨s1, s2⟩ := kruskalBrute_msf (ms := ms) hn hD
  obtain ⟨s1', s2'⟩ := kruskalBrute_msf (ms := ms) hn' hD'
  have hcore : ∀ (n : ℕ) (D : ℕ → ℕ → W) i, bruteCore n ms D i = 0 := fun n D i => by unfold bruteCore; rw [if_pos hms]
  simp only [hcore] at s2 s2'
  exact C123_cut hn hn' (fun i j => by rw [hD]) s2 s2' s1 s1' ⟨h.range, h.inj, fun a b ha hb => by rw [h.dist a b ha hb], h.weight⟩ eps mcs

/-- Case: two groups and a row between them, which is noise at 8 and left out. -/
example : ∃ lab lab' : ℕ → ℤ, cutLabels (mstToLinkage (fun _ => (1 : ℕ)) (lexsortMst (kruskalBrute 9 1 (onLine exDense) CLParams.none))) ((8 : ℚ) : WithTop ℚ) 2 =
      (List.range 9).map lab ∧
    cutLabels (mstToLinkage (fun _ => (1 : ℕ)) (lexsortMst (kruskalBrute 8 1 (onLine exSparse) CLParams.none))) ((8 : ℚ) : WithTop ℚ) 2 = (List.range 8).map lab' ∧
    ((∀ x, x < 9 → (∀ a, a < 8 → id a ≠ x) → lab x = -1) → ∀ a, a < 8 → (lab' a = -1 ↔ lab (id a) = -1) ∧
      ∀ b, b < 8 → lab' a ≠ -1 → (lab' a = lab' b ↔ lab (id a) = lab (id b))) :=
  C123_kruskal_partial (by decide) (by decide) (onLine_comm _) (onLine_comm _) (by decide)
    ⟨fun a ha => by show a < 9; omega, fun a b _ _ h => h, fun a b ha hb => (by decide +kernel : ∀ a < 8, ∀ b < 8, onLine exSparse a b = onLine exDense a b) a ha b hb, fun _ _ => rfl⟩ _ _

example : cutLabels (mstToLinkage (fun _ => (1 : ℕ)) (lexsortMst (kruskalBrute 9 1 (onLine exDense) CLParams.none))) ((8 : ℚ) : WithTop ℚ) 2 =
    [0, 0, 0, 0, 1, 1, 1, 1, -1] := by decide +kernel

/-- With `min_samples=2` the noise at the ends of a line is needed: without it the rows between are noise as well. -/
theorem C123_core_distances :
    cutLabels (mstToLinkage (fun _ => (1 : ℕ)) (lexsortMst (kruskalBrute 4 2 (onLine [0, 1, 2, 3]) CLParams.none))) ((3 / 2 : ℚ) : WithTop ℚ) 2 = [-1, 0, 0, -1] ∧
    cutLabels (mstToLinkage (fun _ => (1 : ℕ)) (lexsortMst (kruskalBrute 2 2 (onLine [1, 2]) CLParams.none))) ((3 / 2 : ℚ) : WithTop ℚ) 2 = [-1, -1] := by
  refine ⟨?_, ?_⟩ <;> decide +kernel

end Verif
