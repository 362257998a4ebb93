import Verif.Lemmas.PreTrees
import Mathlib.Data.ENat.Basic

/-!
# C41–C43: precomputed sparse graphs
-/

namespace Verif
variable {W : Type*} [LinearOrder W]

/-! ## C41 -/

/-- **C41.**  Row `i` of the preprocessed graph lists exactly the other samples for which a value is stored in either direction,
each once, with the smallest value stored for the pair; zeros are values like any other.  The result is symmetric and the arrays
are well-formed. -/
theorem C41_symmetrize {n : ℕ} {coo : List (Edge W)} (hr : InRange n coo) :
    let c := symmetrizeMin n coo
    (∀ i j w, (j, w) ∈ c.row i ↔ i ≠ j ∧ Stored coo i j w ∧ ∀ w', Stored coo i j w' → w ≤ w') ∧
      (∀ i, ((c.row i).map Prod.fst).Nodup) ∧
      (∀ i j w, (j, w) ∈ c.row i ↔ (i, w) ∈ c.row j) ∧
      (∀ i j w, Stored coo i j w → i ≠ j → ∃ w' ≤ w, (j, w') ∈ c.row i) ∧
      c.indptr 0 = 0 ∧ Monotone c.indptr ∧ c.indptr n = c.ent.length := by
  intro c
  refine ⟨fun i j w => (symmetrize_row hr i).1 j w, fun i => (symmetrize_row hr i).2, fun i j w => ?_, fun i j w hs hij => ?_,
    symmetrize_zero n coo, symmetrize_mono n coo, symmetrize_last hr⟩
  · rw [(symmetrize_row hr i).1, (symmetrize_row hr j).1]
    exact ⟨IsDist.symm, IsDist.symm⟩
  · obtain ⟨w', hd⟩ := exists_isDist hij hs
    exact ⟨w', hd.2.2 w hs, ((symmetrize_row hr i).1 j w').2 hd⟩

/-- Entries in both directions, a duplicate, an explicit zero and a diagonal entry. -/
def exCoo : List (Edge ℕ∞) := [⟨0, 1, 5⟩, ⟨1, 0, 3⟩, ⟨2, 2, 0⟩, ⟨3, 1, 0⟩, ⟨0, 1, 4⟩, ⟨2, 0, 7⟩]

example : InRange 4 exCoo ∧ (symmetrizeMin 4 exCoo).row 0 = [(1, 3), (2, 7)] ∧
    (symmetrizeMin 4 exCoo).row 1 = [(3, 0), (0, 3)] ∧ (symmetrizeMin 4 exCoo).row 3 = [(1, 0)] := by
  refine ⟨by unfold InRange; decide, ?_, ?_, ?_⟩ <;> decide +kernel

/-- **C41**, validation: exactly the square sparse matrices with finite non-negative values are accepted. -/
theorem C41_validation {V : Type*} [LinearOrder V] [Zero V] (finite : V → Bool) (m : Coo V) :
    validatePre finite m = .ok () ↔
      m.isSparse = true ∧ m.rows = m.cols ∧ (∀ e ∈ m.entries, finite e.w = true) ∧ ∀ e ∈ m.entries, 0 ≤ e.w := by
  unfold validatePre
  by_cases h1 : m.isSparse = true
  swap
  · rw [if_pos h1]; simp [h1]
  by_cases h2 : m.rows = m.cols
  swap
  · rw [if_neg (by simpa using h1), if_pos h2]; simp [h2]
  by_cases h3 : ∀ e ∈ m.entries, finite e.w = true
  swap
  · rw [if_neg (by simpa using h1), if_neg (by simpa using h2), if_pos (by push Not at h3; simpa using h3)]
    simp [h3]
  by_cases h4 : ∀ e ∈ m.entries, 0 ≤ e.w
  swap
  · rw [if_neg (by simpa using h1), if_neg (by simpa using h2), if_neg (by simpa using h3),
      if_pos (by push Not at h4; simpa using h4)]
    simp [h4]
  · rw [if_neg (by simpa using h1), if_neg (by simpa using h2), if_neg (by simpa using h3), if_neg (by simpa using h4)]
    exact ⟨fun _ => ⟨h1, h2, h3, h4⟩, fun _ => rfl⟩

example : validatePre (fun w : ℤ => decide (w < 1000)) ⟨true, 3, 3, [⟨0, 1, 2⟩, ⟨2, 1, 0⟩]⟩ = .ok () ∧
    validatePre (fun w : ℤ => decide (w < 1000)) ⟨true, 3, 3, [⟨0, 1, 2⟩, ⟨2, 1, -1⟩]⟩ = .error .negative := ⟨rfl, rfl⟩

/-! ## C42 -/

variable [OrderTop W] [Zero W]

/-- **C42.**  The core distance is 0 for `min_samples ≤ 1`, `+inf` for samples with fewer than `min_samples` neighbours, and
otherwise the distance to the `min_samples`-th nearest neighbour; the conditions determine it. -/
theorem C42_core_distance {n : ℕ} {coo : List (Edge W)} (hr : InRange n coo) (k i : ℕ) (x : W) :
    csrCore k ((symmetrizeMin n coo).row i) = x ↔
      if k ≤ 1 then x = 0
      else if nbrCount n coo i (fun _ => True) < k then x = ⊤
      else (∃ j < n, IsDist coo i j x) ∧ nbrCount n coo i (· < x) < k ∧ k ≤ nbrCount n coo i (· ≤ x) := by
  show _ ↔ IsCoreDist n coo k i x
  constructor
  · rintro rfl; exact csrCore_spec hr k i
  · intro h; exact (csrCore_spec hr k i).unique h

omit [OrderTop W] [Zero W] in
/-- **C42** (neighbours).  The row of neighbours has `max 1 min_samples` places.  A place holds -1 exactly if the sample has fewer neighbours than that;
the samples in the other places are different neighbours, in the order of their distance, and every neighbour that is not listed is at
least as far as all that are. -/
theorem C42_neighbours {n : ℕ} {coo : List (Edge W)} (hr : InRange n coo) (k i : ℕ) :
    let nb := csrNeighbors k ((symmetrizeMin n coo).row i)
    nb.length = max 1 k ∧
      (∀ m < max 1 k, nb[m]? = some none ↔ nbrCount n coo i (fun _ => True) ≤ m) ∧
      (∀ (m m' j : ℕ), nb[m]? = some (some j) → nb[m']? = some (some j) → m = m') ∧
      (∀ (m j : ℕ), nb[m]? = some (some j) → j < n ∧ ∃ w, IsDist coo i j w ∧
        (∀ (m' j' : ℕ) (w' : W), m < m' → nb[m']? = some (some j') → IsDist coo i j' w' → w ≤ w') ∧
        ∀ (j' : ℕ) (w' : W), IsDist coo i j' w' → some j' ∉ nb → w ≤ w') := by
  obtain ⟨h1, h2⟩ := symmetrize_row hr i
  intro nb
  have hcount : nbrCount n coo i (fun _ => True) = ((symmetrizeMin n coo).row i).length := by
    rw [nbrCount_row hr i (fun _ => True)]; simp
  rw [hcount]
  set row := (symmetrizeMin n coo).row i with hrow
  have hp := sortRow_perm row
  have hs := sortRow_sorted row
  have hnb : nb = ((sortRow row).take (max 1 k)).map (fun p => some p.1) ++ List.replicate (max 1 k - row.length) none := rfl
  have hlen := hp.length_eq
  have hget : ∀ (m j : ℕ), nb[m]? = some (some j) ↔ m < max 1 k ∧ ∃ w, (sortRow row)[m]? = some (j, w) := by
    intro m j
    rw [hnb, List.getElem?_append]
    simp only [List.length_map, List.length_take, List.getElem?_map, List.getElem?_replicate]
    split
    · rename_i hm
      rw [List.getElem?_take_of_lt (by omega)]
      constructor
      · intro h
        obtain ⟨⟨j', w⟩, hj, he⟩ := Option.map_eq_some_iff.1 h
        simp only [Option.some.injEq] at he
        exact ⟨by omega, w, by rw [hj, ← he]⟩
      · rintro ⟨_, w, h⟩
        rw [h]; rfl
    · rename_i hm
      constructor
      · intro h; split at h <;> simp at h
      · rintro ⟨hk, w, h⟩
        have := (List.getElem?_eq_some_iff.1 h).1
        omega
  have hnd : ((sortRow row).map Prod.fst).Nodup := (hp.map Prod.fst).nodup_iff.2 h2
  have huniq : ∀ (m m' j : ℕ) (w w' : W), (sortRow row)[m]? = some (j, w) → (sortRow row)[m']? = some (j, w') → m = m' := by
    intro m m' j w w' a b
    have ha : ((sortRow row).map Prod.fst)[m]? = some j := by rw [List.getElem?_map, a]; rfl
    have hb : ((sortRow row).map Prod.fst)[m']? = some j := by rw [List.getElem?_map, b]; rfl
    obtain ⟨l1, e1⟩ := List.getElem?_eq_some_iff.1 ha
    obtain ⟨l2, e2⟩ := List.getElem?_eq_some_iff.1 hb
    exact (hnd.getElem_inj_iff).1 (e1.trans e2.symm)
  have hdist : ∀ (j : ℕ) (w : W), IsDist coo i j w ↔ ∃ m : ℕ, (sortRow row)[m]? = some (j, w) := by
    intro j w
    rw [← h1, ← hp.mem_iff, List.mem_iff_getElem?]
  have hone : ∀ (j : ℕ) (w w' : W), IsDist coo i j w → IsDist coo i j w' → w = w' := fun j w w' a b =>
    le_antisymm (a.2.2 _ b.2.1) (b.2.2 _ a.2.1)
  have hle : ∀ (m m' j j' : ℕ) (w w' : W), m < m' → (sortRow row)[m]? = some (j, w) → (sortRow row)[m']? = some (j', w') → w ≤ w' := by
    intro m m' j j' w w' hmm a b
    obtain ⟨l1, e1⟩ := List.getElem?_eq_some_iff.1 a
    obtain ⟨l2, e2⟩ := List.getElem?_eq_some_iff.1 b
    have := List.pairwise_iff_getElem.1 hs m m' l1 l2 hmm
    rwa [e1, e2] at this
  refine ⟨?_, fun m hm => ?_, fun m m' j a b => ?_, fun m j a => ?_⟩
  · rw [hnb]
    simp only [List.length_append, List.length_map, List.length_take, List.length_replicate]
    omega
  · rw [hnb, List.getElem?_append]
    simp only [List.length_map, List.length_take, List.getElem?_map, List.getElem?_replicate]
    split
    · rename_i h
      rw [List.getElem?_take_of_lt hm, List.getElem?_eq_getElem (by omega)]
      simp only [Option.map_some, Option.some.injEq, reduceCtorEq, false_iff]
      omega
    · rename_i h
      rw [if_pos (by omega)]
      simp only [true_iff]
      omega
  · obtain ⟨_, w, a⟩ := (hget m j).1 a
    obtain ⟨_, w', b⟩ := (hget m' j).1 b
    exact huniq _ _ _ _ _ a b
  · obtain ⟨hm, w, a⟩ := (hget m j).1 a
    have hd := (hdist j w).2 ⟨m, a⟩
    refine ⟨(hd.lt hr).2, w, hd, fun m' j' w' hmm b hd' => ?_, fun j' w' hd' hno => ?_⟩
    · obtain ⟨_, w'', b⟩ := (hget m' j').1 b
      rw [hone j' w' w'' hd' ((hdist _ _).2 ⟨_, b⟩)]
      exact hle _ _ _ _ _ _ hmm a b
    · obtain ⟨m', b⟩ := (hdist _ _).1 hd'
      rcases lt_trichotomy m m' with h | h | h
      · exact hle _ _ _ _ _ _ h a b
      · subst h
        rw [a] at b
        cases b
        exact le_refl _
      · exact absurd (List.mem_iff_getElem?.2 ⟨m', (hget m' j').2 ⟨by omega, w', b⟩⟩) hno

/-- Two neighbours for two places; one neighbour for three. -/
example : InRange 4 exCoo ∧ csrNeighbors 2 ((symmetrizeMin 4 exCoo).row 1) = [some 3, some 0] ∧ csrNeighbors 3 ((symmetrizeMin 4 exCoo).row 3) = [some 1, none, none] := by
  refine ⟨?_, ?_, ?_⟩ <;> decide +kernel

/-- Ties and all three branches. -/
example : csrCore 2 ((symmetrizeMin 4 exCoo).row 1) = 3 ∧ csrCore 2 ((symmetrizeMin 4 exCoo).row 3) = ⊤ ∧
    csrCore 1 ((symmetrizeMin 4 exCoo).row 3) = 0 := by
  refine ⟨?_, ?_, ?_⟩ <;> decide +kernel

/-! ## C43 -/

/-- **C43 (Kruskal).**  The tree is a minimum spanning forest of the mutual reachability graph completed by one `+inf` edge less
than there are components; so each finite edge has its exact weight. -/
theorem C43_kruskal {n : ℕ} (hn : 0 < n) {coo : List (Edge W)} (hr : InRange n coo) (k : ℕ) {g : List (Edge W)}
    (hg : ∀ e, e ∈ g ↔ IsMrd n coo k e) :
    (∃ F b, preKruskal n coo k CLParams.none = F ++ b ∧ MinSpanningForest g F ∧ (∀ e ∈ b, e.w = ⊤) ∧
      b.length + 1 = compCount n g) ∧ SpanningTree n (preKruskal n coo k CLParams.none) ∧
      ∀ e ∈ preKruskal n coo k CLParams.none, e.w ≠ ⊤ → IsMrd n coo k e := by
  obtain ⟨F, b, h1, h2, h3, h4, h5⟩ := preKruskal_spec hn hr k hg
  refine ⟨⟨F, b, h1, h2, h3, h4⟩, h1 ▸ h5, fun e he hw => ?_⟩
  rw [h1, List.mem_append] at he
  rcases he with he | he
  · exact (hg e).1 (h2.forest.sub.subset he)
  · exact absurd (h3 e he) hw

/-- **C43 (Borůvka), partial.**  If samples without neighbours come last, the tree is a spanning forest of the mutual reachability
graph completed by `+inf` edges, each finite edge has its exact weight, and the forest is minimum for the rounded weights.
Missing: samples without neighbours elsewhere (`C43_isolated_sample_wrong`) and minimality for the exact weights
(`C43_rounding_not_minimal`); both are false. -/
theorem C43_boruvka_partial {n : ℕ} (hn : 0 < n) {coo : List (Edge W)} (hr : InRange n coo) {rnd : W → W} (hrnd : Rounding rnd)
    (k : ℕ) (hiso : ∀ i j, i ≤ j → j < n → Isolated coo i → Isolated coo j) {g : List (Edge W)}
    (hg : ∀ e, e ∈ g ↔ IsMrd n coo k e) :
    (∃ F b, preBoruvka rnd n coo k = F ++ b ∧ SpanningForest g F ∧
      MinSpanningForest (g.map (Edge.mapW rnd)) (F.map (Edge.mapW rnd)) ∧ (∀ e ∈ b, e.w = ⊤) ∧
      b.length + 1 = compCount n g) ∧ SpanningTree n (preBoruvka rnd n coo k) ∧
      ∀ e ∈ preBoruvka rnd n coo k, e.w ≠ ⊤ → IsMrd n coo k e := by
  obtain ⟨F, b, h1, h2, h2', h3, h4, h5⟩ := preBoruvka_spec hn hr hrnd k hiso hg
  refine ⟨⟨F, b, h1, h2, h2', h3, h4⟩, h1 ▸ h5, fun e he hw => ?_⟩
  rw [h1, List.mem_append] at he
  rcases he with he | he
  · exact (hg e).1 (h2.sub.subset he)
  · exact absurd (h3 e he) hw

/-- **C43 (equal weights), partial.**  Under the same condition the two trees have the same weights up to rounding. -/
theorem C43_equal_weights_partial {n : ℕ} (hn : 0 < n) {coo : List (Edge W)} (hr : InRange n coo) {rnd : W → W}
    (hrnd : Rounding rnd) (k : ℕ) (hiso : ∀ i j, i ≤ j → j < n → Isolated coo i → Isolated coo j) :
    ((weights (preBoruvka rnd n coo k)).map rnd).Perm ((weights (preKruskal n coo k CLParams.none)).map rnd) := by
  have hg : ∀ e, e ∈ csrEdges n (fun i => (symmetrizeMin n coo).row i) (preCd n coo k) ↔ IsMrd n coo k e := mem_csrEdges hr k
  obtain ⟨F, b, h1, _, h2, h3, h4, _⟩ := preBoruvka_spec hn hr hrnd k hiso hg
  obtain ⟨F', b', h1', h2', h3', h4', _⟩ := preKruskal_spec hn hr k hg
  rw [h1, h1']
  unfold weights
  rw [List.map_append, List.map_append, List.map_append, List.map_append]
  have hw : ∀ l : List (Edge W), (l.map Edge.w).map rnd = weights (l.map (Edge.mapW rnd)) := by
    intro l; unfold weights; rw [List.map_map, List.map_map]; rfl
  refine List.Perm.append ?_ ?_
  · rw [hw, hw]; exact h2.weights_perm (h2'.mapW hrnd.mono)
  · have hrep : ∀ l : List (Edge W), (∀ e ∈ l, e.w = ⊤) → l.map Edge.w = List.replicate l.length ⊤ := by
      intro l hl
      rw [List.eq_replicate_iff]
      refine ⟨by simp, fun x hx => ?_⟩
      obtain ⟨e, he, rfl⟩ := List.mem_map.1 hx
      exact hl e he
    rw [hrep b h3, hrep b' h3', show b.length = b'.length by omega]

/-- Without rounding the two algorithms return the same weights. -/
theorem C43_equal_weights_exact_partial {n : ℕ} (hn : 0 < n) {coo : List (Edge W)} (hr : InRange n coo) (k : ℕ)
    (hiso : ∀ i j, i ≤ j → j < n → Isolated coo i → Isolated coo j) :
    (weights (preBoruvka id n coo k)).Perm (weights (preKruskal n coo k CLParams.none)) := by
  have := C43_equal_weights_partial hn hr (rnd := id) ⟨monotone_id, fun _ => Iff.rfl⟩ k hiso
  simpa using this

/-- The hypotheses are met by a graph with two components and an isolated last sample. -/
example : InRange 5 (⟨0, 1, 2⟩ :: ⟨3, 2, 1⟩ :: ([⟨1, 0, 4⟩] : List (Edge ℕ∞))) ∧
    (∀ i j, i ≤ j → j < 5 → Isolated (⟨0, 1, 2⟩ :: ⟨3, 2, 1⟩ :: ([⟨1, 0, 4⟩] : List (Edge ℕ∞))) i →
      Isolated (⟨0, 1, 2⟩ :: ⟨3, 2, 1⟩ :: ([⟨1, 0, 4⟩] : List (Edge ℕ∞))) j) := by
  refine ⟨by unfold InRange; decide, fun i j hij hj hi => ?_⟩
  have h0 : ¬ i = 0 := fun h => hi 1 2 (by omega) (by subst h; exact Or.inl (by simp))
  have h1 : ¬ i = 1 := fun h => hi 0 2 (by omega) (by subst h; exact Or.inr (by simp))
  have h2 : ¬ i = 2 := fun h => hi 3 1 (by omega) (by subst h; exact Or.inr (by simp))
  have h3 : ¬ i = 3 := fun h => hi 2 1 (by omega) (by subst h; exact Or.inl (by simp))
  have : i = j := by omega
  exact this ▸ hi

/-- **C43 fails with an isolated sample.**  Sample 0 has no neighbour.  The Borůvka routine joins it to two other samples with
weight 0, though no such edges exist, and the edge of weight 5 that joins 1 and 3 is lost; Kruskal is right. -/
theorem C43_isolated_sample_wrong :
    let coo : List (Edge ℕ∞) := [⟨1, 2, 1⟩, ⟨3, 4, 1⟩, ⟨1, 3, 5⟩]
    preBoruvka id 5 coo 1 = [⟨0, 2, 0⟩, ⟨1, 2, 1⟩, ⟨3, 4, 1⟩, ⟨0, 3, 0⟩] ∧
      preKruskal 5 coo 1 CLParams.none = [⟨1, 2, 1⟩, ⟨3, 4, 1⟩, ⟨1, 3, 5⟩, ⟨0, 1, ⊤⟩] ∧
      ¬ IsMrd 5 coo 1 ⟨0, 2, 0⟩ := by
  refine ⟨by decide +kernel, by decide +kernel, ?_⟩
  rintro ⟨_, _, d, _, _, ⟨_, h | h, _⟩, _⟩
  · simp at h
  · simp at h

/-- What single precision does to the integers `2 ^ 24` and `2 ^ 24 + 1`. -/
def rnd24 (w : ℕ∞) : ℕ∞ := if w = 16777217 then 16777216 else w

theorem rnd24_rounding : Rounding rnd24 := by
  constructor
  · intro a b hab
    unfold rnd24
    split_ifs with h1 h2 h2
    · exact le_refl _
    · subst h1
      exact le_trans (by decide) hab
    · subst h2
      have h3 : a < 16777217 := lt_of_le_of_ne hab h1
      have h4 : a < 16777216 + 1 := by
        have : (16777216 : ℕ∞) + 1 = 16777217 := by decide +kernel
        rw [this]; exact h3
      exact Order.le_of_lt_add_one h4
    · exact hab
  · intro w
    unfold rnd24
    split_ifs with h1
    · subst h1; exact ⟨fun h => absurd h (by decide), fun h => absurd h (by decide)⟩
    · rfl

/-- **C43: rounding loses minimality.**  Three samples at distances 1, 2²⁴ and 2²⁴+1: after rounding the two long edges tie and the
Borůvka routine keeps the longer one, so its tree is heavier than Kruskal's. -/
theorem C43_rounding_not_minimal :
    let coo : List (Edge ℕ∞) := [⟨0, 2, 1⟩, ⟨1, 2, 16777216⟩, ⟨0, 1, 16777217⟩]
    preBoruvka rnd24 3 coo 1 = [⟨0, 2, 1⟩, ⟨1, 0, 16777217⟩] ∧
      preKruskal 3 coo 1 CLParams.none = [⟨0, 2, 1⟩, ⟨1, 2, 16777216⟩] := by
  refine ⟨by decide +kernel, by decide +kernel⟩

end Verif
