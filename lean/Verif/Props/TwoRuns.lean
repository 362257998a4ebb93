import Verif.Props.Fit
import Verif.Props.Total

/-!
# Two runs of `fit` on the same rows, with different options
-/

namespace Verif
variable {W K α β : Type*}

section
variable [Field K] [LinearOrder K] [IsStrictOrderedRing K] [LinearOrder W] [OrderTop W] [Inhabited W] [Inhabited K]

/-- Two runs of `fit` cluster the same spanning tree of the finite rows; rows with missing values are noise in both. -/
theorem fit_two_runs {lam : W → K} (hlam : Antitone lam) (hpos : ∀ d, 0 ≤ lam d)
    {finite : α → Bool} {X : List α} {side : List β} (hside : side.length = X.length)
    (h2 : 2 ≤ (X.filter finite).length) {wt : β → K} {o o' : ClusterOpts K} (h1 : 1 < o.minClusterSize) (he : o'.minClusterSize = o.minClusterSize)
    (hw0 : ∀ b ∈ side, 0 ≤ wt b ∧ wt b < o.minClusterSize) {mst : List α → List β → List (Edge W)}
    (hspan : SpanningTree (X.filter finite).length (mst (X.filter finite) (((X.zip side).filter fun p => finite p.1).map Prod.snd)))
    {outliers : List ℕ} (hout : outliers.Perm ((List.range X.length).filter fun i => !(X[i]?.map finite).getD false))
    {r r' : FitResult W K} (hr : fitModel finite (fastHdbscan lam mst wt o) outliers X side = .ok r)
    (hr' : fitModel finite (fastHdbscan lam mst wt o') outliers X side = .ok r') :
    ∃ (wt' : ℕ → K) (r1 r1' : ClusterResult W K), (∀ x, 0 ≤ wt' x ∧ wt' x < o.minClusterSize) ∧
      clustersFromMst lam wt' o (mst (X.filter finite) (((X.zip side).filter fun p => finite p.1).map Prod.snd)) = some r1 ∧
      clustersFromMst lam wt' o' (mst (X.filter finite) (((X.zip side).filter fun p => finite p.1).map Prod.snd)) = some r1' ∧
      r.labels.length = X.length ∧ r'.labels.length = X.length ∧
      ∀ z x, X[z]? = some x → (finite x = false → r.labels[z]? = some (-1) ∧ r'.labels[z]? = some (-1)) ∧
        (finite x = true → r.labels[z]? = r1.labels[(X.take z).countP finite]? ∧ r'.labels[z]? = r1'.labels[(X.take z).countP finite]?) := by
  obtain ⟨sideP, hsP⟩ : ∃ s, s = ((X.zip side).filter fun p => finite p.1).map Prod.snd := ⟨_, rfl⟩
  have hside' : ∀ b ∈ sideP, b ∈ side := by
    intro b hb
    rw [hsP] at hb
    obtain ⟨q, hq, rfl⟩ := List.mem_map.1 hb
    exact (List.of_mem_zip (show (q.1, q.2) ∈ _ from (List.mem_filter.1 hq).1)).2
  have hwt : ∀ i : ℕ, 0 ≤ (sideP[i]?.map wt).getD 1 ∧ (sideP[i]?.map wt).getD 1 < o.minClusterSize := by
    intro i
    cases hi : sideP[i]? with
    | none => exact ⟨zero_le_one, h1⟩
    | some b => exact hw0 b (hside' b (List.mem_of_getElem? hi))
  rw [← hsP] at hspan
  have hcore : ∀ o : ClusterOpts K, ∀ r0, fastHdbscan lam mst wt o (X.filter finite) (((X.zip side).filter fun p => finite p.1).map Prod.snd) = .ok r0 →
      ∃ r1, clustersFromMst lam (fun i => (sideP[i]?.map wt).getD 1) o (mst (X.filter finite) sideP) = some r1 ∧
        r0 = ⟨r1.labels, (List.range (X.filter finite).length).map r1.strengths, r1.linkage, r1.condensed⟩ := by
    intro o r0 hr0
    unfold fastHdbscan fastWith at hr0
    rw [if_neg (not_lt.2 h2), ← hsP] at hr0
    dsimp only at hr0
    cases hc : clustersFromMst lam (fun i => (sideP[i]?.map wt).getD 1) o (mst (X.filter finite) sideP) with
    | none => rw [hc] at hr0; cases hr0
    | some r1 =>
      rw [hc] at hr0
      exact ⟨r1, rfl, (Except.ok.inj hr0).symm⟩
  have hlenOf : ∀ o : ClusterOpts K, 1 < o.minClusterSize → (∀ i : ℕ, (sideP[i]?.map wt).getD 1 < o.minClusterSize) → ∀ r1,
      clustersFromMst lam (fun i => (sideP[i]?.map wt).getD 1) o (mst (X.filter finite) sideP) = some r1 → r1.labels.length = (X.filter finite).length := by
    intro o h1 hw r1 h3
    obtain ⟨k, -, -, -, -, -, -, c7, -⟩ := C63_returned _ h2 _ _ hspan o h1 (fun x _ => (hwt x).1) (fun x _ => hw x) lam hlam hpos h3
    exact c7.1
  obtain ⟨r0, hr0, -, hlen, -, hrows⟩ := nonfinite_rows hside (fun r0 h => by
    obtain ⟨r1, h3, rfl⟩ := hcore o r0 h
    exact ⟨hlenOf o h1 (fun i => (hwt i).2) r1 h3, by simp⟩) hout hr
  obtain ⟨r0', hr0', -, hlen', -, hrows'⟩ := nonfinite_rows hside (fun r0 h => by
    obtain ⟨r1, h3, rfl⟩ := hcore o' r0 h
    exact ⟨hlenOf o' (he ▸ h1) (fun i => he ▸ (hwt i).2) r1 h3, by simp⟩) hout hr'
  obtain ⟨r1, h3, rfl⟩ := hcore o r0 hr0
  obtain ⟨r1', h3', rfl⟩ := hcore _ r0' hr0'
  rw [← hsP]
  exact ⟨_, r1, r1', hwt, h3, h3', hlen, hlen', fun z x hz => ⟨fun hf => ⟨((hrows z x hz).1 hf).1, ((hrows' z x hz).1 hf).1⟩,
    fun hf => ⟨((hrows z x hz).2 hf).1, ((hrows' z x hz).2 hf).1⟩⟩⟩

omit [Field K] [LinearOrder K] [IsStrictOrderedRing K] [LinearOrder W] [OrderTop W] [Inhabited W] [Inhabited K] in
/-- Every sample is a finite row. -/
theorem row_of_sample {finite : α → Bool} : ∀ {X : List α} {i : ℕ}, i < (X.filter finite).length →
    ∃ z x, X[z]? = some x ∧ finite x = true ∧ (X.take z).countP finite = i
  | [], i, h => by simp at h
  | a :: X, i, h => by
    cases ha : finite a with
    | false =>
      rw [List.filter_cons_of_neg (by simp [ha])] at h
      obtain ⟨z, x, h1, h2, h3⟩ := row_of_sample h
      exact ⟨z + 1, x, by simpa using h1, h2, by rw [List.take_succ_cons, List.countP_cons_of_neg (by simp [ha]), h3]⟩
    | true =>
      rw [List.filter_cons_of_pos ha] at h
      rcases i with _ | i
      · exact ⟨0, a, rfl, ha, rfl⟩
      · obtain ⟨z, x, h1, h2, h3⟩ := row_of_sample (X := X) (i := i) (by simpa using h)
        exact ⟨z + 1, x, by simpa using h1, h2, by rw [List.take_succ_cons, List.countP_cons_of_pos ha, h3]⟩

end
end Verif
