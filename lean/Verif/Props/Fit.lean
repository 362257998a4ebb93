import Verif.Lemmas.FitRows
import Verif.Props.Total

/-!
# Properties C31, C32, C44, C45: non-finite rows, dispatch and validation
-/

namespace Verif
variable {W K α β : Type*}

/-! ## C31 -/

section
variable [Field K] [LinearOrder K] [LinearOrder W] [OrderTop W] [Inhabited W] [Inhabited K]

omit [OrderTop W] in
theorem fastHdbscan_length {lam : W → K} {mst : List α → List β → List (Edge W)} {wt : β → K} {o : ClusterOpts K} {X : List α} {side : List β}
    (hmst : 2 ≤ X.length → (mst X side).length + 1 = X.length) {r : FitResult W K} (h : fastHdbscan lam mst wt o X side = .ok r) :
    r.labels.length = X.length ∧ r.strengths.length = X.length := by
  unfold fastHdbscan fastWith at h
  split at h
  · cases h; simp
  · rename_i hx
    split at h
    · cases h
    · rename_i r0 hr0
      cases h
      simp only [List.length_map, List.length_range, and_true]
      rw [clustersFromMst_length hr0, hmst (by omega)]

omit [Field K] [LinearOrder K] [LinearOrder W] [Inhabited W] [Inhabited K] in
/-- Rows with a missing value get label -1 and strength 0, the others what clustering the finite rows alone gives. -/
theorem nonfinite_rows [LE W] [OrderTop W] [Zero K] [One K] [Add K] {core : List α → List β → Except FitError (FitResult W K)} {finite : α → Bool}
    {X : List α} {side : List β} (hside : side.length = X.length)
    (hcore : ∀ r0, core (X.filter finite) (((X.zip side).filter fun p => finite p.1).map Prod.snd) = .ok r0 →
      r0.labels.length = (X.filter finite).length ∧ r0.strengths.length = (X.filter finite).length)
    {outliers : List ℕ}
    (hout : outliers.Perm ((List.range X.length).filter fun i => !(X[i]?.map finite).getD false)) {r : FitResult W K}
    (hr : fitModel finite core outliers X side = .ok r) :
    ∃ r0, core (X.filter finite) (((X.zip side).filter fun p => finite p.1).map Prod.snd) = .ok r0 ∧
      r0.labels.length = (X.filter finite).length ∧ r.labels.length = X.length ∧ r.strengths.length = X.length ∧
      ∀ i x, X[i]? = some x →
        (finite x = false → r.labels[i]? = some (-1) ∧ r.strengths[i]? = some 0) ∧
        (finite x = true → r.labels[i]? = r0.labels[(X.take i).countP finite]? ∧
          r.strengths[i]? = r0.strengths[(X.take i).countP finite]?) := by
  unfold fitModel at hr
  split at hr
  · rename_i hall
    have hall' : ∀ x ∈ X, finite x = true := List.all_eq_true.1 hall
    have e1 : X.filter finite = X := List.filter_eq_self.2 hall'
    have e2 : ((X.zip side).filter fun p => finite p.1).map Prod.snd = side := by
      rw [List.filter_eq_self.2 (fun p hp => hall' _ (List.of_mem_zip (show (p.1, p.2) ∈ _ from hp)).1), List.map_snd_zip (by omega)]
    rw [e1, e2] at hcore ⊢
    obtain ⟨h1, h2⟩ := hcore _ hr
    refine ⟨r, hr, h1, h1, h2, fun i x hx => ⟨fun hf => ?_, fun _ => ?_⟩⟩
    · rw [hall' x (List.mem_of_getElem? hx)] at hf; cases hf
    · have hi := (List.getElem?_eq_some_iff.1 hx).1
      rw [List.countP_eq_length.2 (fun y hy => hall' y (List.mem_of_mem_take hy)), List.length_take, min_eq_left (le_of_lt hi)]
      exact ⟨rfl, rfl⟩
  · simp only at hr
    rw [takeRows_finite, takeRows_side _ _ _ hside] at hr
    split at hr
    · cases hr
    · rename_i r0 hr0
      split at hr
      · cases hr
      · split at hr
        · cases hr
        · cases hr
          obtain ⟨h1, h2⟩ := hcore _ hr0
          have hsp := finiteIndex_split finite X hout
          have hnd : (finiteIndex finite X).Nodup := (List.nodup_append.1 hsp.nodup).1
          refine ⟨r0, hr0, h1, spreadValues_length .., spreadValues_length .., fun i x hx => ⟨fun hf => ?_, fun hf => ?_⟩⟩
          · have hni : i ∉ finiteIndex finite X := fun hm => by
              obtain ⟨y, hy, hfy⟩ := mem_finiteIndex.1 hm
              rw [hx, Option.some.injEq] at hy
              subst hy; rw [hf] at hfy; cases hfy
            have hi := (List.getElem?_eq_some_iff.1 hx).1
            exact ⟨spreadValues_fill hni hi, spreadValues_fill hni hi⟩
          · have hp := finiteIndex_pos hx hf
            rw [← finiteIndex_length] at h1 h2
            exact ⟨spreadValues_get hnd (fun j hj => finiteIndex_lt hj) h1 hp, spreadValues_get hnd (fun j hj => finiteIndex_lt hj) h2 hp⟩

/-- **C31** (partial): whenever `fit` returns, the rows with NaN or infinity have label -1 and strength 0, and every other row has the label
and the strength which the same call gives it on the finite rows alone; there its position is the number of finite rows before it.
`mst` stands for any routine computing spanning trees, `side` for the sample weights.
Missing: `fit` does not always return where clustering the finite rows does (`C31_one_finite_row`); `C31_returns` says when it does. -/
theorem C31_nonfinite_rows_partial (lam : W → K) (mst : List α → List β → List (Edge W)) (wt : β → K) (o : ClusterOpts K) (finite : α → Bool)
    (X : List α) (side : List β) (hside : side.length = X.length)
    (hmst : 2 ≤ (X.filter finite).length →
      (mst (X.filter finite) (((X.zip side).filter fun p => finite p.1).map Prod.snd)).length + 1 = (X.filter finite).length)
    (outliers : List ℕ)
    (hout : outliers.Perm ((List.range X.length).filter fun i => !(X[i]?.map finite).getD false)) (r : FitResult W K)
    (hr : fitModel finite (fastHdbscan lam mst wt o) outliers X side = .ok r) :
    ∃ r0, fastHdbscan lam mst wt o (X.filter finite) (((X.zip side).filter fun p => finite p.1).map Prod.snd) = .ok r0 ∧
      r0.labels.length = (X.filter finite).length ∧ r.labels.length = X.length ∧ r.strengths.length = X.length ∧
      ∀ i x, X[i]? = some x →
        (finite x = false → r.labels[i]? = some (-1) ∧ r.strengths[i]? = some 0) ∧
        (finite x = true → r.labels[i]? = r0.labels[(X.take i).countP finite]? ∧
          r.strengths[i]? = r0.strengths[(X.take i).countP finite]?) :=
  nonfinite_rows hside (fun _ h => fastHdbscan_length hmst h) hout hr

variable [IsStrictOrderedRing K]

omit [OrderTop W] in
/-- The trees of a clustering of a spanning tree. -/
theorem Clustered.trees {n : ℕ} (hn : 2 ≤ n) {wt : ℕ → K} {t : List (Edge W)} (ht : SpanningTree n t) {lam : W → K}
    {o : ClusterOpts K} {r : ClusterResult W K} (hr : Clustered n lam wt o t r) (hlink : r.linkage = mstToLinkage wt (lexsortMst t)) :
    Dendrogram n wt r.linkage ∧ (r.linkage.map LRow.d).Pairwise (· ≤ ·) ∧ r.condensed ≠ [] ∧ ∃ k, CondTree n k r.condensed := by
  obtain ⟨hden, _, hheight, _⟩ := C12_linkage_is_dendrogram n (by omega) wt _ (ht.perm (lexsortMst_perm _)) (lexsortMst_sorted _)
  obtain ⟨k, hct, _⟩ := hr.tree
  refine ⟨hlink ▸ hden, hlink ▸ hheight, fun he => ?_, k, hct⟩
  have := (hct.children 0).2 (.inl (by omega))
  rw [he] at this; simp at this

/-- The trees computed for the clean rows. -/
theorem fastHdbscan_trees {lam : W → K} {mst : List α → List β → List (Edge W)} {wt : β → K} {o : ClusterOpts K} {X : List α} {side : List β}
    (hX : 2 ≤ X.length) (ht : SpanningTree X.length (mst X side))
    (h0 : ∀ (i : ℕ) b, side[i]? = some b → 0 ≤ wt b ∧ wt b < o.minClusterSize) (h1 : 1 < o.minClusterSize)
    (hp : o.persistence ≤ 0 ∨ Antitone lam ∧ ∀ d, 0 ≤ lam d)
    {r : FitResult W K} (h : fastHdbscan lam mst wt o X side = .ok r) :
    Dendrogram X.length (fun i => (side[i]?.map wt).getD 1) r.linkage ∧ (r.linkage.map LRow.d).Pairwise (· ≤ ·) ∧
      r.condensed ≠ [] ∧ ∃ k, CondTree X.length k r.condensed := by
  unfold fastHdbscan fastWith at h
  rw [if_neg (by omega)] at h
  split at h
  · cases h
  · rename_i r0 hr0
    cases h
    have hw : ∀ i : ℕ, 0 ≤ (side[i]?.map wt).getD 1 ∧ (side[i]?.map wt).getD 1 < o.minClusterSize := by
      intro i
      cases hi : side[i]? with
      | none => exact ⟨zero_le_one, h1⟩
      | some b => exact h0 i b hi
    rcases hp with hp | ⟨hlam, hpos⟩
    · have ht' := ht.perm (lexsortMst_perm _)
      obtain ⟨hden, _, hheight, _⟩ := C12_linkage_is_dendrogram X.length (by omega) (fun i => (side[i]?.map wt).getD 1) _ ht' (lexsortMst_sorted _)
      obtain ⟨hne, k, hct, _⟩ := condenseTree_usable X.length hX _ _ hden o.minClusterSize h1 (fun x _ => (hw x).1) (fun x _ => (hw x).2) lam
      unfold clustersFromMst at hr0
      have hsimp : ∀ T, simplifyIf o.persistence T = some T := by
        intro T
        unfold simplifyIf
        rw [if_neg (fun h => absurd h.1 (not_lt.2 hp))]
      simp only [hsimp, Option.bind_some] at hr0
      obtain ⟨_, _, hr0⟩ := Option.bind_eq_some_iff.1 hr0
      obtain ⟨_, _, hr0⟩ := Option.bind_eq_some_iff.1 hr0
      obtain ⟨_, _, hr0⟩ := Option.bind_eq_some_iff.1 hr0
      obtain ⟨_, _, rfl⟩ := Option.map_eq_some_iff.1 hr0
      exact ⟨hden, hheight, hne, k, hct⟩
    · refine Clustered.trees hX ht (clustered_of_mst hX ht h1 (fun x _ => (hw x).1) (fun x _ => (hw x).2) hlam hpos hr0) ?_
      unfold clustersFromMst at hr0
      simp only at hr0
      obtain ⟨_, _, hr0⟩ := Option.bind_eq_some_iff.1 hr0
      obtain ⟨_, _, hr0⟩ := Option.bind_eq_some_iff.1 hr0
      obtain ⟨_, _, hr0⟩ := Option.bind_eq_some_iff.1 hr0
      obtain ⟨_, _, hr0⟩ := Option.bind_eq_some_iff.1 hr0
      obtain ⟨_, _, rfl⟩ := Option.map_eq_some_iff.1 hr0
      rfl

omit [LinearOrder K] [Inhabited W] [Inhabited K] [IsStrictOrderedRing K] in
/-- `fit` returns whenever clustering the finite rows alone does, if that gives trees over them. -/
theorem fit_returns {L : Type _} [Zero L] {finite : α → Bool} {X : List α} {side : List β} (hside : side.length = X.length) {outliers : List ℕ}
    (hout : outliers.Perm ((List.range X.length).filter fun i => !(X[i]?.map finite).getD false)) (h2 : 2 ≤ (X.filter finite).length)
    {core : List α → List β → Except FitError (FitResult W K L)} {w : ℕ → K}
    (hcore : ∀ r0, core (X.filter finite) (((X.zip side).filter fun p => finite p.1).map Prod.snd) = .ok r0 →
      Dendrogram (X.filter finite).length w r0.linkage ∧ r0.condensed ≠ [] ∧ ∃ k, CondTree (X.filter finite).length k r0.condensed) :
    (∃ r, fitModel finite core outliers X side = .ok r) ↔
      ∃ r0, core (X.filter finite) (((X.zip side).filter fun p => finite p.1).map Prod.snd) = .ok r0 := by
  unfold fitModel
  split
  · rename_i hall
    have hall' : ∀ x ∈ X, finite x = true := List.all_eq_true.1 hall
    have e1 : X.filter finite = X := List.filter_eq_self.2 hall'
    have e2 : ((X.zip side).filter fun p => finite p.1).map Prod.snd = side := by
      rw [List.filter_eq_self.2 (fun p hp => hall' _ (List.of_mem_zip (show (p.1, p.2) ∈ _ from hp)).1), List.map_snd_zip (by omega)]
    rw [e1, e2]
  · simp only
    rw [takeRows_finite, takeRows_side _ _ _ hside]
    constructor
    · rintro ⟨r, hr⟩
      split at hr
      · cases hr
      · rename_i r0 hr0; exact ⟨r0, hr0⟩
    · rintro ⟨r0, hr0⟩
      have hsp := finiteIndex_split finite X hout
      obtain ⟨hden, hne, k, hct⟩ := hcore r0 hr0
      rw [← finiteIndex_length] at hct hden
      rw [hr0]
      simp only
      rw [remapCondensed_eq hsp hct hne]
      simp only
      have hlne : r0.linkage ≠ [] := by
        intro he
        have := hden.length
        rw [he, finiteIndex_length] at this
        simp at this; omega
      unfold remapLinkage
      obtain ⟨last, hl⟩ : ∃ last, (r0.linkage.map fun row =>
          { row with l := remapChild (finiteIndex finite X) outliers.length row.l,
                     r := remapChild (finiteIndex finite X) outliers.length row.r }).getLast? = some last :=
        ⟨_, List.getLast?_eq_some_getLast (by simpa using hlne)⟩
      simp only [hl]
      exact ⟨_, rfl⟩

/-- **C31**, second half: with at least two finite rows `fit` returns whenever clustering the finite rows alone does (for a spanning
tree, samples lighter than `min_cluster_size`). -/
theorem C31_returns (lam : W → K) (mst : List α → List β → List (Edge W)) (wt : β → K) (o : ClusterOpts K) (finite : α → Bool)
    (X : List α) (side : List β) (hside : side.length = X.length) (outliers : List ℕ)
    (hout : outliers.Perm ((List.range X.length).filter fun i => !(X[i]?.map finite).getD false))
    (h2 : 2 ≤ (X.filter finite).length)
    (ht : SpanningTree (X.filter finite).length (mst (X.filter finite) (((X.zip side).filter fun p => finite p.1).map Prod.snd)))
    (h0 : ∀ b ∈ side, 0 ≤ wt b ∧ wt b < o.minClusterSize) (h1 : 1 < o.minClusterSize)
    (hp : o.persistence ≤ 0 ∨ Antitone lam ∧ ∀ d, 0 ≤ lam d) :
    (∃ r, fitModel finite (fastHdbscan lam mst wt o) outliers X side = .ok r) ↔
      ∃ r0, fastHdbscan lam mst wt o (X.filter finite) (((X.zip side).filter fun p => finite p.1).map Prod.snd) = .ok r0 := by
  refine fit_returns (w := fun i => ((((X.zip side).filter fun p => finite p.1).map Prod.snd)[i]?.map wt).getD 1) hside hout h2 fun r0 hr0 => ?_
  obtain ⟨hden, _, hne, hct⟩ := fastHdbscan_trees h2 ht (fun i b hi => by
    obtain ⟨p, hp, rfl⟩ := List.mem_map.1 (List.mem_of_getElem? hi)
    exact h0 _ (List.of_mem_zip (show (p.1, p.2) ∈ _ from (List.mem_filter.1 hp).1)).2) h1 hp hr0
  exact ⟨hden, hne, hct⟩

/-! ## C32 -/

omit [LinearOrder K] [Inhabited W] [Inhabited K] [IsStrictOrderedRing K] in
/-- The stored trees, whatever clusters the finite rows. -/
theorem stored_trees {core : List α → List β → Except FitError (FitResult W K)} {wt : β → K} {finite : α → Bool}
    {X : List α} {side : List β} (hside : side.length = X.length) {outliers : List ℕ}
    (hout : outliers.Perm ((List.range X.length).filter fun i => !(X[i]?.map finite).getD false))
    (hnf : ∃ x ∈ X, finite x = false)
    (h3 : 3 ≤ (X.filter finite).length ∨ ((X.filter finite).length = 2 ∧ X.getLast?.map finite = some true))
    (hcore : ∀ r0, core (X.filter finite) (((X.zip side).filter fun p => finite p.1).map Prod.snd) = .ok r0 →
      Dendrogram (X.filter finite).length (fun i => ((((X.zip side).filter fun p => finite p.1).map Prod.snd)[i]?.map wt).getD 1) r0.linkage ∧
      (r0.linkage.map LRow.d).Pairwise (· ≤ ·) ∧ r0.condensed ≠ [] ∧ ∃ k, CondTree (X.filter finite).length k r0.condensed)
    {r : FitResult W K} (hr : fitModel finite core outliers X side = .ok r) :
    ((∃ k, CondTree X.length k r.condensed) ∧ (∀ i, i < X.length → (r.condensed.map CRow.child).count i = 1) ∧
      ∀ i x, X[i]? = some x → finite x = false → ⟨X.length, i, 0, 1⟩ ∈ r.condensed) ∧
    MergeTree X.length (fun i => if (X[i]?.map finite).getD false then (side[i]?.map wt).getD 1 else 1) r.linkage ∧
    (r.linkage.map LRow.d).Pairwise (· ≤ ·) ∧
    ∃ r0, core (X.filter finite) (((X.zip side).filter fun p => finite p.1).map Prod.snd) = .ok r0 ∧
      r.linkage.map LRow.d = r0.linkage.map LRow.d ++ List.replicate (X.length - (X.filter finite).length) ⊤ ∧
      ∀ i, i + 1 < (X.filter finite).length → ∀ y, Below X.length r.linkage (X.length + i) y ↔
        (X[y]?.map finite = some true ∧ Below (X.filter finite).length r0.linkage ((X.filter finite).length + i) ((X.take y).countP finite)) := by
  have h2 : 2 ≤ (X.filter finite).length := by rcases h3 with h3 | h3 <;> omega
  have hsp := finiteIndex_split finite X hout
  have hnd : (finiteIndex finite X).Nodup := (List.nodup_append.1 hsp.nodup).1
  have hlen := hsp.length
  unfold fitModel at hr
  rw [if_neg (fun hall => by
    obtain ⟨x, hx, hf⟩ := hnf
    rw [List.all_eq_true.1 hall x hx] at hf; cases hf)] at hr
  simp only at hr
  rw [takeRows_finite, takeRows_side _ _ _ hside] at hr
  split at hr
  · cases hr
  rename_i r0 hr0
  obtain ⟨hden, hheight, hne, k, hct⟩ := hcore r0 hr0
  have h3' : 3 ≤ (finiteIndex finite X).length ∨ ((finiteIndex finite X).length = 2 ∧ X.length - 1 ∈ finiteIndex finite X) := by
    rw [finiteIndex_length]
    refine h3.imp id fun h => ⟨h.1, ?_⟩
    rw [List.getLast?_eq_getElem?, Option.map_eq_some_iff] at h
    obtain ⟨x, hx, hf⟩ := h.2
    exact mem_finiteIndex.2 ⟨x, hx, hf⟩
  have hpos : ∀ (x y : ℕ), (finiteIndex finite X)[x]? = some y ↔ X[y]?.map finite = some true ∧ (X.take y).countP finite = x := by
    intro x y
    constructor
    · intro hx
      obtain ⟨a, ha, hf⟩ := mem_finiteIndex.1 (List.mem_of_getElem? hx)
      refine ⟨by rw [ha, Option.map_some, hf], ?_⟩
      have h4 := finiteIndex_pos ha hf
      have e1 := (List.getElem?_eq_some_iff.1 hx).1
      exact ((List.getElem?_inj e1 hnd).1 (hx.trans h4.symm)).symm
    · rintro ⟨h4, rfl⟩
      obtain ⟨a, ha, hf⟩ := Option.map_eq_some_iff.1 h4
      exact finiteIndex_pos ha hf
  rw [← finiteIndex_length] at hct hden ⊢
  rw [remapCondensed_eq hsp hct hne] at hr
  simp only at hr
  obtain ⟨rows', hl1, hl2, hl3, hl4⟩ := remapLinkage_tree hsp hden h3'
  rw [hl1] at hr
  simp only at hr
  cases hr
  have hct' := remapCondensed_tree (L := K) (S := K) hsp hct
  refine ⟨⟨⟨k, hct'⟩, fun i hi => ?_, fun i x hx hf => ?_⟩, ?_, ?_, r0, hr0, ?_, ?_⟩
  · exact List.count_eq_one_of_mem hct'.nodup ((hct'.children i).2 (Or.inl hi))
  · have hi := (List.getElem?_eq_some_iff.1 hx).1
    have hni : i ∉ finiteIndex finite X := fun hm => by
      obtain ⟨y, hy, hfy⟩ := mem_finiteIndex.1 hm
      rw [hx, Option.some.injEq] at hy
      subst hy; rw [hf] at hfy; cases hfy
    exact List.mem_append.2 (Or.inl (List.mem_map.2 ⟨i, (hsp.cover hi).resolve_left hni, rfl⟩))
  · have e : allWeights (finiteIndex finite X) (fun i => ((((X.zip side).filter fun p => finite p.1).map Prod.snd)[i]?.map wt).getD 1) =
        fun i => if (X[i]?.map finite).getD false then (side[i]?.map wt).getD 1 else 1 := by
      funext i
      unfold allWeights
      rw [← takeRows_side _ _ _ hside]
      by_cases hm : i ∈ finiteIndex finite X
      · rw [if_pos hm]
        simp only
        rw [takeRows_get (fun j hj => by rw [hside]; exact finiteIndex_lt hj), List.getElem?_eq_getElem (List.idxOf_lt_length_of_mem hm),
          List.getElem_idxOf, Option.bind_some]
        obtain ⟨x, hx, hf⟩ := mem_finiteIndex.1 hm
        rw [hx]
        simp [hf]
      · rw [if_neg hm, if_neg]
        intro hc
        apply hm
        cases hx : X[i]? with
        | none => simp [hx] at hc
        | some x => exact mem_finiteIndex.2 ⟨x, hx, by simpa [hx] using hc⟩
    rw [← e]
    exact hl2
  · rw [hl3, List.pairwise_append]
    refine ⟨hheight, List.pairwise_replicate.2 (Or.inr le_rfl), fun a _ b hb => ?_⟩
    rw [List.eq_of_mem_replicate hb]; exact le_top
  · rw [hl3, show X.length - (finiteIndex finite X).length = outliers.length by omega]
  · intro i hi y
    rw [hl4 i (by have := hden.length; omega)]
    constructor
    · rintro ⟨x, hx, hbl⟩
      obtain ⟨h5, rfl⟩ := (hpos x y).1 hx
      exact ⟨h5, hbl⟩
    · rintro ⟨h5, hbl⟩
      exact ⟨_, (hpos _ y).2 ⟨h5, rfl⟩, hbl⟩


/-- **C32** (partial): with non-finite rows present, at least three finite rows (or two, the last row being one of them), a spanning tree
of the finite rows and samples lighter than `min_cluster_size`: the stored condensed tree is a condensed tree
over all original rows, with every row listed exactly once and the non-finite rows leaving the top cluster at lambda 0; the stored single
linkage tree is a dendrogram over all original rows, with sizes counting non-finite rows once, heights ascending, the non-finite rows joined
at `+inf`; and its other nodes contain the rows they contain when the finite rows are clustered alone.
Missing: two finite rows of which the last row is none (`C32_two_finite_rows`), one finite row (`C31_one_finite_row`), heavy samples
(`C16_heavy_sample_lost`). -/
theorem C32_stored_trees_partial (lam : W → K) (mst : List α → List β → List (Edge W)) (wt : β → K) (o : ClusterOpts K) (finite : α → Bool)
    (X : List α) (side : List β) (hside : side.length = X.length) (outliers : List ℕ)
    (hout : outliers.Perm ((List.range X.length).filter fun i => !(X[i]?.map finite).getD false))
    (hnf : ∃ x ∈ X, finite x = false)
    (h3 : 3 ≤ (X.filter finite).length ∨ ((X.filter finite).length = 2 ∧ X.getLast?.map finite = some true))
    (ht : SpanningTree (X.filter finite).length (mst (X.filter finite) (((X.zip side).filter fun p => finite p.1).map Prod.snd)))
    (h0 : ∀ b ∈ side, 0 ≤ wt b ∧ wt b < o.minClusterSize) (h1 : 1 < o.minClusterSize)
    (hp : o.persistence ≤ 0 ∨ Antitone lam ∧ ∀ d, 0 ≤ lam d)
    (r : FitResult W K) (hr : fitModel finite (fastHdbscan lam mst wt o) outliers X side = .ok r) :
    ((∃ k, CondTree X.length k r.condensed) ∧ (∀ i, i < X.length → (r.condensed.map CRow.child).count i = 1) ∧
      ∀ i x, X[i]? = some x → finite x = false → ⟨X.length, i, 0, 1⟩ ∈ r.condensed) ∧
    MergeTree X.length (fun i => if (X[i]?.map finite).getD false then (side[i]?.map wt).getD 1 else 1) r.linkage ∧
    (r.linkage.map LRow.d).Pairwise (· ≤ ·) ∧
    ∃ r0, fastHdbscan lam mst wt o (X.filter finite) (((X.zip side).filter fun p => finite p.1).map Prod.snd) = .ok r0 ∧
      r.linkage.map LRow.d = r0.linkage.map LRow.d ++ List.replicate (X.length - (X.filter finite).length) ⊤ ∧
      ∀ i, i + 1 < (X.filter finite).length → ∀ y, Below X.length r.linkage (X.length + i) y ↔
        (X[y]?.map finite = some true ∧ Below (X.filter finite).length r0.linkage ((X.filter finite).length + i) ((X.take y).countP finite)) := by
  have h2 : 2 ≤ (X.filter finite).length := by rcases h3 with h3 | h3 <;> omega
  exact stored_trees hside hout hnf h3 (fun r0 hr0 => fastHdbscan_trees h2 ht (fun i b hi => by
    obtain ⟨p, hp, rfl⟩ := List.mem_map.1 (List.mem_of_getElem? hi)
    exact h0 _ (List.of_mem_zip (show (p.1, p.2) ∈ _ from (List.mem_filter.1 hp).1)).2) h1 hp hr0) hr

end

/-- **C32** fails for every data set with exactly two finite rows whose last row is not finite: whatever distance and size the merge
of the two finite rows has, the stored linkage tree merges some row twice. -/
theorem C32_two_finite_rows [LE W] [OrderTop W] [Add K] [One K] (finite : α → Bool) (X : List α) (outliers : List ℕ)
    (hout : outliers.Perm ((List.range X.length).filter fun i => !(X[i]?.map finite).getD false))
    (h2 : (X.filter finite).length = 2) (hl : X.getLast?.map finite = some false) (d : W) (s : K) :
    ∃ rows, remapLinkage (finiteIndex finite X) outliers [⟨1, 0, d, s⟩] = .ok rows ∧ ¬ (rows.flatMap fun row => [row.l, row.r]).Nodup := by
  refine remapLinkage_two (finiteIndex_split finite X hout) (by rw [finiteIndex_length, h2]) ?_ d s
  intro hm
  obtain ⟨x, hx, hf⟩ := mem_finiteIndex.1 hm
  rw [List.getLast?_eq_getElem?, hx, Option.map_some, hf] at hl
  cases hl

/-! ### Concrete data -/

/-- Edges between all pairs of one-dimensional points; `none` is a row with NaN. -/
def exFitPairs (X : List (Option ℚ)) : List (Edge (WithTop ℚ)) :=
  (List.range X.length).flatMap fun i => (List.range i).map fun j =>
    ⟨j, i, (|((X[i]?.join).getD 0 - (X[j]?.join).getD 0)| : ℚ)⟩

/-- Spanning tree of the points by the Kruskal path. -/
def exFitMst (cl : CLParams) (X : List (Option ℚ)) (_ : List ℚ) : List (Edge (WithTop ℚ)) :=
  finishMst (runKruskalCore X.length cl (sortEdges (exFitPairs X))) X.length

theorem exFitMst_spanning (X : List (Option ℚ)) (side : List ℚ) (hX : 0 < X.length) : SpanningTree X.length (exFitMst CLParams.none X side) := by
  have hr : InRange X.length (exFitPairs X) := by
    intro e he
    obtain ⟨i, hi, he⟩ := List.mem_flatMap.1 he
    obtain ⟨j, hj, rfl⟩ := List.mem_map.1 he
    rw [List.mem_range] at hi hj
    exact ⟨by simp only; omega, hi⟩
  have hinv := kruskalCore_inv (sortEdges_inRange hr)
  exact (C08_finish_spanning_tree X.length hX _ hinv.rep hinv.greedy.acyclic).1

theorem exFitMst_length (X : List (Option ℚ)) (side : List ℚ) (hX : 2 ≤ X.length) : (exFitMst CLParams.none X side).length + 1 = X.length :=
  (exFitMst_spanning X side (by omega)).length (by omega)

def exFit (X : List (Option ℚ)) (outliers : List ℕ) : Except FitError (FitResult (WithTop ℚ) ℚ) :=
  fitModel Option.isSome (fastHdbscan lamq (exFitMst CLParams.none) id (exOpts .eom 0)) outliers X (X.map fun _ => 1)

/-- Two pairs of points and two rows with NaN. -/
def exFitData : List (Option ℚ) := [some 0, none, some 1, some 100, none, some 101]

example : (match exFit exFitData [1, 4] with
    | .ok r => decide (r.labels = [1, -1, 1, 0, -1, 0] ∧ r.linkage.map (fun row => (row.l, row.r)) = [(2, 0), (5, 3), (7, 6), (1, 8), (4, 9)])
    | .error _ => false) = true := by decide +kernel

/-- The hypotheses of C31 and C32 are met by this data. -/
example : ∃ r, exFit exFitData [1, 4] = .ok r ∧ r.labels[1]? = some (-1) ∧ (∃ k, CondTree 6 k r.condensed) ∧
    (r.linkage.map LRow.d).Pairwise (· ≤ ·) := by
  have hout : [1, 4].Perm ((List.range exFitData.length).filter fun i => !(exFitData[i]?.map Option.isSome).getD false) := by decide +kernel
  have ht := exFitMst_spanning (exFitData.filter Option.isSome) (((exFitData.zip (exFitData.map fun _ => (1 : ℚ))).filter fun p => p.1.isSome).map Prod.snd)
    (by decide)
  have hside : (exFitData.map fun _ => (1 : ℚ)).length = exFitData.length := by simp
  have hb : ∀ b ∈ exFitData.map (fun _ => (1 : ℚ)), 0 ≤ id b ∧ id b < (exOpts .eom 0).minClusterSize := by decide
  have hex : (match fastHdbscan lamq (exFitMst CLParams.none) id (exOpts .eom 0) (exFitData.filter Option.isSome)
      (((exFitData.zip (exFitData.map fun _ => (1 : ℚ))).filter fun p => p.1.isSome).map Prod.snd) with
      | .ok _ => true
      | .error _ => false) = true := by decide +kernel
  obtain ⟨r, hr⟩ := (C31_returns lamq (exFitMst CLParams.none) id (exOpts .eom 0) Option.isSome exFitData _ hside [1, 4] hout (by decide) ht hb
    (by decide) (.inl (by decide))).2 (by
      split at hex
      · rename_i r0 hr0; exact ⟨r0, hr0⟩
      · cases hex)
  refine ⟨r, hr, ?_, ?_⟩
  · obtain ⟨_, _, _, _, _, h⟩ := C31_nonfinite_rows_partial lamq (exFitMst CLParams.none) id (exOpts .eom 0) Option.isSome exFitData _ hside
      (exFitMst_length _ _) [1, 4] hout r hr
    exact ((h 1 none rfl).1 rfl).1
  · obtain ⟨⟨h1, _⟩, _, h2, _⟩ := C32_stored_trees_partial lamq (exFitMst CLParams.none) id (exOpts .eom 0) Option.isSome exFitData _ hside [1, 4] hout
      ⟨none, by decide, rfl⟩ (.inl (by decide)) ht hb (by decide) (.inl (by decide)) r hr
    exact ⟨h1, h2⟩

/-- **C31** fails with exactly one finite row: clustering that row alone gives it label -1 and strength 0, but `fit` raises an IndexError
on the data with a row of NaN added. -/
theorem C31_one_finite_row :
    exFit [some 0] [] = .ok ⟨[-1], [0], [], []⟩ ∧ exFit [some 0, none] [1] = .error .index := ⟨rfl, rfl⟩

/-- **C32** fails with two finite rows and a last row of NaN: the second merge joins row 2 with itself. -/
theorem C32_two_finite_rows_witness : ∃ r, exFit [some 0, some 1, none] [2] = .ok r ∧
    r.linkage = [⟨1, 0, ((1 : ℚ) : WithTop ℚ), 2⟩, ⟨2, 2, ⊤, 3⟩] ∧ ¬ MergeTree 3 (fun _ => 1) r.linkage := by
  have h : (match exFit [some 0, some 1, none] [2] with
    | .ok r => decide (r.linkage = [⟨1, 0, ((1 : ℚ) : WithTop ℚ), 2⟩, ⟨2, 2, ⊤, 3⟩])
    | .error _ => false) = true := by decide +kernel
  split at h
  · rename_i r hr
    have he := of_decide_eq_true h
    refine ⟨r, hr, he, fun hm => ?_⟩
    have := hm.once
    rw [he] at this
    exact absurd this (by decide)
  · cases h

end Verif
