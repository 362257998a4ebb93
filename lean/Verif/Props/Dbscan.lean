import Verif.Lemmas.Dbscan
import Verif.Spec.Dbscan
import Verif.Props.TreeBoruvka

/-!
# C82, C83: `dbscan_clustering`
-/

namespace Verif
variable {W K S α β : Type*}

/-! ### C82: after a fit with missing values -/

/-- What a cut returns, for trees whose rows refer to existing nodes, when the merges below the cut connect the same samples as a graph. -/
theorem cutLabels_graph [LinearOrder W] {n : ℕ} {rows : List (LRow W S)} (hl : rows.length + 1 = n) (hr : RowsBelow n rows) {g : List (Edge W)} {eps : W}
    (hc : ∀ x y, x < n → y < n → (Conn (cutEdges n rows eps) x y ↔ Conn (below eps g) x y)) (mcs : ℕ) :
    ∃ lab : ℕ → ℤ, cutLabels rows eps mcs = (List.range n).map lab ∧ IsDbscanStar n g eps mcs lab := by
  subst hl
  obtain ⟨h0, lab, k, h1, _, _, h4, h5⟩ := cutLabels_spec hr eps mcs
  refine ⟨lab, ?_, fun i j hi hj hne => ?_, fun i hi => ?_⟩
  · apply List.ext_getElem?
    intro i
    by_cases hi : i < rows.length + 1
    · rw [h1 i hi, List.getElem?_map, List.getElem?_range hi]; rfl
    · rw [List.getElem?_eq_none (by omega), List.getElem?_eq_none (by simp; omega)]
  · rw [h4 i j hi hj hne, hc i j hi hj]
  · classical
    rw [h5 i hi]
    have : ((Finset.range (rows.length + 1)).filter fun j => Conn (cutEdges (rows.length + 1) rows eps) i j) =
        (Finset.range (rows.length + 1)).filter fun j => Conn (below eps g) i j :=
      Finset.filter_congr fun j hj => hc i j hi (Finset.mem_range.1 hj)
    rw [this]

/-- An estimator that was not fitted raises. -/
theorem C82_not_fitted [LT W] [DecidableLT W] (minSamples : Option ℕ) (mcs : ℕ) (eps : W) :
    dbscanClustering (none : Option (FitResult W K)) minSamples mcs eps = none := rfl

section
variable [Field K] [LinearOrder K] [LinearOrder W] [OrderTop W] [Inhabited W] [Inhabited K]

omit [OrderTop W] in
/-- The linkage tree of `fast_hdbscan`. -/
theorem fastHdbscan_linkage {lam : W → K} {mst : List α → List β → List (Edge W)} {wt : β → K} {o : ClusterOpts K} {X : List α} {side : List β}
    (hX : 2 ≤ X.length) {r : FitResult W K} (h : fastHdbscan lam mst wt o X side = .ok r) :
    r.linkage = mstToLinkage (fun i => (side[i]?.map wt).getD 1) (lexsortMst (mst X side)) := by
  unfold fastHdbscan fastWith at h
  rw [if_neg (by omega)] at h
  split at h
  · cases h
  · rename_i r0 hr0
    cases h
    unfold clustersFromMst at hr0
    obtain ⟨_, _, hr0⟩ := Option.bind_eq_some_iff.1 hr0
    obtain ⟨_, _, hr0⟩ := Option.bind_eq_some_iff.1 hr0
    obtain ⟨_, _, hr0⟩ := Option.bind_eq_some_iff.1 hr0
    obtain ⟨_, _, hr0⟩ := Option.bind_eq_some_iff.1 hr0
    obtain ⟨_, _, rfl⟩ := Option.map_eq_some_iff.1 hr0
    rfl

/-- **C82.** Cluster data with missing values, then call `dbscan_clustering(eps)`.  Let `g` be the graph (of mutual reachability distances) of the finite rows,
of which the spanning tree of the finite rows is a minimum spanning tree; `row k` is the position in the data of the `k`-th finite row.  The call returns one
label per row of the data, and these labels are DBSCAN\* of `g` on all rows, with the rows that are not finite as isolated vertices.  If the threshold (`min_samples`, or
`min_cluster_size` without it) is at least two, rows that are not finite are noise. -/
theorem C82_after_missing_values (lam : W → K) (mst : List α → List β → List (Edge W)) (wt : β → K) (o : ClusterOpts K) (finite : α → Bool)
    (X : List α) (side : List β) (hside : side.length = X.length) (outliers : List ℕ)
    (hout : outliers.Perm ((List.range X.length).filter fun i => !(X[i]?.map finite).getD false)) (h2 : 2 ≤ (X.filter finite).length)
    (g f b : List (Edge W)) (hg : InRange (X.filter finite).length g) (hf : MinSpanningForest g f) (hb : ∀ e ∈ b, e.w = ⊤)
    (ht : SpanningTree (X.filter finite).length (mst (X.filter finite) (((X.zip side).filter fun p => finite p.1).map Prod.snd)))
    (hp : (mst (X.filter finite) (((X.zip side).filter fun p => finite p.1).map Prod.snd)).Perm (f ++ b))
    (row : ℕ → ℕ) (hrow : ∀ i x, X[i]? = some x → finite x = true → row ((X.take i).countP finite) = i)
    (r : FitResult W K) (hr : fitModel finite (fastHdbscan lam mst wt o) outliers X side = .ok r)
    (minSamples : Option ℕ) (mcs : ℕ) (eps : W) :
    ∃ lab : ℕ → ℤ, dbscanClustering (some r) minSamples mcs eps = some ((List.range X.length).map lab) ∧
      IsDbscanStar X.length (g.map fun e => ⟨row e.u, row e.v, e.w⟩) eps (minSamples.getD mcs) lab ∧
      ∀ i x, X[i]? = some x → finite x = false → 2 ≤ minSamples.getD mcs → lab i = -1 := by
  have hsp := finiteIndex_split finite X hout
  have hidx : ∀ k, k < (X.filter finite).length → (finiteIndex finite X)[k]? = some (row k) := fun k hk => by
    rw [← finiteIndex_length] at hk
    obtain ⟨x, hx, hfx⟩ := mem_finiteIndex.1 (List.getElem_mem hk)
    have h4 := finiteIndex_pos hx hfx
    have e1 := (List.getElem?_inj hk (List.nodup_append.1 hsp.nodup).1).1 ((List.getElem?_eq_getElem hk).trans h4.symm)
    rw [List.getElem?_eq_getElem hk, ← hrow _ x hx hfx, ← e1]
  have hlk : r.linkage.length + 1 = X.length ∧ RowsBelow X.length r.linkage ∧ ∀ x y, x < X.length → y < X.length →
      (Conn (cutEdges X.length r.linkage eps) x y ↔ Conn (below eps (g.map fun e => (⟨row e.u, row e.v, e.w⟩ : Edge W))) x y) := by
    have hmap : ∀ x y, Conn (below eps (g.map fun e => (⟨row e.u, row e.v, e.w⟩ : Edge W))) x y ↔
        x = y ∨ ∃ a b, a < (X.filter finite).length ∧ b < (X.filter finite).length ∧ x = row a ∧ y = row b ∧ Conn (below eps g) a b := by
      intro x y
      refine conn_rename_iff row (· < (X.filter finite).length) (fun e he => hg e (mem_below.1 he).1) (fun a b ha hb' hab => ?_) (fun e he => ?_)
        fun f' hf' => ?_
      · have h5 := hidx a ha
        rw [hab, ← hidx b hb', ] at h5
        exact (List.getElem?_inj (by rw [finiteIndex_length]; exact ha) (List.nodup_append.1 hsp.nodup).1).1 h5
      · obtain ⟨h5, h6⟩ := mem_below.1 he
        exact ⟨_, mem_below.2 ⟨List.mem_map.2 ⟨e, h5, rfl⟩, h6⟩, rfl, rfl⟩
      · obtain ⟨h5, h6⟩ := mem_below.1 hf'
        obtain ⟨e, he, rfl⟩ := List.mem_map.1 h5
        exact ⟨e, mem_below.2 ⟨he, h6⟩, rfl, rfl⟩
    unfold fitModel at hr
    split at hr
    · rename_i hall
      have hall' : ∀ x ∈ X, finite x = true := List.all_eq_true.1 hall
      have e1 : X.filter finite = X := List.filter_eq_self.2 hall'
      have e2 : ((X.zip side).filter fun p => finite p.1).map Prod.snd = side := by
        rw [List.filter_eq_self.2 fun p hp => hall' _ (List.of_mem_zip (show (p.1, p.2) ∈ _ from hp)).1]
        exact List.map_snd_zip (by omega)
      rw [e1, e2] at ht hp
      rw [e1] at h2 hidx hmap
      rw [fastHdbscan_linkage h2 hr]
      obtain ⟨q1, q2, q3⟩ := linkage_cut_graph (by omega) (fun i => (side[i]?.map wt).getD 1) hf hb ht hp
      refine ⟨q1, q2, fun x y hx hy => ?_⟩
      have hid : ∀ k, k < X.length → row k = k := fun k hk => by
        have h5 := hrow k X[k] (List.getElem?_eq_getElem hk) (hall' _ (List.getElem_mem _))
        rwa [List.countP_eq_length.2 (fun x hx => hall' x (List.mem_of_mem_take hx)), List.length_take, min_eq_left (by omega)] at h5
      rw [q3 eps x y hx hy, hmap]
      constructor
      · intro h; exact .inr ⟨x, y, hx, hy, (hid x hx).symm, (hid y hy).symm, h⟩
      · rintro (rfl | ⟨a, b', ha, hb', rfl, rfl, h⟩)
        · exact Conn.refl _ _
        · rw [hid a ha, hid b' hb']; exact h
    · simp only at hr
      rw [takeRows_finite, takeRows_side _ _ _ hside] at hr
      split at hr
      · cases hr
      rename_i r0 hr0
      split at hr
      · cases hr
      split at hr
      · cases hr
      rename_i rows' hl
      cases hr
      rw [fastHdbscan_linkage h2 hr0] at hl
      obtain ⟨q1, q2, q3⟩ := linkage_cut_graph (by omega)
        (fun i => ((((X.zip side).filter fun p => finite p.1).map Prod.snd)[i]?.map wt).getD 1) hf hb ht hp
      rw [← finiteIndex_length finite X] at q1 q2 q3
      obtain ⟨p1, p2, p3⟩ := remapLinkage_cut hsp q1 q2 hl
      refine ⟨p1, p2, fun x y hx hy => ?_⟩
      have hre : ∀ a, a < (finiteIndex finite X).length → remapChild (finiteIndex finite X) outliers.length a = row a := fun a ha => by
        have h5 := hidx a (by rwa [finiteIndex_length] at ha)
        rw [List.getElem?_eq_getElem ha, Option.some.injEq] at h5
        rw [remapChild_lt ha, h5]
      have hlt : ∀ a x, x < X.length → x = remapChild (finiteIndex finite X) outliers.length a → a < (finiteIndex finite X).length := by
        intro a x hx he
        by_contra hge
        rw [remapChild_ge (by omega)] at he
        have := hsp.length; omega
      rw [p3, hmap, ← finiteIndex_length finite X]
      constructor
      · rintro (rfl | ⟨a, b', ha, hb', h⟩)
        · exact .inl rfl
        · have la := hlt a x hx ha
          have lb := hlt b' y hy hb'
          exact .inr ⟨a, b', la, lb, by rw [ha, hre a la], by rw [hb', hre b' lb], (q3 eps a b' la lb).1 h⟩
      · rintro (rfl | ⟨a, b', la, lb, ha, hb', h⟩)
        · exact .inl rfl
        · exact .inr ⟨a, b', by rw [ha, hre a la], by rw [hb', hre b' lb], (q3 eps a b' la lb).2 h⟩
  obtain ⟨hl1, hl2, hl3⟩ := hlk
  have hms : (match minSamples with
      | some k => k
      | none => mcs) = minSamples.getD mcs := by cases minSamples <;> rfl
  obtain ⟨lab, e1, e2⟩ := cutLabels_graph hl1 hl2 hl3 (minSamples.getD mcs)
  refine ⟨lab, by rw [← e1, ← hms]; rfl, e2, fun i x hx hfx hm => ?_⟩
  have hi := (List.getElem?_eq_some_iff.1 hx).1
  classical
  rw [e2.2 i hi]
  refine lt_of_le_of_lt (Finset.card_le_card (t := {i}) fun y hy => ?_) (by rw [Finset.card_singleton]; exact hm)
  obtain ⟨_, h6⟩ := Finset.mem_filter.1 hy
  rw [Finset.mem_singleton]
  have hbad : ∀ k, k < (X.filter finite).length → row k ≠ i := fun k hk he => by
    obtain ⟨x', hx', hf'⟩ := mem_finiteIndex.1 (List.mem_of_getElem? (hidx k hk))
    rw [he, hx, Option.some.injEq] at hx'
    subst hx'
    rw [hfx] at hf'; cases hf'
  have hno : ∀ z, Conn (below eps (g.map fun e => (⟨row e.u, row e.v, e.w⟩ : Edge W))) i z → z = i := by
    intro z hz
    induction hz with
    | refl => rfl
    | tail _ hadj ih =>
      obtain ⟨e, he, hor⟩ := hadj
      obtain ⟨e0, he0, rfl⟩ := List.mem_map.1 (mem_below.1 he).1
      have hin := hg e0 he0
      rcases hor with ⟨h8, _⟩ | ⟨_, h8⟩
      · exact absurd (h8.trans ih) (hbad _ hin.1)
      · exact absurd (h8.trans ih) (hbad _ hin.2)
  exact hno y h6

end

/-! ### C83: what the labels mean -/

theorem sorted_getD_lt [LinearOrder W] [OrderTop W] {l : List W} (hl : l.Pairwise (· ≤ ·)) (k : ℕ) (eps : W) :
    l.getD k ⊤ < eps ↔ k < l.countP (· < eps) := by
  induction l generalizing k with
  | nil => simp
  | cons a l ih =>
    rw [List.pairwise_cons] at hl
    by_cases ha : a < eps
    · rw [List.countP_cons_of_pos (by simpa using ha)]
      cases k with
      | zero => simp [ha]
      | succ k => rw [List.getD_cons_succ, ih hl.2]; omega
    · have h0 : l.countP (· < eps) = 0 := by
        rw [List.countP_eq_zero]
        intro b hb
        have := hl.1 b hb
        simpa using (not_lt.1 ha).trans this
      rw [List.countP_cons_of_neg (by simpa using ha), h0]
      simp only [Nat.not_lt_zero, iff_false]
      cases k with
      | zero => simpa using ha
      | succ k => rw [List.getD_cons_succ, ih hl.2, h0]; omega

/-- The core distance is below `eps` exactly for the core samples. -/
theorem core_lt_iff [LinearOrder W] [OrderTop W] {n ms : ℕ} (hms : 1 ≤ ms) {D : ℕ → ℕ → W} {eps : W} {i : ℕ} (hi : i < n)
    (hself : ∀ j < n, D i i ≤ D i j) :
    (((List.range n).map (D i)).insertionSort (· ≤ ·)).getD ms ⊤ < eps ↔ IsCoreSample n D eps ms i := by
  rw [sorted_getD_lt (List.pairwise_insertionSort _ _), (List.perm_insertionSort _ _).countP_eq, List.countP_map, List.countP_eq_length_filter]
  have e1 : ((List.range n).filter ((fun x => decide (x < eps)) ∘ D i)).length = ((Finset.range n).filter fun j => D i j < eps).card := by
    rw [← List.toFinset_card_of_nodup (List.Nodup.filter _ List.nodup_range)]
    congr 1
    ext j
    simp
  rw [e1]
  unfold IsCoreSample
  by_cases hd : D i i < eps
  · have e2 : ((Finset.range n).filter fun j => D i j < eps) = insert i ((Finset.range n).filter fun j => j ≠ i ∧ D i j < eps) := by
      ext j
      simp only [Finset.mem_filter, Finset.mem_range, Finset.mem_insert]
      by_cases hj : j = i
      · subst hj; simp [hi, hd]
      · simp [hj]
    rw [e2, Finset.card_insert_of_notMem (by simp)]
    omega
  · have hall : ∀ j < n, ¬ D i j < eps := fun j hj h => hd ((hself j hj).trans_lt h)
    have e2 : ((Finset.range n).filter fun j => D i j < eps) = ∅ :=
      Finset.filter_eq_empty_iff.2 fun j hj => hall j (Finset.mem_range.1 hj)
    have e3 : ((Finset.range n).filter fun j => j ≠ i ∧ D i j < eps) = ∅ :=
      Finset.filter_eq_empty_iff.2 fun j hj h => hall j (Finset.mem_range.1 hj) h.2
    rw [e2, e3, Finset.card_empty]
    omega

/-- Below `eps`, the graph of mutual reachability distances connects what chains of core samples connect. -/
theorem mutual_below_chain [LinearOrder W] [OrderTop W] {n ms : ℕ} (hms : 1 ≤ ms) {D core : ℕ → ℕ → W} {eps : W}
    (hD : ∀ i j, D i j = D j i) (hself : ∀ i < n, ∀ j < n, D i i ≤ D i j)
    (hcore : ∀ i j, core i j = max (max (D i j) ((((List.range n).map (D i)).insertionSort (· ≤ ·)).getD ms ⊤))
      ((((List.range n).map (D j)).insertionSort (· ≤ ·)).getD ms ⊤)) (a b : ℕ) :
    Conn (below eps (completeGraph n core)) a b ↔ CoreChain n D eps ms a b := by
  constructor
  · intro h
    induction h with
    | refl => exact Relation.ReflTransGen.refl
    | tail _ hadj ih =>
      refine Relation.ReflTransGen.tail ih ?_
      obtain ⟨e, he, hor⟩ := hadj
      obtain ⟨h1, h2⟩ := mem_below.1 he
      obtain ⟨h3, h4, h5, h6⟩ := mem_completeGraph.1 h1
      rw [h6, hcore, max_lt_iff, max_lt_iff, core_lt_iff hms h3 (hself _ h3), core_lt_iff hms h4 (hself _ h4)] at h2
      rcases hor with ⟨rfl, rfl⟩ | ⟨rfl, rfl⟩
      · exact ⟨h3, h4, h2.1.2, h2.2, h2.1.1⟩
      · exact ⟨h4, h3, h2.2, h2.1.2, by rw [hD]; exact h2.1.1⟩
  · intro h
    induction h with
    | refl => exact Conn.refl _ _
    | tail _ hadj ih =>
      rename_i p q _
      obtain ⟨h3, h4, h5, h6, h7⟩ := hadj
      by_cases hpq : p = q
      · subst hpq; exact ih
      · refine ih.trans (Conn.edge (e := ⟨p, q, core p q⟩) (mem_below.2 ⟨mem_completeGraph.2 ⟨h3, h4, hpq, rfl⟩, ?_⟩))
        show core p q < eps
        rw [hcore, max_lt_iff, max_lt_iff, core_lt_iff hms h3 (hself _ h3), core_lt_iff hms h4 (hself _ h4)]
        exact ⟨⟨h7, h5⟩, h6⟩

open Classical in
/-- **C83.** The labels `dbscan_clustering(eps)` gives, in terms of the distances `D` alone, for `min_samples ≥ 2`.  Take any minimum spanning tree `t` of the complete graph of
mutual reachability distances.  Labelled samples are core samples (at least `min_samples` others closer than `eps`); a labelled sample shares its label with exactly the
samples that a chain of core samples joins to it; a sample is noise exactly when fewer than `min_samples` samples are joined to it, itself included.

This is not DBSCAN\*: core samples can be noise (`C83_not_dbscan_star`).  The last part says when it is. -/
theorem C83_core_samples_partial [LinearOrder W] [OrderTop W] [AddCommMonoid S] (n ms : ℕ) (hn : 0 < n) (hms : 2 ≤ ms) (D : ℕ → ℕ → W)
    (hD : ∀ i j, D i j = D j i) (hself : ∀ i < n, ∀ j < n, D i i ≤ D i j) (t : List (Edge W)) (ht : SpanningTree n t)
    (hmin : let core := fun i => (((List.range n).map (D i)).insertionSort (· ≤ ·)).getD ms ⊤
      MinSpanningForest (completeGraph n fun i j => max (max (D i j) (core i)) (core j)) t) (wt : ℕ → S) (eps : W) :
    ∃ lab : ℕ → ℤ, cutLabels (mstToLinkage wt (lexsortMst t)) eps ms = (List.range n).map lab ∧
      (∀ i < n, lab i ≠ -1 → IsCoreSample n D eps ms i) ∧
      (∀ i < n, ∀ j < n, lab i ≠ -1 → (lab i = lab j ↔ CoreChain n D eps ms i j)) ∧
      (∀ i < n, lab i = -1 ↔ ((Finset.range n).filter fun j => CoreChain n D eps ms i j).card < ms) ∧
      ((∀ i < n, IsCoreSample n D eps ms i → ms ≤ ((Finset.range n).filter fun j => CoreChain n D eps ms i j).card) →
        DbscanStar n D eps ms lab) := by
  obtain ⟨lab, h1, h2, h3⟩ := C14_cut_is_dbscan_star n hn wt _ t [] t hmin (by simp) ht (by simp) eps ms
  have hc := mutual_below_chain (eps := eps) (by omega : 1 ≤ ms) hD hself (fun i j => rfl)
  simp only [hc] at h2 h3
  have hcore : ∀ i < n, lab i ≠ -1 → IsCoreSample n D eps ms i := fun i hi hne => by
    rw [Ne, h3 i hi, not_lt] at hne
    obtain ⟨j, hj, hji⟩ := Finset.exists_mem_ne (lt_of_lt_of_le (by omega) hne) i
    obtain ⟨_, h4⟩ := Finset.mem_filter.1 hj
    rcases Relation.ReflTransGen.cases_head h4 with rfl | ⟨_, h5, _⟩
    · exact absurd rfl hji
    · exact h5.2.2.1
  refine ⟨lab, h1, hcore, fun i hi j hj => h2 i j hi hj, fun i hi => ?_, fun hbig => ⟨fun i hi => ?_, fun i hi j hj hci hcj => ?_⟩⟩
  · rw [h3 i hi]
  · constructor
    · intro h hci
      have h4 := hbig i hi hci
      rw [h3 i hi] at h; omega
    · intro h
      by_contra hne
      exact h (hcore i hi hne)
  · refine h2 i j hi hj fun h => ?_
    have h4 := hbig i hi hci
    rw [h3 i hi] at h; omega

/-- C83 for `algorithm='kruskal'` without `knn_k`. -/
theorem C83_kruskal [LinearOrder W] [OrderTop W] [Zero W] [AddCommMonoid S] (n ms : ℕ) (hn : 0 < n) (hms : 2 ≤ ms) (D : ℕ → ℕ → W)
    (hD : ∀ i j, D i j = D j i) (hself : ∀ i < n, ∀ j < n, D i i ≤ D i j) (wt : ℕ → S) (eps : W) :
    ∃ lab : ℕ → ℤ, cutLabels (mstToLinkage wt (lexsortMst (kruskalBrute n ms D CLParams.none))) eps ms = (List.range n).map lab ∧
      (∀ i < n, lab i ≠ -1 → IsCoreSample n D eps ms i) ∧
      (∀ i < n, ∀ j < n, lab i ≠ -1 → (lab i = lab j ↔ CoreChain n D eps ms i j)) ∧
      open Classical in ∀ i < n, lab i = -1 ↔ ((Finset.range n).filter fun j => CoreChain n D eps ms i j).card < ms := by
  obtain ⟨h1, h2⟩ := C60_brute_force n ms hn D hD
  simp only [if_neg (show ¬ ms ≤ 1 by omega)] at h2
  obtain ⟨lab, q1, q2, q3, q4, _⟩ := C83_core_samples_partial n ms hn hms D hD hself _ h1 h2 wt eps
  exact ⟨lab, q1, q2, q3, q4⟩

/-- Points on a line. -/
def lineDist (p : ℕ → ℤ) (i j : ℕ) : WithTop ℤ := ((|p i - p j| : ℤ) : WithTop ℤ)

/-- Case: the points 0, 2, 4, 40, 41, 43, 60 with `min_samples=2` and `eps=4`: the groups are 0, 2, 4 (only the middle one is a core sample) and 40, 41, 43. -/
def dbPts : ℕ → ℤ := fun i => [0, 2, 4, 40, 41, 43, 60].getD i 0

example : (∀ i < 7, ∀ j < 7, lineDist dbPts i i ≤ lineDist dbPts i j) ∧
    cutLabels (mstToLinkage (fun _ => (1 : ℕ)) (lexsortMst (kruskalBrute 7 2 (lineDist dbPts) CLParams.none))) 4 2 = [-1, -1, -1, 0, 0, 0, -1] ∧
    cutLabels (mstToLinkage (fun _ => (1 : ℕ)) (lexsortMst (kruskalBrute 7 2 (lineDist dbPts) CLParams.none))) 5 2 = [0, 0, 0, 1, 1, 1, -1] := by
  decide +kernel

/-- **C83** is false as DBSCAN\*: of these points (`min_samples=2`, `eps=4`) point 1 has two others closer than 4 and is a core sample, but it is labelled noise. -/
theorem C83_not_dbscan_star (lab : ℕ → ℤ)
    (h : cutLabels (mstToLinkage (fun _ => (1 : ℕ)) (lexsortMst (kruskalBrute 7 2 (lineDist dbPts) CLParams.none))) 4 2 = (List.range 7).map lab) :
    IsCoreSample 7 (lineDist dbPts) 4 2 1 ∧ lab 1 = -1 ∧ ¬ DbscanStar 7 (lineDist dbPts) 4 2 lab := by
  have hc : IsCoreSample 7 (lineDist dbPts) 4 2 1 := by unfold IsCoreSample; decide +kernel
  have hl : lab 1 = -1 := by
    have h1 := congrArg (fun l => l[1]?) h
    rw [show cutLabels (mstToLinkage (fun _ => (1 : ℕ)) (lexsortMst (kruskalBrute 7 2 (lineDist dbPts) CLParams.none))) 4 2 =
      [-1, -1, -1, 0, 0, 0, -1] by decide +kernel] at h1
    simpa using h1.symm
  exact ⟨hc, hl, fun hs => (hs.1 1 (by omega)).1 hl hc⟩

/-! ### Missing values: concrete data -/

/-- `dbscan_clustering` after fitting data with two rows of NaN. -/
def exDbscan (minSamples : Option ℕ) (eps : WithTop ℚ) : Option (List ℤ) :=
  dbscanClustering (exFit exFitData [1, 4]).toOption minSamples 2 eps

/-- Case for C82: with `min_samples=2` the rows of NaN are noise. -/
example : exDbscan (some 2) ((2 : ℚ) : WithTop ℚ) = some [0, -1, 0, 1, -1, 1] := by decide +kernel

/-- The hypotheses of C82 are met by this data. -/
example (r : FitResult (WithTop ℚ) ℚ) (hr : exFit exFitData [1, 4] = .ok r) : ∃ lab : ℕ → ℤ,
    dbscanClustering (some r) (some 2) 2 ((2 : ℚ) : WithTop ℚ) = some ((List.range 6).map lab) ∧ lab 1 = -1 := by
  have hrange : InRange 4 (exFitPairs (exFitData.filter Option.isSome)) := by unfold InRange; decide +kernel
  have hinv := kruskalCore_inv (sortEdges_inRange hrange)
  obtain ⟨h1, b, h2, h3⟩ := C08_finish_spanning_tree 4 (by omega) (kruskalCore 4 (sortEdges (exFitPairs (exFitData.filter Option.isSome)))) hinv.rep
    (kruskal_msf hrange).1.forest.acyclic
  obtain ⟨lab, q1, _, q3⟩ := C82_after_missing_values lamq (exFitMst CLParams.none) id (exOpts .eom 0) Option.isSome exFitData
    (exFitData.map fun _ => 1) (by simp) [1, 4] (by decide +kernel) (by decide) (exFitPairs (exFitData.filter Option.isSome)) _ b hrange
    (kruskal_msf hrange).1 h3 h1 (by rw [← h2]; rfl) (fun k => [0, 2, 3, 5].getD k 0) (by
      intro i x hx hf
      have hi : i < 6 := (List.getElem?_eq_some_iff.1 hx).1
      revert hx hf
      interval_cases i <;> intro hx hf <;> cases hx <;> first | rfl | cases hf) r hr (some 2) 2 ((2 : ℚ) : WithTop ℚ)
  exact ⟨lab, q1, q3 1 none rfl rfl (by decide)⟩

/-- With `min_samples=1` each row of NaN is a cluster of its own, although `remap_single_linkage_tree` is documented to make these rows noise. -/
theorem C82_min_samples_one : exDbscan (some 1) ((2 : ℚ) : WithTop ℚ) = some [1, 0, 1, 3, 2, 3] := by decide +kernel

end Verif
