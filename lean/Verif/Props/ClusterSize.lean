import Verif.Props.ClusterConnected

/-!
# C75: clusters are not smaller than `min_cluster_size`, and every label is used
-/

namespace Verif
variable {W K : Type*}

section
variable [Field K] [LinearOrder K] [IsStrictOrderedRing K] [LinearOrder W] [OrderTop W] [Inhabited W] [Inhabited K]

theorem Clustered.weight {n : ℕ} (hn : 2 ≤ n) {wt : ℕ → K} {t : List (Edge W)} (ht : SpanningTree n t)
    {o : ClusterOpts K} (h1 : 1 < o.minClusterSize) (h0 : ∀ x, x < n → 0 ≤ wt x)
    (hl : ∀ x, x < n → wt x < o.minClusterSize) {lam : W → K} (hlam : Antitone lam)
    (hfin : ∀ e ∈ t, lam e.w ≠ 0) {r : ClusterResult W K} (hr : Clustered n lam wt o t r) (htop : n ∉ r.selected) :
    r.labels.length = n ∧ (∀ l ∈ r.labels, -1 ≤ l ∧ l < r.selected.length) ∧
      ∀ l : ℤ, 0 ≤ l → l < r.selected.length →
        l ∈ r.labels ∧ o.minClusterSize ≤ ((Finset.range n).filter fun x => r.labels[x]? = some l).sum wt := by
  classical
  obtain ⟨hlab, hrange, hcl⟩ := labels_are_clusters n hn wt t ht o h1 h0 hl lam hlam hfin hr htop
  refine ⟨hlab, hrange, fun l hl0 hl1 => ?_⟩
  obtain ⟨j, rfl⟩ := Int.eq_ofNat_of_zero_le hl0
  obtain ⟨row, hrow, hrn, hiff⟩ := hcl j (by omega)
  have ht' := ht.perm (lexsortMst_perm t)
  obtain ⟨hden, _⟩ := C12_linkage_is_dendrogram n (by omega) wt _ ht' (lexsortMst_sorted t)
  obtain ⟨_, _, _, hreal⟩ := C17_condensed_clusters_real n hn wt _ hden o.minClusterSize h0 hl lam
  obtain ⟨g1, g2⟩ := (hreal row hrow).2 hrn.le
  have hw : o.minClusterSize ≤ ((Finset.range n).filter fun x => r.labels[x]? = some (j : ℤ)).sum wt := by
    rw [g2] at g1
    convert g1 using 2
    exact Finset.filter_congr fun x hx => hiff x (Finset.mem_range.1 hx)
  refine ⟨?_, hw⟩
  by_contra hno
  have : ((Finset.range n).filter fun x => r.labels[x]? = some (j : ℤ)) = ∅ :=
    Finset.filter_eq_empty_iff.2 fun x _ h => hno (List.mem_of_getElem? h)
  rw [this, Finset.sum_empty] at hw
  exact absurd (h1.trans_le hw) (not_lt.2 zero_le_one)

/-- **C75** (partial).  Let a spanning tree without infinite edges be clustered, with any options, and the top cluster not be selected.
Then the labels other than noise are exactly the numbers below the number of selected clusters, and the samples of each label weigh at least
`min_cluster_size` together (without sample weights: there are at least `min_cluster_size` of them).
Missing: infinite edges, for which labels may be unused (`C75_infinite_edges`); the top cluster selected alone, whose label may be unused
(`C75_top_cluster_unused`). -/
theorem C75_cluster_weight_partial (n : ℕ) (hn : 2 ≤ n) (wt : ℕ → K) (t : List (Edge W)) (ht : SpanningTree n t)
    (o : ClusterOpts K) (h1 : 1 < o.minClusterSize) (h0 : ∀ x, x < n → 0 ≤ wt x)
    (hl : ∀ x, x < n → wt x < o.minClusterSize) (lam : W → K) (hlam : Antitone lam) (hpos : ∀ d, 0 ≤ lam d)
    (hfin : ∀ e ∈ t, lam e.w ≠ 0) {r : ClusterResult W K} (hr : clustersFromMst lam wt o t = some r) (htop : n ∉ r.selected) :
    r.labels.length = n ∧ (∀ l ∈ r.labels, -1 ≤ l ∧ l < r.selected.length) ∧
      ∀ l : ℤ, 0 ≤ l → l < r.selected.length →
        l ∈ r.labels ∧ o.minClusterSize ≤ ((Finset.range n).filter fun x => r.labels[x]? = some l).sum wt :=
  Clustered.weight hn ht h1 h0 hl hlam hfin (clustered_of_mst hn ht h1 h0 hl hlam hpos hr) htop

/-- **C75** without sample weights: every label is given to at least `min_cluster_size` samples. -/
theorem C75_cluster_count_partial (n : ℕ) (hn : 2 ≤ n) (t : List (Edge W)) (ht : SpanningTree n t)
    (o : ClusterOpts K) (m : ℕ) (hm : o.minClusterSize = m) (h1 : 2 ≤ m) (lam : W → K) (hlam : Antitone lam) (hpos : ∀ d, 0 ≤ lam d)
    (hfin : ∀ e ∈ t, lam e.w ≠ 0) {r : ClusterResult W K} (hr : clustersFromMst lam (fun _ => 1) o t = some r) (htop : n ∉ r.selected)
    (l : ℤ) (hl : l ∈ r.labels) (h0 : l ≠ -1) : m ≤ r.labels.count l := by
  have hmK : (1 : K) < o.minClusterSize := by
    rw [hm]; exact_mod_cast h1
  obtain ⟨hlab, hrange, h⟩ := C75_cluster_weight_partial n hn (fun _ => 1) t ht o hmK (fun _ _ => zero_le_one) (fun _ _ => hmK) lam hlam hpos
    hfin hr htop
  have hb := hrange l hl
  obtain ⟨_, hw⟩ := h l (by omega) hb.2
  rw [Finset.sum_const, nsmul_eq_mul, mul_one, hm] at hw
  have hw : m ≤ ((Finset.range n).filter fun x => r.labels[x]? = some l).card := by exact_mod_cast hw
  refine hw.trans (le_of_eq ?_)
  rw [← hlab]
  clear hw h hrange hb hl hr htop hlab h0
  induction r.labels using List.reverseRecOn with
  | nil => rfl
  | append_singleton as a ih =>
    rw [List.length_append, List.length_singleton, Finset.range_add_one, Finset.filter_insert, List.count_append]
    have e : (Finset.range as.length).filter (fun x => (as ++ [a])[x]? = some l) = (Finset.range as.length).filter fun x => as[x]? = some l :=
      Finset.filter_congr fun x hx => by rw [List.getElem?_append_left (Finset.mem_range.1 hx)]
    rw [e]
    by_cases ha : a = l
    · subst ha
      rw [if_pos (by simp), Finset.card_insert_of_notMem (by simp), ih, List.count_singleton_self]
    · rw [if_neg (by simpa using ha), ih, List.count_singleton, if_neg (by simpa using ha), add_zero]

open Classical in
/-- The samples that are together with sample `x` when it leaves the condensed tree: they weigh at least `min_cluster_size` (unless nothing
does), none leaves earlier than `x`, and all are in every cluster that `x` is in. -/
theorem condense_together {n : ℕ} (hn : 2 ≤ n) {wt : ℕ → K} {t : List (Edge W)} (ht : SpanningTree n t)
    (hs : t.Pairwise fun a b => a.w ≤ b.w) {mcs : K} (h0 : ∀ x, x < n → 0 ≤ wt x) (hl : ∀ x, x < n → wt x < mcs) {lam : W → K}
    (hlam : Antitone lam) (htot : mcs ≤ (Finset.range n).sum wt) :
    let T := condenseTree (Hier.ofRows (mstToLinkage wt t)) wt mcs none lam
    ∀ row ∈ T, row.child < n → ∃ G : Finset ℕ, G ⊆ Finset.range n ∧ mcs ≤ G.sum wt ∧
      (∀ row' ∈ T, row'.child ∈ G → row.lam ≤ row'.lam) ∧ ∀ c, n ≤ c → CDesc T c row.child → ∀ z ∈ G, CDesc T c z := by
  intro T row hrow hc
  obtain ⟨hden, _, hheight, _⟩ := C12_linkage_is_dendrogram n (by omega) wt t ht hs
  have hHn := hden.hier_n
  have hh := hden.condHyp h0 hl
  have hm : 0 < (Hier.ofRows (mstToLinkage wt t)).m := by
    have := hden.length; change 0 < (mstToLinkage wt t).length; omega
  obtain ⟨k, relabel, top, hr⟩ := condense_res (mx := none) hh hm lam
  have hct : CondTree n k T := by have := hr.condTree; rwa [hHn] at this
  set H := Hier.ofRows (mstToLinkage wt t) with hH
  obtain ⟨v, hv, _, hlamv, _⟩ := hr.rows_pt row hrow (by omega)
  refine ⟨(Finset.range n).filter fun x => H.Sub v x, Finset.filter_subset _ _, ?_, fun row' hrow' hz => ?_, fun c hcn hcx z hz => ?_⟩
  · rcases hv.1.2.2 with h | h
    · have : ((Finset.range n).filter fun x => H.Sub v x) = Finset.range n := by
        refine Finset.filter_true_of_mem fun x hx => ?_
        rw [h]
        have := H.root_eq
        exact Hier.sub_root hh.valid (by have := Finset.mem_range.1 hx; omega)
      rw [this]; exact htot
    · rw [← hden.count_eq hv.1.2.1]; exact h
  · obtain ⟨hzn, hzv⟩ := Finset.mem_filter.1 hz
    have hzn := Finset.mem_range.1 hzn
    obtain ⟨v', hv', _, hlamv', _⟩ := hr.rows_pt row' hrow' (by omega)
    obtain ⟨w, hw, hvw⟩ := exists_home hh hv.1 (by omega) hzv
    rw [Home.unique hh hw hv'] at hvw
    rw [hlamv, hlamv']
    exact hlam (hvw.height hh.valid (ofRows_height hheight) hv'.1.1 hv.1.2.1)
  · obtain ⟨hzn, hzv⟩ := Finset.mem_filter.1 hz
    have hzn := Finset.mem_range.1 hzn
    have hck : c < n + k := by
      rcases Relation.ReflTransGen.cases_head hcx with h2 | ⟨d, ⟨q, hq, h3, _⟩, _⟩
      · omega
      · have := (hct.parents q hq).2; omega
    have h1 := (hr.below_iff hh (by omega) (by omega) (by omega)).1 hcx
    obtain ⟨w, hw, hcw⟩ := exists_home hh (hr.tops c (by omega) (by omega)).1 (by omega) h1
    rw [Home.unique hh hw hv] at hcw
    exact (hr.below_iff hh (by omega) (by omega) (by omega)).2 (hcw.trans hzv)

theorem Clustered.used {n : ℕ} (hn : 2 ≤ n) {wt : ℕ → K} {t : List (Edge W)} (ht : SpanningTree n t)
    {o : ClusterOpts K} (h1 : 1 < o.minClusterSize) (h0 : ∀ x, x < n → 0 ≤ wt x)
    (hl : ∀ x, x < n → wt x < o.minClusterSize) {lam : W → K} (hlam : Antitone lam) (hpos : ∀ d, 0 ≤ lam d)
    (hper : o.persistence ≤ 0)
    {r : ClusterResult W K} (hr : Clustered n lam wt o t r) {l : ℤ} (hl0 : l ≠ -1) (hmem : l ∈ r.labels) :
    o.minClusterSize ≤ ((Finset.range n).filter fun x => r.labels[x]? = some l).sum wt := by
  classical
  have ht' := ht.perm (lexsortMst_perm t)
  have hsimp0 : simplifyIf o.persistence (condenseTree (Hier.ofRows (mstToLinkage wt (lexsortMst t))) wt o.minClusterSize none lam) =
      some (condenseTree (Hier.ofRows (mstToLinkage wt (lexsortMst t))) wt o.minClusterSize none lam) := by
    unfold simplifyIf
    rw [if_neg fun h => absurd h.1 (not_lt.2 hper)]
  obtain ⟨k, hct, _, _, g4, _, g5, ⟨hlab, hmean⟩, _⟩ := hr.tree
  have hcond : r.condensed = condenseTree (Hier.ofRows (mstToLinkage wt (lexsortMst t))) wt o.minClusterSize none lam :=
    Option.some.inj (hr.simp.symm.trans hsimp0)
  obtain ⟨hden, _⟩ := C12_linkage_is_dendrogram n (by omega) wt _ ht' (lexsortMst_sorted t)
  obtain ⟨_, _, _, hreal⟩ := C17_condensed_clusters_real n hn wt _ hden o.minClusterSize h0 hl lam
  have htog := condense_together (mcs := o.minClusterSize) hn ht' (lexsortMst_sorted t) h0 hl hlam
  have hnonneg := (condense_sep hn ht' (lexsortMst_sorted t) h1 h0 hl hlam hpos)
  obtain ⟨_, _, _, hsep, _⟩ := hnonneg
  have hlam0 := hsep.nonneg
  simp only at htog hreal hlam0
  rw [← hcond] at htog hreal hlam0
  -- the sample with the label
  obtain ⟨x, hx⟩ := List.mem_iff_getElem?.1 hmem
  have hxn : x < n := by rw [← hlab]; exact (List.getElem?_eq_some_iff.1 hx).1
  obtain ⟨row, hrow, rfl⟩ := List.mem_map.1 ((hct.children x).2 (.inl hxn))
  obtain ⟨m1, m2, m3⟩ := hmean row hrow hxn
  have hge := m3 l hx
  obtain ⟨j, rfl⟩ := Int.eq_ofNat_of_zero_le (show 0 ≤ l by omega)
  have hsel : r.selected ≠ [] := by
    intro he
    have := (m1 (by rw [he]; simp) j).1 hx
    rw [he] at this
    obtain ⟨_, s, hs, _⟩ := this
    simp at hs
  have hk : 1 < k := by
    have := hct.pos
    have : k ≠ 1 := fun h => hsel (g5 h)
    omega
  have htot : o.minClusterSize ≤ (Finset.range n).sum wt := by
    obtain ⟨q, hq, hqc⟩ := List.mem_map.1 ((hct.children (n + 1)).2 (.inr ⟨by omega, by omega⟩))
    obtain ⟨q1, q2⟩ := (hreal q hq).2 (by omega)
    rw [q2] at q1
    exact q1.trans (Finset.sum_le_sum_of_subset_of_nonneg (Finset.filter_subset _ _) fun i hi _ => h0 i (Finset.mem_range.1 hi))
  obtain ⟨G, G1, G2, G3, G4⟩ := htog htot row hrow hxn
  refine G2.trans (Finset.sum_le_sum_of_subset_of_nonneg (fun z hz => ?_) fun i hi _ => h0 i (Finset.mem_range.1 (Finset.mem_filter.1 hi).1))
  refine Finset.mem_filter.2 ⟨G1 hz, ?_⟩
  have hzn := Finset.mem_range.1 (G1 hz)
  obtain ⟨row', hrow', rfl⟩ := List.mem_map.1 ((hct.children z).2 (.inl hzn))
  have hle := G3 row' hrow' hz
  have hne : row.lam ≠ 0 → row'.lam ≠ 0 := fun h => (lt_of_lt_of_le (lt_of_le_of_ne (hlam0 row hrow) (Ne.symm h)) hle).ne'
  obtain ⟨m1', m2', _⟩ := hmean row' hrow' hzn
  by_cases htop : n ∈ r.selected
  · obtain ⟨a, b, c⟩ := (m2 htop j).1 hx
    refine (m2' htop j).2 ⟨a, hne b, ?_⟩
    unfold DenseEnough at c ⊢
    cases h : epsLam o.epsilon with
    | none => rw [h] at c; exact fun q hq hp => (c q hq hp).trans hle
    | some e => rw [h] at c; exact le_trans c hle
  · obtain ⟨a, s, b, c⟩ := (m1 htop j).1 hx
    have hs : s ∈ r.selected := (List.perm_insertionSort _ _).mem_iff.1 (List.mem_of_getElem? b)
    exact (m1' htop j).2 ⟨hne a, s, b, G4 s (g4 s hs).1 c _ hz⟩

/-- **C75** for the labels that are given: any options, infinite edges and the top cluster allowed, but no persistence.  The samples of each label other than
noise weigh at least `min_cluster_size` together.
Missing: a positive persistence (`C75_cluster_weight_partial` covers it when no edge is infinite and the top cluster is not selected). -/
theorem C75_used_labels_partial (n : ℕ) (hn : 2 ≤ n) (wt : ℕ → K) (t : List (Edge W)) (ht : SpanningTree n t)
    (o : ClusterOpts K) (h1 : 1 < o.minClusterSize) (h0 : ∀ x, x < n → 0 ≤ wt x)
    (hl : ∀ x, x < n → wt x < o.minClusterSize) (lam : W → K) (hlam : Antitone lam) (hpos : ∀ d, 0 ≤ lam d)
    (hper : o.persistence ≤ 0)
    {r : ClusterResult W K} (hr : clustersFromMst lam wt o t = some r) (l : ℤ) (hl0 : l ≠ -1) (hmem : l ∈ r.labels) :
    o.minClusterSize ≤ ((Finset.range n).filter fun x => r.labels[x]? = some l).sum wt :=
  Clustered.used hn ht h1 h0 hl hlam hpos hper (clustered_of_mst hn ht h1 h0 hl hlam hpos hr) hl0 hmem

end

/-! ## Concrete cases and counterexamples -/

/-- The hypotheses hold for the five samples in two groups. -/
example : ∀ r, clustersFromMst lamq (fun _ => 1) (exOpts .eom 0) exFive = some r → ∀ l ∈ r.labels, l ≠ -1 → 2 ≤ r.labels.count l := by
  intro r hr l hl h0
  refine C75_cluster_count_partial 5 (by decide) exFive exFive_tree (exOpts .eom 0) 2 (by decide) le_rfl lamq lamq_antitone lamq_nonneg
    (by decide +kernel) hr ?_ l hl h0
  have : (clustersFromMst lamq (fun _ => 1) (exOpts .eom 0) exFive).map ClusterResult.selected = some [6, 7] := by decide +kernel
  rw [hr, Option.map_some, Option.some.injEq] at this
  rw [this]; decide

/-- The hypotheses of `C75_used_labels_partial` hold for them when the top cluster may be selected, and it is. -/
example : ∃ r, clustersFromMst lamq (fun _ => 1) { exSingle with epsilon := 1 } exFive = some r ∧ r.selected = [5] ∧
    ∀ l ∈ r.labels, l ≠ -1 → 2 ≤ ((Finset.range 5).filter fun x => r.labels[x]? = some l).sum fun _ => (1 : ℚ) := by
  have hs : (clustersFromMst lamq (fun _ => 1) { exSingle with epsilon := 1 } exFive).map ClusterResult.selected = some [5] := by
    decide +kernel
  obtain ⟨r, hr, hs⟩ := Option.map_eq_some_iff.1 hs
  exact ⟨r, hr, hs, fun l hl h0 => C75_used_labels_partial 5 (by decide) (fun _ => 1) exFive exFive_tree { exSingle with epsilon := 1 }
    (by decide) (by decide) (by decide) lamq lamq_antitone lamq_nonneg (by decide) hr l h0 hl⟩

/-- **C75** fails when the top cluster is selected alone: with `allow_single_cluster` and `cluster_selection_epsilon = 0.4` it is selected,
but no sample leaves late enough, and its label is not given. -/
theorem C75_top_cluster_unused :
    (clustersFromMst lamq (fun _ => 1) { exSingle with epsilon := 2 / 5 } exBetween).map ClusterResult.labels = some [-1, -1, -1, -1, -1, -1] ∧
    (clustersFromMst lamq (fun _ => 1) { exSingle with epsilon := 2 / 5 } exBetween).map ClusterResult.selected = some [6] :=
  ⟨by decide +kernel, by decide +kernel⟩

/-- **C75** fails with infinite edges: with `min_cluster_size = 3`, two clusters are selected, `{0, 1, 2, 3}` of pairs at infinite distance
and `{4, 5, 6}`; label 0 is given to no sample. -/
theorem C75_infinite_edges :
    (clustersFromMst lamq (fun _ => 1) { exOpts .leaf 0 with minClusterSize := 3 } exGapTree).map ClusterResult.labels =
      some [-1, -1, -1, -1, 1, 1, 1] ∧
    (clustersFromMst lamq (fun _ => 1) { exOpts .leaf 0 with minClusterSize := 3 } exGapTree).map ClusterResult.selected = some [8, 9] :=
  ⟨by decide +kernel, by decide +kernel⟩

end Verif
