import Verif.Props.ClusterConnected

/-!
# C95: the leaf clustering refines the excess of mass clustering
-/

namespace Verif
variable {W K : Type*}

section
variable [Field K] [LinearOrder K] [IsStrictOrderedRing K] [LinearOrder W] [OrderTop W] [Inhabited W] [Inhabited K]

omit [OrderTop W] in
/-- The stages of a result without epsilon. -/
theorem result_stages {lam : W → K} {wt : ℕ → K} {o : ClusterOpts K} {t : List (Edge W)} (heps : o.epsilon ≤ 0) {r : ClusterResult W K}
    (hr : clustersFromMst lam wt o t = some r) :
    simplifyIf o.persistence (condenseTree (Hier.ofRows (mstToLinkage wt (lexsortMst t))) wt o.minClusterSize none lam) = some r.condensed ∧
      baseSelection o (t.length + 1) r.condensed = some r.selected := by
  unfold clustersFromMst at hr
  simp only at hr
  obtain ⟨rows, e1, hr⟩ := Option.bind_eq_some_iff.1 hr
  obtain ⟨sel0, e2, hr⟩ := Option.bind_eq_some_iff.1 hr
  obtain ⟨sel, e3, hr⟩ := Option.bind_eq_some_iff.1 hr
  obtain ⟨labels, _, hr⟩ := Option.bind_eq_some_iff.1 hr
  obtain ⟨str, _, rfl⟩ := Option.map_eq_some_iff.1 hr
  unfold epsilonIf at e3
  rw [if_neg fun h => absurd h.2 (not_lt.2 heps), Option.some.injEq] at e3
  subst e3
  exact ⟨e1, e2⟩

/-- **C95** (partial).  Cluster a spanning tree with `cluster_selection_method="leaf"` and with `"eom"`, other options as in C63 and no
`cluster_selection_epsilon`.  Then each leaf cluster is within one excess-of-mass cluster: its samples have one label there, not noise.  There are
at least as many leaf clusters.
Missing: `cluster_selection_epsilon > 0`, for which it fails (`C95_epsilon`); the top cluster selected alone together with a
positive persistence. -/
theorem C95_leaf_refines_eom_partial (n : ℕ) (hn : 2 ≤ n) (wt : ℕ → K) (t : List (Edge W)) (ht : SpanningTree n t)
    (o o' : ClusterOpts K) (hleaf : o.method = .leaf) (heom : o'.method = .eom) (hmcs : o'.minClusterSize = o.minClusterSize)
    (hpers : o'.persistence = o.persistence) (heps : o.epsilon ≤ 0) (heps' : o'.epsilon ≤ 0)
    (h1 : 1 < o.minClusterSize) (h0 : ∀ x, x < n → 0 ≤ wt x)
    (hl : ∀ x, x < n → wt x < o.minClusterSize) (lam : W → K) (hlam : Antitone lam) (hpos : ∀ d, 0 ≤ lam d)
    (hper : o.persistence ≤ 0 ∨
      ∃ row ∈ condenseTree (Hier.ofRows (mstToLinkage wt (lexsortMst t))) wt o.minClusterSize none lam, n ≤ row.child)
    (hmax : ∀ rows, simplifyIf o.persistence
      (condenseTree (Hier.ofRows (mstToLinkage wt (lexsortMst t))) wt o.minClusterSize none lam) = some rows →
        LeavesFit n o'.maxClusterSize rows)
    {r r' : ClusterResult W K} (hr : clustersFromMst lam wt o t = some r) (hr' : clustersFromMst lam wt o' t = some r')
    (htop : n ∉ r'.selected ∨ o.persistence ≤ 0) :
    (∀ i : ℤ, i ≠ -1 → i ∈ r.labels → ∃ j : ℤ, 0 ≤ j ∧ ∀ x : ℕ, r.labels[x]? = some i → r'.labels[x]? = some j) ∧
      r'.selected.length ≤ r.selected.length := by
  have hlen := ht.length (by omega)
  have ht' := ht.perm (lexsortMst_perm t)
  obtain ⟨s1, s2⟩ := result_stages heps hr
  obtain ⟨s1', s2'⟩ := result_stages heps' hr'
  rw [hpers, hmcs, s1, Option.some.injEq] at s1'
  rw [hlen] at s2 s2'
  unfold baseSelection at s2 s2'
  rw [hleaf] at s2
  rw [heom, ← s1'] at s2'
  simp only [Option.some.injEq] at s2 s2'
  obtain ⟨rows, k, e1, hct, hbin, hmono, hkind, hlam0, hne⟩ := simplified_tree hn ht h1 h0 hl hlam hpos hper
  rw [s1, Option.some.injEq] at e1
  obtain ⟨q, kq, g1, gct, _, _, _, _, ⟨glab, gmean⟩, _⟩ :=
    C63_clustering_total_partial n hn wt t ht o h1 h0 hl lam hlam hpos hper (.inl hleaf)
  rw [hr, Option.some.injEq] at g1
  subst g1
  obtain ⟨q, kq', g1', gct', gnd', gnn', grange', gempty', ⟨glab', gmean'⟩, _⟩ :=
    C63_clustering_total_partial n hn wt t ht o' (hmcs ▸ h1) h0 (hmcs ▸ hl) lam hlam hpos (by rw [hpers, hmcs]; exact hper)
      (.inr (by rw [hpers, hmcs]; exact hmax))
  rw [hr', Option.some.injEq] at g1'
  subst g1'
  rw [← s1'] at gmean' gnn' gct'
  rw [e1] at s2 s2' gmean gmean' gnn' gct gct'
  have hfit := hmax rows (by rw [← e1]; exact s1)
  obtain ⟨l1, l2, l3, l4⟩ := C20_leaf_selection rows hct hkind
  rw [s2] at l1 l2 l3 l4
  have he : epsLam o'.epsilon = none := by unfold epsLam; rw [if_neg (not_lt.2 heps')]
  have hsel0 : 1 < k → ∀ c ∈ r.selected, ∃ s ∈ r'.selected, CDesc rows s c := by
    intro hk c hc
    obtain ⟨_, hc1, hc2, hc3⟩ := (l3 c).1 hc
    obtain ⟨sel, f1, f2⟩ := C24_leaves_covered_max rows hct hne hkind hk o'.maxClusterSize o'.allowSingle
    rw [s2', Option.some.injEq] at f1
    subst f1
    obtain ⟨s, ⟨f3, f4⟩, _⟩ := f2 c hc1 hc2 hc3 fun m hm row hrow hrc => hfit m hm row hrow (by omega) (hrc ▸ hc3)
    exact ⟨s, f3, f4⟩
  have hrowof : ∀ z, z < n → ∃ row ∈ rows, row.child = z := fun z hz => by
    obtain ⟨row, hrow, h⟩ := List.mem_map.1 ((hct.children z).2 (.inl hz))
    exact ⟨row, hrow, h⟩
  have hkq : kq' = k := gct'.k_unique hct
  rw [hkq] at grange' gempty'
  have hc := hct.clTree hkind
  constructor
  · intro i hi hmem
    obtain ⟨x0, hx0⟩ := List.mem_iff_getElem?.1 hmem
    have hltn : ∀ {z : ℕ}, r.labels[z]? = some i → z < n := fun h => by rw [← glab]; exact (List.getElem?_eq_some_iff.1 h).1
    obtain ⟨row0, hrow0, hc0⟩ := hrowof x0 (hltn hx0)
    have hi1 := (gmean row0 hrow0 (hc0 ▸ hltn hx0)).2.2 i (hc0 ▸ hx0)
    obtain ⟨j, rfl⟩ := Int.eq_ofNat_of_zero_le (show 0 ≤ i by omega)
    have hk : 1 < k := by
      by_contra hk
      have hnil : r.selected = [] := List.eq_nil_iff_forall_not_mem.2 fun c hc => hk ((l3 c).1 hc).1
      have := ((gmean row0 hrow0 (hc0 ▸ hltn hx0)).1 (by rw [hnil]; simp) j).1 (hc0 ▸ hx0)
      rw [hnil] at this
      obtain ⟨_, s, hs, _⟩ := this
      simp at hs
    obtain ⟨first, hfirst, hfp, hfc⟩ : CStep (clusterTree rows) n (n + 1) := hc.first hk
    have hfirst := (List.mem_filter.1 hfirst).1
    have hntop : n ∉ r.selected := fun h => by
      have := ((l3 n).1 h).2.2.2 first hfirst hfp
      omega
    obtain ⟨_, s, hs, _⟩ := ((gmean row0 hrow0 (hc0 ▸ hltn hx0)).1 hntop j).1 (hc0 ▸ hx0)
    have hsel : s ∈ r.selected := (List.perm_insertionSort _ _).mem_iff.1 (List.mem_of_getElem? hs)
    obtain ⟨s', hs', hd⟩ := hsel0 hk s hsel
    have hof : ∀ x : ℕ, r.labels[x]? = some (j : ℤ) → ∃ row ∈ rows, row.child = x ∧ x < n ∧ row.lam ≠ 0 ∧ CDesc rows s x := fun x hx => by
      obtain ⟨row, hrow, rfl⟩ := hrowof x (hltn hx)
      obtain ⟨h3, u, hu, h4⟩ := ((gmean row hrow (hltn hx)).1 hntop j).1 hx
      rw [Option.some.inj (hu.symm.trans hs)] at h4
      exact ⟨row, hrow, rfl, hltn hx, h3, h4⟩
    by_cases hn' : n ∈ r'.selected
    · refine ⟨0, le_rfl, fun x hx => ?_⟩
      obtain ⟨row, hrow, rfl, hxn, hl0, hdx⟩ := hof x hx
      refine ((gmean' row hrow hxn).2.1 hn' 0).2 ⟨rfl, hl0, ?_⟩
      rw [he]
      intro row' hrow' hp
      have hp0 := htop.resolve_left (not_not.2 hn')
      have hT : rows = condenseTree (Hier.ofRows (mstToLinkage wt (lexsortMst t))) wt o.minClusterSize none lam := by
        unfold simplifyIf at s1
        rw [if_neg fun h => absurd h.1 (not_lt.2 hp0), Option.some.injEq] at s1
        exact (s1.trans e1).symm
      obtain ⟨_, _, _, hsep, _⟩ := condense_sep hn ht' (lexsortMst_sorted t) h1 h0 hl hlam hpos
      rw [← hT] at hsep
      -- the child cluster of the top one that holds the sample
      have hsr := (l3 s).1 hsel
      have hns : CDesc rows n s := (hct.desc_clusterTree hkind hsr.2.1).1 (hc.desc_root hsr.2.1 hsr.2.2.1)
      rcases Relation.ReflTransGen.cases_head hns with h3 | ⟨a, ⟨ra, hra, hrp, hrc⟩, h3⟩
      · exact absurd (h3 ▸ hsel) hntop
      · have han : n ≤ ra.child := by
          by_contra hlt
          rcases Relation.ReflTransGen.cases_head (show CDesc rows a s from h3) with h4 | ⟨b, ⟨rb, hrb, hbp, _⟩, _⟩
          · omega
          · have := (hct.parents rb hrb).1; omega
        refine (hsep.last row' hrow' ra hra (hp.trans hrp.symm) han).trans ?_
        rcases Relation.ReflTransGen.cases_tail (show CDesc rows a row.child from h3.trans hdx) with h4 | ⟨b, h4, rb, hrb, hbp, hbc⟩
        · omega
        · rw [← List.inj_on_of_nodup_map hct.nodup hrb hrow hbc]
          exact hmono.desc h4 hra hrc hrb hbp
    · obtain ⟨j', hj'⟩ := List.mem_iff_getElem?.1 ((List.perm_insertionSort (· ≤ ·) r'.selected).mem_iff.2 hs')
      refine ⟨j', by omega, fun x hx => ?_⟩
      obtain ⟨row, hrow, rfl, hxn, hl0, hdx⟩ := hof x hx
      exact ((gmean' row hrow hxn).1 hn' j').2 ⟨hl0, s', hj', hd.trans hdx⟩
  · by_cases hk : 1 < k
    · have hex : ∀ s ∈ r'.selected, ∃ c ∈ r.selected, CDesc rows s c := fun s hs => l4 hk s (grange' s hs).1 (grange' s hs).2
      choose! f hf1 hf2 using hex
      have hinj : ∀ a ∈ r'.selected, ∀ b ∈ r'.selected, f a = f b → a = b := by
        intro a ha b hb hab
        have ha2 := hf2 a ha
        have hb2 := hf2 b hb
        rw [← hab] at hb2
        have hfn := ((l3 _).1 (hf1 a ha)).2.1
        rw [← hct.desc_clusterTree hkind hfn] at ha2 hb2
        rcases hc.comparable ha2 hb2 with h3 | h3
        · exact gnn' a ha b hb ((hct.desc_clusterTree hkind (grange' b hb).1).1 h3)
        · exact (gnn' b hb a ha ((hct.desc_clusterTree hkind (grange' a ha).1).1 h3)).symm
      have hsub : (r'.selected.map f).Subperm r.selected :=
        List.subperm_of_subset (gnd'.map_on hinj) fun c hc' => by
          obtain ⟨s, hs, rfl⟩ := List.mem_map.1 hc'
          exact hf1 s hs
      simpa using hsub.length_le
    · rw [gempty'.2 (by have := hct.pos; omega)]; simp

end

/-! ## A concrete case and a counterexample -/

/-- Two pairs of samples near each other and a third pair far away. -/
def exNear : List (Edge (WithTop ℚ)) :=
  [⟨0, 1, ((1 / 2 : ℚ) : WithTop ℚ)⟩, ⟨2, 3, ((1 / 2 : ℚ) : WithTop ℚ)⟩, ⟨1, 2, ((3 / 5 : ℚ) : WithTop ℚ)⟩,
    ⟨4, 5, ((1 / 2 : ℚ) : WithTop ℚ)⟩, ⟨3, 4, ((5 : ℚ) : WithTop ℚ)⟩]

theorem exNear_tree : SpanningTree 6 exNear := by
  have hstep : ∀ i, i < 5 → Conn exNear i (i + 1) := by
    intro i hi
    interval_cases i
    · exact Conn.edge (e := ⟨0, 1, ((1 / 2 : ℚ) : WithTop ℚ)⟩) (by simp [exNear])
    · exact Conn.edge (e := ⟨1, 2, ((3 / 5 : ℚ) : WithTop ℚ)⟩) (by simp [exNear])
    · exact Conn.edge (e := ⟨2, 3, ((1 / 2 : ℚ) : WithTop ℚ)⟩) (by simp [exNear])
    · exact Conn.edge (e := ⟨3, 4, ((5 : ℚ) : WithTop ℚ)⟩) (by simp [exNear])
    · exact Conn.edge (e := ⟨4, 5, ((1 / 2 : ℚ) : WithTop ℚ)⟩) (by simp [exNear])
  have h0 : ∀ a, a < 6 → Conn exNear a 0 := by
    intro a ha
    induction a with
    | zero => exact Conn.refl _ _
    | succ a ih => exact (hstep a (by omega)).symm.trans (ih (by omega))
  have hconn : ∀ a b, a < 6 → b < 6 → Conn exNear a b := fun a b ha hb => (h0 a ha).trans (h0 b hb).symm
  have hr : InRange 6 exNear := by
    intro e he
    simp only [exNear, List.mem_cons, List.not_mem_nil, or_false] at he
    rcases he with rfl | rfl | rfl | rfl | rfl <;> decide
  exact ⟨hr, acyclic_of_connected hr hconn (by decide), hconn⟩

/-- The hypotheses hold: two of three leaf clusters are in the first excess-of-mass cluster. -/
example : ∃ r r', clustersFromMst lamq (fun _ => 1) (exOpts .leaf 0) exNear = some r ∧ r.labels = [2, 2, 1, 1, 0, 0] ∧
    clustersFromMst lamq (fun _ => 1) (exOpts .eom 0) exNear = some r' ∧ r'.labels = [0, 0, 0, 0, 1, 1] ∧
    (∀ i : ℤ, i ≠ -1 → i ∈ r.labels → ∃ j : ℤ, 0 ≤ j ∧ ∀ x : ℕ, r.labels[x]? = some i → r'.labels[x]? = some j) ∧
    r'.selected.length ≤ r.selected.length := by
  have e1 : (clustersFromMst lamq (fun _ => 1) (exOpts .leaf 0) exNear).map ClusterResult.labels = some [2, 2, 1, 1, 0, 0] := by decide +kernel
  have e2 : (clustersFromMst lamq (fun _ => 1) (exOpts .eom 0) exNear).map ClusterResult.labels = some [0, 0, 0, 0, 1, 1] := by decide +kernel
  obtain ⟨r, hr, e1⟩ := Option.map_eq_some_iff.1 e1
  obtain ⟨r', hr', e2⟩ := Option.map_eq_some_iff.1 e2
  exact ⟨r, r', hr, e1, hr', e2, C95_leaf_refines_eom_partial 6 (by decide) (fun _ => 1) exNear exNear_tree (exOpts .leaf 0) (exOpts .eom 0) rfl rfl rfl rfl
    le_rfl le_rfl (by decide) (by decide) (by decide) lamq lamq_antitone lamq_nonneg (.inl le_rfl) (fun _ _ m hm => nomatch hm) hr hr'
    (.inr le_rfl)⟩

/-- **C95** fails with `cluster_selection_epsilon = 0.4` and `allow_single_cluster`: there are two leaf clusters, and excess of mass selects the top
cluster, in which no sample is dense enough, so that everything is noise. -/
theorem C95_epsilon :
    (clustersFromMst lamq (fun _ => 1) { exSingle with epsilon := 2 / 5, method := .leaf } exBetween).map ClusterResult.labels =
      some [0, 0, 0, 1, 1, 0] ∧
    (clustersFromMst lamq (fun _ => 1) { exSingle with epsilon := 2 / 5 } exBetween).map ClusterResult.labels = some [-1, -1, -1, -1, -1, -1] :=
  ⟨by decide +kernel, by decide +kernel⟩

end Verif
