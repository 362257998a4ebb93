import Verif.Lemmas.SemiBase
import Verif.Props.RawFit

/-!
# Property C102: semi-supervised clustering of a spanning tree, and `fit` with class labels
-/

namespace Verif
variable {W K : Type*}

section
variable [Field K] [LinearOrder K] [IsStrictOrderedRing K] [LinearOrder W] [OrderTop W] [Inhabited W] [Inhabited K]

/-- Up to the labels, semi-supervised clustering succeeds when there is a split or no persistence. -/
theorem ss_stages {n : ℕ} (hn : 2 ≤ n) {wt : ℕ → K} {t : List (Edge W)} (ht : SpanningTree n t)
    {o : ClusterOpts K} (h1 : 1 < o.minClusterSize) (h0 : ∀ x, x < n → 0 ≤ wt x)
    (hl : ∀ x, x < n → wt x < o.minClusterSize) {lam : W → K} (hlam : Antitone lam) (hpos : ∀ d, 0 ≤ lam d)
    {m : ℕ} (hm : m ≤ n) (lab : ℕ → ℤ) (v : Bool)
    (hper : o.persistence ≤ 0 ∨
      ∃ row ∈ condenseTree (Hier.ofRows (mstToLinkage wt (lexsortMst t))) wt o.minClusterSize none lam, n ≤ row.child) :
    ∃ rows k sel0 sel, simplifyIf o.persistence (condenseTree (Hier.ofRows (mstToLinkage wt (lexsortMst t))) wt o.minClusterSize none lam) = some rows ∧
      CondTree n k rows ∧ (∀ row ∈ rows, 0 ≤ row.lam) ∧ rows ≠ [] ∧
      baseSelectionSS o v m lab n rows = some sel0 ∧ epsilonIf o.epsilon rows sel0 = some sel ∧
      sel.Nodup ∧ NonNested rows sel ∧ (∀ c ∈ sel, n ≤ c ∧ c < n + k) ∧ (n ∈ sel → sel = [n]) ∧ (k = 1 → sel = []) ∧
      (o.method = .leaf ∨ o.allowSingle = false → n ∉ sel0) ∧
      (o.method = .leaf ∨ (∀ x, x < n → wt x ≤ 1) → (sel = [] ∨ sel = [n] ∨ 1 < sel.length ∧ ∀ c ∈ sel, n < c) ∧ (sel = [] ↔ k = 1)) ∧
      clustersFromMstSS lam wt o v m lab t = (labelVector rows sel (epsLam o.epsilon) n).bind fun labels =>
        (strengthVector (rows.map fun row => ⟨row.parent, row.child, (row.lam : WithTop K), row.size⟩) sel labels).map
          fun strengths => ⟨labels, strengths, mstToLinkage wt (lexsortMst t), rows, lexsortMst t, sel⟩ := by
  classical
  have hlen := ht.length (by omega)
  obtain ⟨rows, k, hs, hct, hbin, hmono, hkind, hlamr, hne⟩ := simplified_tree hn ht h1 h0 hl hlam hpos hper
  obtain ⟨hone, hfull, hsize⟩ := simplified_sizes hn ht h1 h0 hl hlam hs hct
  obtain ⟨sel0, g1, g2, g3, g4, g5, g6, g7⟩ := hct.base_ss hkind hone hfull hm lab v o
  obtain ⟨sel, e1, e2, e3, e4, e5, e6⟩ := hct.epsilon_any hkind hbin hmono o.epsilon g2 g3 g4 g5
  refine ⟨rows, k, sel0, sel, hs, hct, hlamr, hne, g1, e1, e2, e3, e4, e5, e6, g6, fun hw => ?_, ?_⟩
  · obtain ⟨sel', e1', _, _, _, e7, e8⟩ := hct.epsilon_total hkind hbin hmono o.epsilon g2 g3 g4 g5 (g7 (hw.imp_right fun hw1 c hc hck hch => by
      refine hct.stability_nonneg hone hmono hlamr hc hch fun row hrow hrc => ?_
      -- the samples below a cluster without child clusters are its rows
      set A := ((rows.filter fun row => decide (row.parent = c)).map CRow.child).toFinset with hA
      have hmemA : ∀ x, x ∈ A ↔ x < n ∧ CDesc rows row.child x := by
        intro x
        rw [hA, List.mem_toFinset, List.mem_map, hrc]
        constructor
        · rintro ⟨q, hq, rfl⟩
          obtain ⟨hq, hp⟩ := List.mem_filter.1 hq
          have hp := of_decide_eq_true hp
          exact ⟨hch q hq hp, .single ⟨q, hq, hp, rfl⟩⟩
        · rintro ⟨hx, hd⟩
          rcases Relation.ReflTransGen.cases_head hd with h3 | ⟨d, ⟨q, hq, h4, h5⟩, hd'⟩
          · omega
          · have hdn : d < n := h5 ▸ hch q hq h4
            have := (hct.desc_sample hdn).1 hd'
            exact ⟨q, List.mem_filter.2 ⟨hq, decide_eq_true h4⟩, by omega⟩
      rw [hsize row hrow (by omega) A hmemA]
      calc A.sum wt ≤ A.sum fun _ => (1 : K) := Finset.sum_le_sum fun x hx => hw1 x ((hmemA x).1 hx).1
        _ = (A.card : K) := by simp
        _ ≤ _ := by
          have : A.card ≤ (rows.filter fun row => decide (row.parent = c)).length := by
            rw [hA]; exact (List.toFinset_card_le _).trans (by simp)
          exact_mod_cast this))
    rw [e1, Option.some.injEq] at e1'
    subst e1'
    exact ⟨e7, e8⟩
  · unfold clustersFromMstSS
    simp only [hlen]
    rw [hs, Option.bind_some, g1, Option.bind_some, e1, Option.bind_some]

/-- **C102**, exactly when semi-supervised clustering fails: as C63, with the semi-supervised selection. -/
theorem C102_fails_iff (n : ℕ) (hn : 2 ≤ n) (wt : ℕ → K) (t : List (Edge W)) (ht : SpanningTree n t)
    (o : ClusterOpts K) (h1 : 1 < o.minClusterSize) (h0 : ∀ x, x < n → 0 ≤ wt x)
    (hl : ∀ x, x < n → wt x < o.minClusterSize) (lam : W → K) (hlam : Antitone lam) (hpos : ∀ d, 0 ≤ lam d)
    (m : ℕ) (hm : m ≤ n) (lab : ℕ → ℤ) (v : Bool) :
    clustersFromMstSS lam wt o v m lab t = none ↔
      (0 < o.persistence ∧ ∀ row ∈ condenseTree (Hier.ofRows (mstToLinkage wt (lexsortMst t))) wt o.minClusterSize none lam, row.child < n) ∨
      ∃ rows sel c row, simplifyIf o.persistence (condenseTree (Hier.ofRows (mstToLinkage wt (lexsortMst t))) wt o.minClusterSize none lam) = some rows ∧
        baseSelectionSS o v m lab n rows = some sel ∧ epsilonIf o.epsilon rows sel = some [c] ∧ n < c ∧
        row ∈ rows ∧ row.child < n ∧ row.lam ≠ 0 ∧ ¬ CDesc rows c row.child ∧ DenseEnough n rows (epsLam o.epsilon) row := by
  by_cases hsplit : o.persistence ≤ 0 ∨
      ∃ row ∈ condenseTree (Hier.ofRows (mstToLinkage wt (lexsortMst t))) wt o.minClusterSize none lam, n ≤ row.child
  · obtain ⟨rows, k, sel0, sel, hs, hct, hlamr, hne, g1, g2, g3, g4, g5, g6, _, _, _, hval⟩ := ss_stages hn ht h1 h0 hl hlam hpos hm lab v hsplit
    rw [hval]
    constructor
    · intro hnone
      right
      by_contra hno
      obtain ⟨labels, str, e1, e2, _⟩ := hct.labels_safe hne hlamr sel g3 g4 (epsLam o.epsilon) (by
        by_cases htop : n ∈ sel
        · exact .inr (.inl (g6 htop))
        · refine .inr (.inr ⟨fun c hc => lt_of_le_of_ne (g5 c hc).1 fun he => htop (he ▸ hc), fun hlen1 row hrow hx hl0 hd hdense => ?_⟩)
          obtain ⟨c, rfl⟩ := List.length_eq_one_iff.1 hlen1
          exact hno ⟨rows, sel0, c, row, hs, g1, g2, lt_of_le_of_ne (g5 c (by simp)).1 fun he => htop (by simp [he]), hrow, hx, hl0, hd c (by simp), hdense⟩)
      rw [e1, Option.bind_some, e2] at hnone
      cases hnone
    · rintro (⟨h3, h4⟩ | ⟨rows', sel', c, row, a1, a2, a3, a4, a5, a6, a7, a8, a9⟩)
      · rcases hsplit with h5 | ⟨row, h5, h6⟩
        · exact absurd h3 (not_lt.2 h5)
        · exact absurd (h4 row h5) (not_lt.2 h6)
      · obtain rfl := Option.some.inj (hs.symm.trans a1)
        obtain rfl := Option.some.inj (g1.symm.trans a2)
        obtain rfl := Option.some.inj (g2.symm.trans a3)
        rw [C26_key_error rows hct c a4 (epsLam o.epsilon) row a5 a6 a7 a8 a9]
        rfl
  · push Not at hsplit
    refine ⟨fun _ => .inl hsplit, fun _ => ?_⟩
    have hsimp : simplifyIf o.persistence
        (condenseTree (Hier.ofRows (mstToLinkage wt (lexsortMst t))) wt o.minClusterSize none lam) = none := by
      by_contra hno
      obtain ⟨rows, hrows⟩ := Option.ne_none_iff_exists'.1 hno
      have hbad := C63_persistence_fails n hn wt t ht { o with method := .leaf, epsilon := 0 } h1 h0 hl lam hlam hsplit.1 hsplit.2
      have ht' := ht.perm (lexsortMst_perm t)
      obtain ⟨k0, hct0, _, _, hkind0, _⟩ :=
        C54_applies n hn wt _ ht' (lexsortMst_sorted t) o.minClusterSize h1 h0 hl lam hlam
      have hk1 : k0 = 1 := by
        by_contra hk
        have := hct0.pos
        obtain ⟨row, hr, he⟩ := List.mem_map.1 ((hct0.children (n + 1)).2 (.inr ⟨by omega, by omega⟩))
        have := hsplit.2 row hr
        omega
      subst hk1
      obtain ⟨row, hr, _⟩ := List.mem_map.1 ((hct0.children 0).2 (.inl (by omega)))
      unfold simplifyIf at hrows
      rw [if_pos ⟨hsplit.1, List.length_pos_of_mem hr⟩, C54_undefined o.persistence n _ hct0 hkind0] at hrows
      cases hrows
    unfold clustersFromMstSS
    simp only
    rw [hsimp]
    rfl

/-- **C102**: semi-supervised clustering with any options, class labels and weights, whenever it returns: the selected clusters are clusters of the
returned condensed tree, none nested in another; if the top one is selected there is no other; the labels mean what they should; strengths lie in
`[0, 1]` and are 0 for noise. -/
theorem C102_returned (n : ℕ) (hn : 2 ≤ n) (wt : ℕ → K) (t : List (Edge W)) (ht : SpanningTree n t)
    (o : ClusterOpts K) (h1 : 1 < o.minClusterSize) (h0 : ∀ x, x < n → 0 ≤ wt x)
    (hl : ∀ x, x < n → wt x < o.minClusterSize) (lam : W → K) (hlam : Antitone lam) (hpos : ∀ d, 0 ≤ lam d)
    (m : ℕ) (hm : m ≤ n) (lab : ℕ → ℤ) (v : Bool) {r : ClusterResult W K} (hr : clustersFromMstSS lam wt o v m lab t = some r) :
    ∃ k, CondTree n k r.condensed ∧ r.selected.Nodup ∧
      NonNested r.condensed r.selected ∧ (∀ c ∈ r.selected, n ≤ c ∧ c < n + k) ∧ (n ∈ r.selected → r.selected = [n]) ∧ (k = 1 → r.selected = []) ∧
      LabelsMean n r.condensed r.selected (epsLam o.epsilon) r.labels ∧
      ∀ x, x < n → 0 ≤ r.strengths x ∧ r.strengths x ≤ 1 ∧ (r.labels[x]? = some (-1) → r.strengths x = 0) := by
  have hnf := (C102_fails_iff n hn wt t ht o h1 h0 hl lam hlam hpos m hm lab v).not.1 (by rw [hr]; simp)
  push Not at hnf
  obtain ⟨hsplit, hkey⟩ := hnf
  obtain ⟨rows, k, sel0, sel, hs, hct, hlamr, hne, g1, g2, g3, g4, g5, g6, g7, _, _, hval⟩ := ss_stages hn ht h1 h0 hl hlam hpos hm lab v
    ((le_or_gt o.persistence 0).imp_right hsplit)
  obtain ⟨labels, str, e1, e2, e3, e4⟩ := hct.labels_safe hne hlamr sel g3 g4 (epsLam o.epsilon) (by
    by_cases htop : n ∈ sel
    · exact .inr (.inl (g6 htop))
    · refine .inr (.inr ⟨fun c hc => lt_of_le_of_ne (g5 c hc).1 fun he => htop (he ▸ hc), fun hlen1 row hrow hx hl0 hd => ?_⟩)
      obtain ⟨c, rfl⟩ := List.length_eq_one_iff.1 hlen1
      exact hkey rows sel0 c row hs g1 g2 (lt_of_le_of_ne (g5 c (by simp)).1 fun he => htop (by simp [he])) hrow hx hl0 (hd c (by simp)))
  rw [e1, Option.bind_some, e2, Option.map_some] at hval
  obtain rfl := Option.some.inj (hr.symm.trans hval)
  refine ⟨k, hct, g3, g4, g5, g6, g7, e3, fun x hx => ?_⟩
  obtain ⟨row, hrow, rfl⟩ := List.mem_map.1 ((hct.children x).2 (.inl hx))
  exact e4 row hrow hx

theorem clustered_of_ss {n : ℕ} (hn : 2 ≤ n) {wt : ℕ → K} {t : List (Edge W)} (ht : SpanningTree n t)
    {o : ClusterOpts K} (h1 : 1 < o.minClusterSize) (h0 : ∀ x, x < n → 0 ≤ wt x)
    (hl : ∀ x, x < n → wt x < o.minClusterSize) {lam : W → K} (hlam : Antitone lam) (hpos : ∀ d, 0 ≤ lam d)
    {m : ℕ} (hm : m ≤ n) {lab : ℕ → ℤ} {v : Bool} {r : ClusterResult W K} (hr : clustersFromMstSS lam wt o v m lab t = some r) :
    Clustered n lam wt o t r := by
  have hnf := (C102_fails_iff n hn wt t ht o h1 h0 hl lam hlam hpos m hm lab v).not.1 (by rw [hr]; simp)
  push Not at hnf
  refine ⟨?_, (le_or_gt o.persistence 0).imp_right hnf.1, C102_returned n hn wt t ht o h1 h0 hl lam hlam hpos m hm lab v hr, ?_⟩ <;>
  (unfold clustersFromMstSS at hr
   simp only at hr
   obtain ⟨rows, e1, hr⟩ := Option.bind_eq_some_iff.1 hr
   obtain ⟨sel0, _, hr⟩ := Option.bind_eq_some_iff.1 hr
   obtain ⟨sel, _, hr⟩ := Option.bind_eq_some_iff.1 hr
   obtain ⟨labels, _, hr⟩ := Option.bind_eq_some_iff.1 hr
   obtain ⟨str, e2, rfl⟩ := Option.map_eq_some_iff.1 hr
   first | exact e1 | exact ⟨_, e2⟩)

/-- **C102** (partial): with sample weights of at most 1, and no persistence or a split, semi-supervised clustering returns for all class labels, both selection
methods, both values of `ss_algorithm`, any epsilon, `allow_single_cluster` and `max_cluster_size`; there is no cluster only if nothing splits.
Missing: weights above 1 with excess of mass (`C102_weights_fail`); persistence without a split. -/
theorem C102_total_partial (n : ℕ) (hn : 2 ≤ n) (wt : ℕ → K) (t : List (Edge W)) (ht : SpanningTree n t)
    (o : ClusterOpts K) (h1 : 1 < o.minClusterSize) (h0 : ∀ x, x < n → 0 ≤ wt x)
    (hl : ∀ x, x < n → wt x < o.minClusterSize) (lam : W → K) (hlam : Antitone lam) (hpos : ∀ d, 0 ≤ lam d)
    (m : ℕ) (hm : m ≤ n) (lab : ℕ → ℤ) (v : Bool) (hw : o.method = .leaf ∨ ∀ x, x < n → wt x ≤ 1)
    (hper : o.persistence ≤ 0 ∨
      ∃ row ∈ condenseTree (Hier.ofRows (mstToLinkage wt (lexsortMst t))) wt o.minClusterSize none lam, n ≤ row.child) :
    ∃ r, clustersFromMstSS lam wt o v m lab t = some r ∧ (r.selected = [] ↔ ∀ row ∈ r.condensed, row.child < n) ∧
      (r.selected = [] ∨ r.selected = [n] ∨ 1 < r.selected.length ∧ ∀ c ∈ r.selected, n < c) := by
  obtain ⟨rows, k, sel0, sel, hs, hct, hlamr, hne, g1, g2, g3, g4, g5, g6, g7, _, g8, hval⟩ := ss_stages hn ht h1 h0 hl hlam hpos hm lab v hper
  obtain ⟨labels, str, e1, e2, e3, e4⟩ := hct.labels_total hne hlamr sel g3 g4 (epsLam o.epsilon) (g8 hw).1
  rw [e1, Option.bind_some, e2, Option.map_some] at hval
  refine ⟨_, hval, ?_, (g8 hw).1⟩
  simp only
  rw [(g8 hw).2]
  constructor
  · rintro rfl row hrow
    have := (hct.children row.child).1 (List.mem_map_of_mem hrow)
    omega
  · intro h
    by_contra hk
    have := hct.pos
    obtain ⟨row, hr, he⟩ := List.mem_map.1 ((hct.children (n + 1)).2 (.inr ⟨by omega, by omega⟩))
    have := h row hr
    omega

/-- **C102**: the whole data set is not a cluster unless `allow_single_cluster` or an epsilon is given. -/
theorem C102_not_all (n : ℕ) (hn : 2 ≤ n) (wt : ℕ → K) (t : List (Edge W)) (ht : SpanningTree n t)
    (o : ClusterOpts K) (h1 : 1 < o.minClusterSize) (h0 : ∀ x, x < n → 0 ≤ wt x)
    (hl : ∀ x, x < n → wt x < o.minClusterSize) (lam : W → K) (hlam : Antitone lam) (hpos : ∀ d, 0 ≤ lam d)
    (m : ℕ) (hm : m ≤ n) (lab : ℕ → ℤ) (v : Bool) {r : ClusterResult W K} (hr : clustersFromMstSS lam wt o v m lab t = some r)
    (hsingle : o.method = .leaf ∨ o.allowSingle = false) (heps : o.epsilon ≤ 0) : n ∉ r.selected := by
  obtain ⟨rows, k, sel0, sel, hs, hct, hlamr, hne, g1, g2, g3, g4, g5, g6, g7, g9, _, hval⟩ := ss_stages hn ht h1 h0 hl hlam hpos hm lab v
    (clustered_of_ss hn ht h1 h0 hl hlam hpos hm hr).split
  have hsel : sel0 = sel := by
    unfold epsilonIf at g2
    rw [if_neg fun h => absurd h.2 (not_lt.2 heps)] at g2
    exact Option.some.inj g2
  rw [hr] at hval
  obtain ⟨labels, _, hval⟩ := Option.bind_eq_some_iff.1 hval.symm
  obtain ⟨str, _, rfl⟩ := Option.map_eq_some_iff.1 hval
  exact hsel ▸ g9 hsingle

/-- **C102** (partial): clusters found with class labels are connected through tree edges between their samples and weigh at least `min_cluster_size`, and every
selected cluster gets samples.
Missing: infinite edges (`C30_semi_supervised_joins_components`); the top cluster selected. -/
theorem C102_clusters_partial (n : ℕ) (hn : 2 ≤ n) (wt : ℕ → K) (t : List (Edge W)) (ht : SpanningTree n t)
    (o : ClusterOpts K) (h1 : 1 < o.minClusterSize) (h0 : ∀ x, x < n → 0 ≤ wt x)
    (hl : ∀ x, x < n → wt x < o.minClusterSize) (lam : W → K) (hlam : Antitone lam) (hpos : ∀ d, 0 ≤ lam d) (hfin : ∀ e ∈ t, lam e.w ≠ 0)
    (m : ℕ) (hm : m ≤ n) (lab : ℕ → ℤ) (v : Bool) {r : ClusterResult W K} (hr : clustersFromMstSS lam wt o v m lab t = some r)
    (htop : n ∉ r.selected) :
    (∀ (x y : ℕ) (i : ℤ), 0 ≤ i → r.labels[x]? = some i → r.labels[y]? = some i →
      Conn (t.filter fun e => decide (r.labels[e.u]? = some i ∧ r.labels[e.v]? = some i)) x y) ∧
    ∀ l : ℤ, 0 ≤ l → l < r.selected.length →
      l ∈ r.labels ∧ o.minClusterSize ≤ ((Finset.range n).filter fun x => r.labels[x]? = some l).sum wt := by
  have hc := clustered_of_ss hn ht h1 h0 hl hlam hpos hm hr
  exact ⟨fun x y i hi hx hy => Clustered.connected hn ht h1 h0 hl hlam (.inl hfin) hc htop hi hx hy,
    (Clustered.weight hn ht h1 h0 hl hlam hfin hc htop).2.2⟩

/-- **C102** for the labels that are given: any options, infinite edges and the top cluster allowed, but no persistence. -/
theorem C102_used_labels_partial (n : ℕ) (hn : 2 ≤ n) (wt : ℕ → K) (t : List (Edge W)) (ht : SpanningTree n t)
    (o : ClusterOpts K) (h1 : 1 < o.minClusterSize) (h0 : ∀ x, x < n → 0 ≤ wt x)
    (hl : ∀ x, x < n → wt x < o.minClusterSize) (lam : W → K) (hlam : Antitone lam) (hpos : ∀ d, 0 ≤ lam d) (hper : o.persistence ≤ 0)
    (m : ℕ) (hm : m ≤ n) (lab : ℕ → ℤ) (v : Bool) {r : ClusterResult W K} (hr : clustersFromMstSS lam wt o v m lab t = some r)
    (l : ℤ) (hl0 : l ≠ -1) (hmem : l ∈ r.labels) :
    o.minClusterSize ≤ ((Finset.range n).filter fun x => r.labels[x]? = some l).sum wt :=
  Clustered.used hn ht h1 h0 hl hlam hpos hper (clustered_of_ss hn ht h1 h0 hl hlam hpos hm hr) hl0 hmem

end

section
variable {α β : Type*} [Field K] [LinearOrder K] [IsStrictOrderedRing K] [LinearOrder W] [OrderTop W] [Inhabited W] [Inhabited K]

omit [Field K] [LinearOrder K] [IsStrictOrderedRing K] [LinearOrder W] [OrderTop W] [Inhabited W] [Inhabited K] in
theorem side_length {finite : α → Bool} {X : List α} {side : List β} (hside : side.length = X.length) :
    (((X.zip side).filter fun p => finite p.1).map Prod.snd).length = (X.filter finite).length := by
  induction X generalizing side with
  | nil => simp
  | cons x X ih =>
    cases side with
    | nil => simp at hside
    | cons b side =>
      rw [List.zip_cons_cons, List.filter_cons, List.filter_cons]
      have := ih (side := side) (by simpa using hside)
      cases hf : finite x with
      | false => simpa [hf] using this
      | true => simpa [hf] using this

/-- **C102** for `fit` (partial): rows with class labels `lab` and weights `wt`.  If the spanning tree is a minimum spanning tree, without infinite edges, of
symmetric distances between the finite rows, then what `fit` returns is a sound clustering of the rows, or else `allow_single_cluster` or an epsilon
is given and there is at most one label besides noise.
Missing: infinite edges; in the second case the cluster may be apart. -/
theorem C102_fit_partial (lam : W → K) (hlam : Antitone lam) (hpos : ∀ d, 0 ≤ lam d)
    (finite : α → Bool) (reach : α → α → W) (hsym : ∀ x y, reach x y = reach y x) (X : List α) (side : List β) (hside : side.length = X.length)
    (h2 : 2 ≤ (X.filter finite).length) (wt : β → K) (lab : β → ℤ) (v : Bool) (o : ClusterOpts K) (h1 : 1 < o.minClusterSize)
    (hw0 : ∀ b ∈ side, 0 ≤ wt b ∧ wt b < o.minClusterSize) (mst : List α → List β → List (Edge W)) (t : List (Edge W))
    (hmst : mst (X.filter finite) (((X.zip side).filter fun p => finite p.1).map Prod.snd) = t)
    (hspan : SpanningTree (X.filter finite).length t)
    (hmin : MinSpanningForest (completeGraph (X.filter finite).length (rowDist reach (X.filter finite))) t) (hfin : ∀ e ∈ t, lam e.w ≠ 0)
    (outliers : List ℕ) (hout : outliers.Perm ((List.range X.length).filter fun i => !(X[i]?.map finite).getD false))
    (r : FitResult W K) (hr : fitModel finite (fastHdbscanSS lam mst wt lab v o) outliers X side = .ok r) :
    LabelledRows finite X r.labels r.strengths ∧
      (SoundGroups finite reach (fun i => (side[i]?.map wt).getD 1) o.minClusterSize X r.labels r.strengths ∨
        (o.method ≠ .leaf ∧ o.allowSingle = true ∨ 0 < o.epsilon) ∧ ∀ l ∈ r.labels, l = -1 ∨ l = 0) := by
  set sideP := ((X.zip side).filter fun p => finite p.1).map Prod.snd with hsP
  have hlenP : sideP.length = (X.filter finite).length := side_length hside
  have hside' : ∀ b ∈ sideP, b ∈ side := by
    intro b hb
    obtain ⟨q, hq, rfl⟩ := List.mem_map.1 hb
    exact (List.of_mem_zip (show (q.1, q.2) ∈ _ from (List.mem_filter.1 hq).1)).2
  have hwt : ∀ i : ℕ, 0 ≤ (sideP[i]?.map wt).getD 1 ∧ (sideP[i]?.map wt).getD 1 < o.minClusterSize := by
    intro i
    cases hi : sideP[i]? with
    | none => exact ⟨zero_le_one, h1⟩
    | some b => exact hw0 b (hside' b (List.mem_of_getElem? hi))
  obtain ⟨r1, h3, h4, h5, h6⟩ := fit_sound_with (wt := wt) (t := t) hlam hpos hsym hside h2 h1 hw0 hspan hmin hout (fun r1 h3 => by
    beta_reduce at h3
    rw [← hsP, hmst] at h3
    exact ⟨clustered_of_ss h2 hspan h1 (fun x _ => (hwt x).1) (fun x _ => (hwt x).2) hlam hpos hlenP.le h3, fun _ => .inl hfin⟩) hr
  beta_reduce at h3
  rw [← hsP, hmst] at h3
  refine ⟨h4, ?_⟩
  by_cases htop : (X.filter finite).length ∈ r1.selected
  · refine .inr ⟨?_, h6 htop⟩
    by_contra hno
    push Not at hno
    refine absurd htop (C102_not_all _ h2 _ t hspan o h1 (fun x _ => (hwt x).1) (fun x _ => (hwt x).2) lam hlam hpos _ hlenP.le _ v h3 ?_ hno.2)
    by_cases hm : o.method = .leaf
    · exact .inl hm
    · exact .inr (by simpa using hno.1 hm)
  · exact .inl (h5 htop)

/-- **C102** for `fit` (partial), `algorithm='kruskal'` without `knn_k`: for every data set with at least two finite rows, every symmetric distance that is finite between
rows, and all class labels, `fit(X, y)` with `min_cluster_size` at least 2, `allow_single_cluster=False`, no epsilon and no persistence returns, for
either selection method and `ss_algorithm` and any `max_cluster_size`, and what it stores is a sound clustering of the rows.
Missing: sample weights, other options (see `C102_fit_partial`), infinite distances, fewer than two finite rows. -/
theorem C102_fit_kruskal_partial [Zero W] (lam : W → K) (hlam : Antitone lam) (hpos : ∀ d, 0 ≤ lam d) (hzero : ∀ d, lam d = 0 ↔ d = ⊤)
    (finite : α → Bool) (dist : α → α → W) (hsym : ∀ x y, dist x y = dist y x) (ms mcs : ℕ) (hmcs : 2 ≤ mcs) (X : List α)
    (h2 : 2 ≤ (X.filter finite).length) (hfin : ∀ x ∈ X, ∀ y ∈ X, rowReach dist (X.filter finite) ms x y ≠ ⊤)
    (y : List ℤ) (hy : y.length = X.length) (v : Bool)
    (outliers : List ℕ) (hout : outliers.Perm ((List.range X.length).filter fun i => !(X[i]?.map finite).getD false))
    (o : ClusterOpts K) (ho : o.minClusterSize = mcs) (hsingle : o.method = .leaf ∨ o.allowSingle = false) (heps : o.epsilon ≤ 0)
    (hper : o.persistence ≤ 0) :
    ∃ r, fitModel finite (fastHdbscanSS lam (kruskalRows dist ms) (fun _ => 1) id v o) outliers X y = .ok r ∧
      SoundClustering finite dist ms mcs X r.labels r.strengths := by
  have hmK : (1 : K) < o.minClusterSize := by rw [ho]; exact_mod_cast hmcs
  have h01 : ∀ (l : List ℤ) (i : ℕ), (l[i]?.map fun _ : ℤ => (1 : K)).getD 1 = 1 := fun l i => by cases l[i]? <;> rfl
  set yP := ((X.zip y).filter fun p => finite p.1).map Prod.snd with hyP
  have hlenP : yP.length = (X.filter finite).length := side_length hy
  obtain ⟨h3, h4⟩ := kruskalRows_tree dist hsym ms (X.filter finite) h2 yP
  obtain ⟨r1, hr1, -⟩ := C102_total_partial _ h2 (fun i => (yP[i]?.map fun _ : ℤ => (1 : K)).getD 1) _ h3 o hmK (fun i _ => by rw [h01]; exact zero_le_one)
    (fun i _ => by rw [h01]; exact hmK) lam hlam hpos yP.length hlenP.le (fun i => (yP[i]?.map id).getD (-1)) v (.inr fun i _ => (h01 yP i).le) (.inl hper)
  have hcl := clustered_of_ss h2 h3 hmK (fun i _ => by rw [h01]; exact zero_le_one) (fun i _ => by rw [h01]; exact hmK) hlam hpos hlenP.le hr1
  have hcore : fastHdbscanSS lam (kruskalRows dist ms) (fun _ => 1) id v o (X.filter finite) yP =
      .ok ⟨r1.labels, (List.range (X.filter finite).length).map r1.strengths, r1.linkage, r1.condensed⟩ := by
    unfold fastHdbscanSS fastWith
    rw [if_neg (by omega)]
    beta_reduce
    rw [hr1]
  have hlink : r1.linkage = mstToLinkage (fun i => (yP[i]?.map fun _ : ℤ => (1 : K)).getD 1) (lexsortMst (kruskalRows dist ms (X.filter finite) yP)) := by
    unfold clustersFromMstSS at hr1
    simp only at hr1
    obtain ⟨_, _, hr1⟩ := Option.bind_eq_some_iff.1 hr1
    obtain ⟨_, _, hr1⟩ := Option.bind_eq_some_iff.1 hr1
    obtain ⟨_, _, hr1⟩ := Option.bind_eq_some_iff.1 hr1
    obtain ⟨_, _, hr1⟩ := Option.bind_eq_some_iff.1 hr1
    obtain ⟨_, _, rfl⟩ := Option.map_eq_some_iff.1 hr1
    rfl
  obtain ⟨t1, _, t2, t3⟩ := Clustered.trees h2 h3 hcl hlink
  obtain ⟨r, hr⟩ := (fit_returns (core := fastHdbscanSS lam (kruskalRows dist ms) (fun _ => 1) id v o)
    (w := fun i => (yP[i]?.map fun _ : ℤ => (1 : K)).getD 1) hy hout h2 fun r0 hr0 => by
      rw [← hyP, hcore] at hr0
      cases hr0
      exact ⟨t1, t2, t3⟩).2 ⟨_, hcore⟩
  refine ⟨r, hr, ?_⟩
  obtain ⟨_, hs⟩ := C102_fit_partial lam hlam hpos finite (rowReach dist (X.filter finite) ms) (rowReach_comm hsym _ ms) X y hy h2 (fun _ => 1) id v o hmK
    (fun _ _ => ⟨zero_le_one, hmK⟩) (kruskalRows dist ms) _ rfl h3 h4 (fun e he h0 => by
      obtain ⟨hu, hv, _, hw⟩ := mem_completeGraph.1 (h4.forest.sub.subset he)
      rw [rowDist_eq (List.getElem?_eq_getElem hu) (List.getElem?_eq_getElem hv)] at hw
      exact hfin _ (List.mem_filter.1 (List.getElem_mem hu)).1 _ (List.mem_filter.1 (List.getElem_mem hv)).1 (hw ▸ (hzero _).1 h0)) outliers hout r hr
  obtain ⟨s1, s2, s3⟩ := hs.resolve_right fun h => by
    rcases h.1 with h5 | h5
    · rcases hsingle with h6 | h6
      · exact h5.1 h6
      · rw [h6] at h5; exact absurd h5.2 (by decide)
    · exact absurd h5 (not_lt.2 heps)
  refine ⟨s1, fun l hl hl0 => ⟨(s2 l hl hl0).1, ?_⟩, s3⟩
  have hw := (s2 l hl hl0).2
  simp only [h01] at hw
  rw [Finset.sum_const, nsmul_eq_mul, mul_one, ho] at hw
  rw [← count_eq_card, s1.length.1]
  exact_mod_cast hw

/-- **C102**, the stored trees of a semi-supervised `fit` on data with non-finite rows, as C32. -/
theorem C102_stored_trees_partial (lam : W → K) (hlam : Antitone lam) (hpos : ∀ d, 0 ≤ lam d) (mst : List α → List β → List (Edge W)) (wt : β → K)
    (lab : β → ℤ) (v : Bool) (o : ClusterOpts K) (finite : α → Bool) (X : List α) (side : List β) (hside : side.length = X.length) (outliers : List ℕ)
    (hout : outliers.Perm ((List.range X.length).filter fun i => !(X[i]?.map finite).getD false)) (hnf : ∃ x ∈ X, finite x = false)
    (h3 : 3 ≤ (X.filter finite).length ∨ ((X.filter finite).length = 2 ∧ X.getLast?.map finite = some true))
    (ht : SpanningTree (X.filter finite).length (mst (X.filter finite) (((X.zip side).filter fun p => finite p.1).map Prod.snd)))
    (h0 : ∀ b ∈ side, 0 ≤ wt b ∧ wt b < o.minClusterSize) (h1 : 1 < o.minClusterSize)
    (r : FitResult W K) (hr : fitModel finite (fastHdbscanSS lam mst wt lab v o) outliers X side = .ok r) :
    ((∃ k, CondTree X.length k r.condensed) ∧ (∀ i, i < X.length → (r.condensed.map CRow.child).count i = 1) ∧
      ∀ i x, X[i]? = some x → finite x = false → ⟨X.length, i, 0, 1⟩ ∈ r.condensed) ∧
    MergeTree X.length (fun i => if (X[i]?.map finite).getD false then (side[i]?.map wt).getD 1 else 1) r.linkage ∧
    (r.linkage.map LRow.d).Pairwise (· ≤ ·) := by
  have h2 : 2 ≤ (X.filter finite).length := by rcases h3 with h3 | h3 <;> omega
  obtain ⟨g1, g2, g3, _⟩ := stored_trees (wt := wt) hside hout hnf h3 (fun r0 hr0 => by
    set sideP := ((X.zip side).filter fun p => finite p.1).map Prod.snd with hsP
    have hlenP : sideP.length = (X.filter finite).length := side_length hside
    have hwt : ∀ i : ℕ, 0 ≤ (sideP[i]?.map wt).getD 1 ∧ (sideP[i]?.map wt).getD 1 < o.minClusterSize := by
      intro i
      cases hi : sideP[i]? with
      | none => exact ⟨zero_le_one, h1⟩
      | some b =>
        obtain ⟨q, hq, rfl⟩ := List.mem_map.1 (List.mem_of_getElem? hi)
        exact h0 _ (List.of_mem_zip (show (q.1, q.2) ∈ _ from (List.mem_filter.1 hq).1)).2
    unfold fastHdbscanSS fastWith at hr0
    rw [if_neg (by omega)] at hr0
    split at hr0
    · cases hr0
    · rename_i r1 hr1
      cases hr0
      refine Clustered.trees h2 ht (clustered_of_ss h2 ht h1 (fun x _ => (hwt x).1) (fun x _ => (hwt x).2) hlam hpos hlenP.le hr1) ?_
      unfold clustersFromMstSS at hr1
      simp only at hr1
      obtain ⟨_, _, hr1⟩ := Option.bind_eq_some_iff.1 hr1
      obtain ⟨_, _, hr1⟩ := Option.bind_eq_some_iff.1 hr1
      obtain ⟨_, _, hr1⟩ := Option.bind_eq_some_iff.1 hr1
      obtain ⟨_, _, hr1⟩ := Option.bind_eq_some_iff.1 hr1
      obtain ⟨_, _, rfl⟩ := Option.map_eq_some_iff.1 hr1
      rfl) hr
  exact ⟨g1, g2, g3⟩

end

/-! ## Concrete cases and counterexamples -/

/-- As `exFive`, the samples of the group of three hardly closer to each other than to the other group. -/
def exLoose : List (Edge (WithTop ℚ)) :=
  [⟨0, 1, ((9 / 10 : ℚ) : WithTop ℚ)⟩, ⟨1, 2, ((9 / 10 : ℚ) : WithTop ℚ)⟩, ⟨3, 4, ((1 / 2 : ℚ) : WithTop ℚ)⟩,
    ⟨2, 3, ((1 : ℚ) : WithTop ℚ)⟩]

/-- **C102** fails with sample weights above 1: the rows of a condensed tree count samples but clusters weigh their weights, so the loose group has negative
stability; it is not selected although nothing is below it, only the other group is, and labelling raises `KeyError`.  Without the class labels
both groups are found. -/
theorem C102_weights_fail :
    clustersFromMstSS lamq (fun i => if i < 3 then 19 / 10 else 1) (exOpts .eom 0) true 5 (fun i => if i = 3 then 0 else -1) exLoose = none ∧
    (clustersFromMst lamq (fun i => if i < 3 then 19 / 10 else 1) (exOpts .eom 0) exLoose).map ClusterResult.labels = some [0, 0, 0, 1, 1] := by
  constructor <;> decide +kernel

/-- The hypotheses of `C102_total_partial` hold for these data without weights, and more. -/
example : ∃ r, clustersFromMstSS lamq (fun _ => 1) (exOpts .eom 0) true 5 (fun i => if i = 3 then 0 else -1) exFive = some r ∧
    (∀ (x y : ℕ) (i : ℤ), 0 ≤ i → r.labels[x]? = some i → r.labels[y]? = some i →
      Conn (exFive.filter fun e => decide (r.labels[e.u]? = some i ∧ r.labels[e.v]? = some i)) x y) ∧
    ∀ l : ℤ, 0 ≤ l → l < r.selected.length → l ∈ r.labels ∧ (2 : ℚ) ≤ ((Finset.range 5).filter fun x => r.labels[x]? = some l).sum fun _ => 1 := by
  obtain ⟨r, hr, _⟩ := C102_total_partial 5 (by decide) (fun _ => 1) exFive exFive_tree (exOpts .eom 0) (by decide) (by decide) (by decide) lamq
    lamq_antitone lamq_nonneg 5 le_rfl (fun i => if i = 3 then 0 else -1) true (.inr (by decide)) (.inl (by decide))
  exact ⟨r, hr, C102_clusters_partial 5 (by decide) (fun _ => 1) exFive exFive_tree (exOpts .eom 0) (by decide) (by decide) (by decide) lamq lamq_antitone
    lamq_nonneg (by decide +kernel) 5 le_rfl _ true hr (C102_not_all 5 (by decide) (fun _ => 1) exFive exFive_tree (exOpts .eom 0) (by decide) (by decide)
      (by decide) lamq lamq_antitone lamq_nonneg 5 le_rfl _ true hr (.inr rfl) le_rfl)⟩

/-- `C102_fails_iff` on the failing case. -/
example : ∃ (rows : List (CRow ℚ ℚ)) (c : ℕ) (row : CRow ℚ ℚ), row ∈ rows ∧ 5 < c ∧ row.child < 5 ∧ ¬ CDesc rows c row.child := by
  have ht : SpanningTree 5 exLoose := by
    have hstep : ∀ i, i < 4 → Conn exLoose i (i + 1) := by
      intro i hi
      interval_cases i
      · exact Conn.edge (e := ⟨0, 1, ((9 / 10 : ℚ) : WithTop ℚ)⟩) (by simp [exLoose])
      · exact Conn.edge (e := ⟨1, 2, ((9 / 10 : ℚ) : WithTop ℚ)⟩) (by simp [exLoose])
      · exact Conn.edge (e := ⟨2, 3, ((1 : ℚ) : WithTop ℚ)⟩) (by simp [exLoose])
      · exact Conn.edge (e := ⟨3, 4, ((1 / 2 : ℚ) : WithTop ℚ)⟩) (by simp [exLoose])
    have h0 : ∀ a, a < 5 → Conn exLoose a 0 := by
      intro a ha
      induction a with
      | zero => exact Conn.refl _ _
      | succ a ih => exact (hstep a (by omega)).symm.trans (ih (by omega))
    have hconn : ∀ a b, a < 5 → b < 5 → Conn exLoose a b := fun a b ha hb => (h0 a ha).trans (h0 b hb).symm
    have hr : InRange 5 exLoose := by
      intro e he
      simp only [exLoose, List.mem_cons, List.not_mem_nil, or_false] at he
      rcases he with rfl | rfl | rfl | rfl <;> decide
    exact ⟨hr, acyclic_of_connected hr hconn (by decide), hconn⟩
  obtain h | ⟨rows, sel, c, row, _, _, _, h1, h2, h3, _, h4, h5⟩ := (C102_fails_iff 5 (by decide) (fun i => if i < 3 then 19 / 10 else 1) exLoose ht
    (exOpts .eom 0) (by decide) (by decide +kernel) (by decide +kernel) lamq lamq_antitone lamq_nonneg 5 le_rfl (fun i => if i = 3 then 0 else -1) true).1
    C102_weights_fail.1
  · exact absurd h.1 (by decide)
  · exact ⟨rows, c, row, h2, h1, h3, h4⟩

/-- Case for `fit`: two pairs of points and two rows with NaN; the first row has class 0, a row with NaN class 1. -/
example : ∃ r, fitModel Option.isSome (fastHdbscanSS lamq (kruskalRows rowLine 1) (fun _ => 1) id true (exOpts .eom 0)) [1, 4] exFitData [0, 1, -1, -1, -1, -1] = .ok r ∧
    SoundClustering Option.isSome rowLine 1 2 exFitData r.labels r.strengths :=
  C102_fit_kruskal_partial lamq lamq_antitone lamq_nonneg lamq_zero Option.isSome rowLine rowLine_comm 1 2 le_rfl exFitData (by decide)
    (by decide +kernel) [0, 1, -1, -1, -1, -1] rfl true [1, 4] (by decide +kernel) (exOpts .eom 0) rfl (.inr rfl) le_rfl le_rfl

example : (match fitModel Option.isSome (fastHdbscanSS lamq (kruskalRows rowLine 1) (fun _ => 1) id true (exOpts .eom 0)) [1, 4] exFitData [0, 1, -1, -1, -1, -1] with
    | .ok r => decide (r.labels = [1, -1, 1, 0, -1, 0])
    | .error _ => false) = true := by decide +kernel

end Verif
