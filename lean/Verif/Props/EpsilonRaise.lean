import Verif.Props.Groups
import Verif.Props.TwoRuns

/-!
# C112: raising `cluster_selection_epsilon` divides no cluster
-/

namespace Verif
variable {W K L S α β : Type*} {n k : ℕ}

section
variable [Field K] [LinearOrder K] [IsStrictOrderedRing K]

theorem epsClose_le {eps eps' lam : K} (h : eps ≤ eps') (hc : epsClose eps lam = true) : epsClose eps' lam = true := by
  simp only [epsClose, decide_eq_true_eq] at *
  exact ⟨hc.1, hc.2.trans_le h⟩

/-- What the search with epsilon leaves: each cluster contains a cluster selected before; it was selected before, or all its children are closer than
epsilon; and after a search no cluster is born closer than epsilon. -/
theorem CondTree.epsilon_facts {rows : List (CRow K K)} (h : CondTree n k rows)
    (hk : ∀ row ∈ rows, 1 < row.size ↔ n ≤ row.child) (hb : CBinary n k rows) (hm : CMono rows) (ε : K)
    {sel0 sel : List ℕ} (hnd : sel0.Nodup) (hnn : NonNested rows sel0) (hrg : ∀ c ∈ sel0, n ≤ c ∧ c < n + k) (hempty : k = 1 → sel0 = [])
    (htop : n ∈ sel0 → sel0 = [n]) (he : epsilonIf ε rows sel0 = some sel) :
    (∀ o ∈ sel, ∃ s ∈ sel0, CDesc rows o s) ∧
    (∀ o ∈ sel, o ∈ sel0 ∨ (1 < sel0.length ∧ 0 < ε) ∧ ∀ row ∈ rows, row.parent = o → n ≤ row.child → epsClose ε row.lam = true) ∧
    (1 < sel0.length ∧ 0 < ε → ∀ o ∈ sel, ∀ row ∈ rows, row.child = o → epsClose ε row.lam = false) := by
  unfold epsilonIf at he
  by_cases hcond : 1 < sel0.length ∧ 0 < ε
  · rw [if_pos hcond] at he
    have hn0 : n ∉ sel0 := by
      intro h1; rw [htop h1] at hcond; simp at hcond
    have hpos := h.pos
    have hs : 1 < k := by
      by_contra h2
      rw [hempty (by omega)] at hcond; simp at hcond
    obtain ⟨out, ho, -, -, g3, g4, g5, -⟩ := C25_epsilon_merges_partial rows h hk hb hm (epsClose ε) (epsClose_mono ε) hs sel0
      (fun s h1 => ⟨lt_of_le_of_ne (hrg s h1).1 fun he => hn0 (he ▸ h1), (hrg s h1).2⟩) hnd hnn
    obtain rfl := Option.some.inj (ho.symm.trans he)
    exact ⟨fun o ho => (g3 o ho).2.2, fun o ho => (g5 o ho).imp_right fun h => ⟨hcond, h⟩, fun _ => g4⟩
  · rw [if_neg hcond] at he
    obtain rfl := Option.some.inj he
    exact ⟨fun o ho => ⟨o, ho, .refl⟩, fun o ho => .inl ho, fun h => absurd h hcond⟩

/-- A cluster for a larger epsilon is not strictly inside one for a smaller. -/
theorem CondTree.epsilon_raise {rows : List (CRow K K)} (h : CondTree n k rows)
    (hk : ∀ row ∈ rows, 1 < row.size ↔ n ≤ row.child) (hb : CBinary n k rows) (hm : CMono rows) {ε ε' : K} (hε : ε ≤ ε')
    {sel0 sel sel' : List ℕ} (hnd : sel0.Nodup) (hnn : NonNested rows sel0) (hrg : ∀ c ∈ sel0, n ≤ c ∧ c < n + k) (hempty : k = 1 → sel0 = [])
    (htop : n ∈ sel0 → sel0 = [n]) (he : epsilonIf ε rows sel0 = some sel) (he' : epsilonIf ε' rows sel0 = some sel')
    (hrg' : ∀ c ∈ sel', n ≤ c) {o o' : ℕ} (ho : o ∈ sel) (ho' : o' ∈ sel') (hd : CDesc rows o o') : o = o' := by
  obtain ⟨-, a2, -⟩ := h.epsilon_facts hk hb hm ε hnd hnn hrg hempty htop he
  obtain ⟨b1, -, b3⟩ := h.epsilon_facts hk hb hm ε' hnd hnn hrg hempty htop he'
  rcases a2 o ho with h1 | ⟨⟨h1, h2⟩, h3⟩
  · obtain ⟨s, hs, hds⟩ := b1 o' ho'
    have e := hnn o h1 s hs (hd.trans hds)
    subst e
    have hc := h.clTree hk
    exact hc.desc_antisymm ((h.desc_clusterTree hk (hrg' o' ho')).2 hd) ((h.desc_clusterTree hk (hrg o h1).1).2 hds)
  · by_contra hne
    rcases Relation.ReflTransGen.cases_head hd with h4 | ⟨a, ⟨ra, hra, hrp, hrc⟩, h4⟩
    · exact hne h4
    have han : n ≤ ra.child := by
      rcases Relation.ReflTransGen.cases_head h4 with h5 | ⟨b, ⟨rb, hrb, hbp, _⟩, _⟩
      · rw [hrc, h5]; exact hrg' o' ho'
      · have := (h.parents rb hrb).1; omega
    have hc := h3 ra hra hrp han
    rcases Relation.ReflTransGen.cases_tail h4 with h5 | ⟨b, h5, rb, hrb, hbp, hbc⟩
    · have := b3 ⟨h1, h2.trans_le hε⟩ o' ho' ra hra (by rw [hrc, h5])
      rw [epsClose_le hε hc] at this
      simp at this
    · have := b3 ⟨h1, h2.trans_le hε⟩ o' ho' rb hrb hbc
      rw [epsClose_le hε (epsClose_mono ε _ _ (hm.desc h5 hra hrc hrb hbp) hc)] at this
      simp at this

end

section
variable [Field K] [LinearOrder K] [IsStrictOrderedRing K] [LinearOrder W] [OrderTop W] [Inhabited W] [Inhabited K]

omit [IsStrictOrderedRing K] [OrderTop W] in
/-- The stages of a result. -/
theorem selection_stages {lam : W → K} {wt : ℕ → K} {o : ClusterOpts K} {t : List (Edge W)} {r : ClusterResult W K}
    (hr : clustersFromMst lam wt o t = some r) : ∃ sel0,
    simplifyIf o.persistence (condenseTree (Hier.ofRows (mstToLinkage wt (lexsortMst t))) wt o.minClusterSize none lam) = some r.condensed ∧
      baseSelection o (t.length + 1) r.condensed = some sel0 ∧ epsilonIf o.epsilon r.condensed sel0 = some r.selected := by
  unfold clustersFromMst at hr
  simp only at hr
  obtain ⟨rows, e1, hr⟩ := Option.bind_eq_some_iff.1 hr
  obtain ⟨sel0, e2, hr⟩ := Option.bind_eq_some_iff.1 hr
  obtain ⟨sel, e3, hr⟩ := Option.bind_eq_some_iff.1 hr
  obtain ⟨labels, _, hr⟩ := Option.bind_eq_some_iff.1 hr
  obtain ⟨str, _, rfl⟩ := Option.map_eq_some_iff.1 hr
  exact ⟨sel0, e1, e2, e3⟩

/-- **C112** (partial).  Cluster a spanning tree twice, with the same options except for a larger `cluster_selection_epsilon` the second time.  Let two samples share a
cluster the first time, and let one of them be in a cluster the second time.  Then the other is in the same cluster or noise; and not noise, unless the only cluster of the first
run was the whole data set and there was no epsilon.
Missing: noise is possible in that case (`C112_whole_data_set`); a cluster can be lost as a whole (`C112_cluster_lost`). -/
theorem C112_not_divided_partial (n : ℕ) (hn : 2 ≤ n) (wt : ℕ → K) (t : List (Edge W)) (ht : SpanningTree n t)
    (o : ClusterOpts K) (h1 : 1 < o.minClusterSize) (h0 : ∀ x, x < n → 0 ≤ wt x)
    (hl : ∀ x, x < n → wt x < o.minClusterSize) (lam : W → K) (hlam : Antitone lam) (hpos : ∀ d, 0 ≤ lam d) (ε' : K) (hε : o.epsilon ≤ ε')
    {r r' : ClusterResult W K} (hr : clustersFromMst lam wt o t = some r) (hr' : clustersFromMst lam wt { o with epsilon := ε' } t = some r')
    (x y : ℕ) (i j : ℤ) (hi : 0 ≤ i) (hj : 0 ≤ j) (hx : r.labels[x]? = some i) (hy : r.labels[y]? = some i) (hx' : r'.labels[x]? = some j) :
    (r'.labels[y]? = some j ∨ r'.labels[y]? = some (-1)) ∧ (0 < o.epsilon ∨ n ∉ r.selected → r'.labels[y]? = some j) := by
  have hlen := ht.length (by omega)
  -- the tree
  have hnf := (C63_fails_iff n hn wt t ht o h1 h0 hl lam hlam hpos).not.1 (by rw [hr]; simp)
  push Not at hnf
  obtain ⟨rows, k, e0, hct, hbin, hmono, hkind, hlamr, hne⟩ := simplified_tree hn ht h1 h0 hl hlam hpos ((le_or_gt o.persistence 0).imp_right hnf.1)
  obtain ⟨sel0, s1, s2, s3⟩ := selection_stages hr
  obtain ⟨sel0', s1', s2', s3'⟩ := selection_stages hr'
  rw [e0, Option.some.injEq] at s1
  have s1' : rows = r'.condensed := Option.some.inj (e0.symm.trans s1')
  rw [hlen, ← s1] at s2
  rw [hlen, ← s1'] at s2'
  rw [← s1] at s3
  rw [← s1'] at s3'
  obtain rfl : sel0 = sel0' := Option.some.inj (s2.symm.trans s2')
  -- the clusters selected before epsilon
  obtain ⟨sel1, sel2, f1, f2, f3, f4, f5, f6, f7⟩ := hct.selection_any hne hkind hbin hmono { o with epsilon := 0 }
  obtain rfl : sel0 = sel1 := Option.some.inj (s2.symm.trans f1)
  have f2 : sel0 = sel2 := by
    unfold epsilonIf at f2
    rw [if_neg fun h => absurd h.2 (lt_irrefl _)] at f2
    exact Option.some.inj f2
  subst f2
  obtain ⟨kq, gct, -, -, grange, gtop, -, ⟨glab, gmean⟩, -⟩ := C63_returned n hn wt t ht o h1 h0 hl lam hlam hpos hr
  obtain ⟨kq', gct', -, -, grange', gtop', -, ⟨glab', gmean'⟩, -⟩ := C63_returned n hn wt t ht { o with epsilon := ε' } h1 h0 hl lam hlam hpos hr'
  rw [← s1] at gct gmean
  rw [← s1'] at gct' gmean'
  obtain rfl := gct.k_unique hct
  obtain rfl := gct'.k_unique hct
  obtain ⟨-, b2', -⟩ := hct.epsilon_facts hkind hbin hmono ε' f3 f4 f5 f7 f6 s3'
  have hraise : ∀ {c c'}, c ∈ r.selected → c' ∈ r'.selected → CDesc rows c c' → c = c' := fun hc hc' hd =>
    hct.epsilon_raise hkind hbin hmono hε f3 f4 f5 f7 f6 s3 s3' (fun c hc => (grange' c hc).1) hc hc' hd
  have hltn : ∀ {z : ℕ} {l : ℤ}, r.labels[z]? = some l → z < n := fun h => by rw [← glab]; exact (List.getElem?_eq_some_iff.1 h).1
  have hrowof : ∀ z, z < n → ∃ row ∈ rows, row.child = z := fun z hz => by
    obtain ⟨row, hrow, h⟩ := List.mem_map.1 ((hct.children z).2 (.inl hz))
    exact ⟨row, hrow, h⟩
  have hxn := hltn hx
  have hyn := hltn hy
  obtain ⟨rx, hrx, hcx⟩ := hrowof x hxn
  obtain ⟨ry, hry, hcy⟩ := hrowof y hyn
  obtain ⟨i, rfl⟩ := Int.eq_ofNat_of_zero_le hi
  obtain ⟨j, rfl⟩ := Int.eq_ofNat_of_zero_le hj
  obtain ⟨mx1, mx2, -⟩ := gmean rx hrx (hcx ▸ hxn)
  obtain ⟨my1, my2, -⟩ := gmean ry hry (hcy ▸ hyn)
  obtain ⟨nx1, nx2, -⟩ := gmean' rx hrx (hcx ▸ hxn)
  obtain ⟨ny1, ny2, ny3⟩ := gmean' ry hry (hcy ▸ hyn)
  rw [hcx] at mx1 mx2 nx1 nx2
  rw [hcy] at my1 my2 ny1 ny2 ny3
  have hc := hct.clTree hkind
  have hfromTop : ∀ c, n ≤ c → c < n + kq' → CDesc rows n c := fun c hc1 hc2 => (hct.desc_clusterTree hkind hc1).1 (hc.desc_root hc1 hc2)
  by_cases htop : n ∈ r.selected
  · -- the whole data set stays the only cluster
    obtain ⟨rfl, -, -⟩ := (mx2 htop i).1 hx
    obtain ⟨-, hly, hdy⟩ := (my2 htop 0).1 hy
    have htop' : n ∈ r'.selected := by
      by_contra hno
      obtain ⟨-, s, hs, -⟩ := (nx1 hno j).1 hx'
      have hs := (List.mem_insertionSort _).1 (List.mem_of_getElem? hs)
      exact hno (hraise htop hs (hfromTop s (grange' s hs).1 (grange' s hs).2) ▸ hs)
    obtain ⟨rfl, -, -⟩ := (nx2 htop' j).1 hx'
    refine ⟨?_, fun h => ?_⟩
    · have hly' : ∃ l, r'.labels[y]? = some l := ⟨_, List.getElem?_eq_getElem (by rw [glab']; exact hyn)⟩
      obtain ⟨l, hl'⟩ := hly'
      rcases (ny3 l hl').lt_or_eq with h | h
      · obtain ⟨l, rfl⟩ := Int.eq_ofNat_of_zero_le (show 0 ≤ l by omega)
        obtain ⟨rfl, -⟩ := (ny2 htop' l).1 hl'
        exact .inl hl'
      · exact .inr (h ▸ hl')
    · have h := h.resolve_right (not_not.2 htop)
      refine (ny2 htop' 0).2 ⟨rfl, hly, ?_⟩
      have e1 : epsLam o.epsilon = some (1 / o.epsilon) := if_pos h
      have e2 : epsLam ε' = some (1 / ε') := if_pos (h.trans_le hε)
      simp only [e1, e2, DenseEnough] at hdy ⊢
      exact (one_div_le_one_div_of_le h hε).trans hdy
  · suffices h : r'.labels[y]? = some (j : ℤ) from ⟨.inl h, fun _ => h⟩
    obtain ⟨-, s, hs, hsx⟩ := (mx1 htop i).1 hx
    obtain ⟨hly, s2, hs2, hsy⟩ := (my1 htop i).1 hy
    obtain rfl : s = s2 := Option.some.inj (hs.symm.trans hs2)
    have hs := (List.mem_insertionSort _).1 (List.mem_of_getElem? hs)
    by_cases htop' : n ∈ r'.selected
    · obtain ⟨rfl, -, -⟩ := (nx2 htop' j).1 hx'
      refine (ny2 htop' 0).2 ⟨rfl, hly, ?_⟩
      rcases b2' n htop' with h3 | ⟨⟨h3, h4⟩, h5⟩
      · -- then it was the only cluster before
        exfalso
        have h6 := f6 h3
        unfold epsilonIf at s3
        rw [h6, if_neg (fun h => by simp at h)] at s3
        exact htop (by rw [← Option.some.inj s3]; simp)
      · have e2 : epsLam ε' = some (1 / ε') := if_pos h4
        simp only [e2, DenseEnough]
        rcases Relation.ReflTransGen.cases_head (hfromTop s (grange s hs).1 (grange s hs).2) with h6 | ⟨a, ⟨ra, hra, hrp, hrc⟩, h6⟩
        · exact absurd (h6 ▸ hs) htop
        have han : n ≤ ra.child := by
          rcases Relation.ReflTransGen.cases_head h6 with h7 | ⟨b, ⟨rb, hrb, hbp, _⟩, _⟩
          · rw [hrc, h7]; exact (grange s hs).1
          · have := (hct.parents rb hrb).1; omega
        have hclose := h5 ra hra hrp han
        have hle : ra.lam ≤ ry.lam := by
          rcases Relation.ReflTransGen.cases_tail (show CDesc rows a y from Relation.ReflTransGen.trans h6 hsy) with h7 | ⟨b, h7, rb, hrb, hbp, hbc⟩
          · omega
          · rw [← List.inj_on_of_nodup_map hct.nodup hrb hry (hbc.trans hcy.symm)]
            exact hmono.desc h7 hra hrc hrb hbp
        simp only [epsClose, decide_eq_true_eq] at hclose
        refine le_trans ?_ hle
        rw [one_div_le h4 hclose.1]
        exact hclose.2.le
    · obtain ⟨-, s', hs', hsx'⟩ := (nx1 htop' j).1 hx'
      have hm' := (List.mem_insertionSort _).1 (List.mem_of_getElem? hs')
      refine (ny1 htop' j).2 ⟨hly, s', hs', ?_⟩
      rcases hct.desc_comparable hsx hsx' with h | h
      · rw [← hraise hs hm' h]; exact hsy
      · exact h.trans hsy

/-- Without epsilon the whole data set is selected only with excess of mass and `allow_single_cluster`. -/
theorem top_selected_allowed {n : ℕ} (hn : 2 ≤ n) {wt : ℕ → K} {t : List (Edge W)} (ht : SpanningTree n t)
    {o : ClusterOpts K} (h1 : 1 < o.minClusterSize) (h0 : ∀ x, x < n → 0 ≤ wt x)
    (hl : ∀ x, x < n → wt x < o.minClusterSize) {lam : W → K} (hlam : Antitone lam) (hpos : ∀ d, 0 ≤ lam d) (heps : o.epsilon ≤ 0)
    {r : ClusterResult W K} (hr : clustersFromMst lam wt o t = some r) (htop : n ∈ r.selected) : o.method = .eom ∧ o.allowSingle = true := by
  have hlen := ht.length (by omega)
  have hnf := (C63_fails_iff n hn wt t ht o h1 h0 hl lam hlam hpos).not.1 (by rw [hr]; simp)
  push Not at hnf
  obtain ⟨rows, k, e0, hct, hbin, hmono, hkind, hlamr, hne⟩ := simplified_tree hn ht h1 h0 hl hlam hpos ((le_or_gt o.persistence 0).imp_right hnf.1)
  obtain ⟨s1, s2⟩ := result_stages heps hr
  rw [e0, Option.some.injEq] at s1
  rw [hlen, ← s1] at s2
  have hc := hct.clTree hkind
  unfold baseSelection at s2
  cases hm : o.method with
  | leaf =>
    exfalso
    rw [hm] at s2
    obtain ⟨-, -, l3, -⟩ := C20_leaf_selection rows hct hkind
    rw [Option.some.inj s2] at l3
    obtain ⟨hk, -, -, h4⟩ := (l3 n).1 htop
    obtain ⟨first, hfirst, hfp, hfc⟩ : CStep (clusterTree rows) n (n + 1) := hc.first hk
    have := h4 first (List.mem_filter.1 hfirst).1 hfp
    omega
  | eom =>
    refine ⟨rfl, ?_⟩
    rw [hm] at s2
    by_contra ha
    rw [Bool.not_eq_true] at ha
    have hkpos := hct.pos
    by_cases hs : 1 < k
    · obtain ⟨d, -, -, hex⟩ := hct.extractEom_eq hne hkind hs o.maxClusterSize o.allowSingle
      have e : eomClusters (clusterTree rows) (ScoreOps.exact K) d (sizeExceeds (clusterTree rows) o.maxClusterSize) (rootExceeds o.maxClusterSize n) o.allowSingle =
          r.selected := Option.some.inj (hex.symm.trans s2)
      rw [ha] at e
      rw [← e] at htop
      exact C24_root_not_selected rows hct hkind _ _ _ _ htop
    · obtain rfl : k = 1 := by omega
      have e := (C57_no_split_no_cluster rows hct hne hkind o.maxClusterSize o.allowSingle).symm.trans s2
      rw [← Option.some.inj e] at htop
      simp at htop

/-- **C112** (partial), `fit`, for rows with missing values, any distances and spanning tree: raising `cluster_selection_epsilon` divides no cluster.
Missing: as in `C112_not_divided_partial`. -/
theorem C112_fit_partial (lam : W → K) (hlam : Antitone lam) (hpos : ∀ d, 0 ≤ lam d)
    (finite : α → Bool) (X : List α) (side : List β) (hside : side.length = X.length)
    (h2 : 2 ≤ (X.filter finite).length) (wt : β → K) (o : ClusterOpts K) (h1 : 1 < o.minClusterSize)
    (hw0 : ∀ b ∈ side, 0 ≤ wt b ∧ wt b < o.minClusterSize) (mst : List α → List β → List (Edge W))
    (hspan : SpanningTree (X.filter finite).length (mst (X.filter finite) (((X.zip side).filter fun p => finite p.1).map Prod.snd)))
    (outliers : List ℕ) (hout : outliers.Perm ((List.range X.length).filter fun i => !(X[i]?.map finite).getD false)) (ε' : K) (hε : o.epsilon ≤ ε')
    (r r' : FitResult W K) (hr : fitModel finite (fastHdbscan lam mst wt o) outliers X side = .ok r)
    (hr' : fitModel finite (fastHdbscan lam mst wt { o with epsilon := ε' }) outliers X side = .ok r')
    (x y : ℕ) (i j : ℤ) (hi : 0 ≤ i) (hj : 0 ≤ j) (hx : r.labels[x]? = some i) (hy : r.labels[y]? = some i) (hx' : r'.labels[x]? = some j) :
    (r'.labels[y]? = some j ∨ r'.labels[y]? = some (-1)) ∧
      (0 < o.epsilon ∨ o.method = .leaf ∨ o.allowSingle = false → r'.labels[y]? = some j) := by
  obtain ⟨wt', r1, r1', hwt, h3, h3', hlen, -, hrows⟩ := fit_two_runs hlam hpos hside h2 (o' := { o with epsilon := ε' }) h1 rfl hw0 hspan hout hr hr'
  have hval : ∀ z, r.labels[z]? = some i → r.labels[z]? = r1.labels[(X.take z).countP finite]? ∧ r'.labels[z]? = r1'.labels[(X.take z).countP finite]? := by
    intro z hz
    have hzn : z < X.length := by rw [← hlen]; exact (List.getElem?_eq_some_iff.1 hz).1
    have hg := List.getElem?_eq_getElem hzn
    cases hf : finite X[z] with
    | false =>
      have := ((hrows z _ hg).1 hf).1.symm.trans hz
      simp only [Option.some.injEq] at this
      omega
    | true => exact (hrows z _ hg).2 hf
  obtain ⟨a1, a2⟩ := hval x hx
  obtain ⟨a3, a4⟩ := hval y hy
  rw [a1] at hx
  rw [a3] at hy
  rw [a2] at hx'
  rw [a4]
  obtain ⟨f1, f2⟩ := C112_not_divided_partial _ h2 _ _ hspan o h1 (fun x _ => (hwt x).1) (fun x _ => (hwt x).2) lam hlam hpos ε' hε h3 h3' _ _ i j hi hj hx hy hx'
  refine ⟨f1, fun h => f2 ?_⟩
  rcases h with h | h
  · exact .inl h
  · by_cases he : 0 < o.epsilon
    · exact .inl he
    · refine .inr fun htop => ?_
      obtain ⟨e1, e2⟩ := top_selected_allowed h2 hspan h1 (fun x _ => (hwt x).1) (fun x _ => (hwt x).2) hlam hpos (not_lt.1 he) h3 htop
      rcases h with h | h
      · rw [e1] at h; simp at h
      · rw [e2] at h; simp at h

end
end Verif
