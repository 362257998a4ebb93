import Verif.Props.LeafEom
import Verif.Lemmas.Barcode

/-!
# C96: the whole data set as a cluster
-/

namespace Verif
variable {W K : Type*}

section
variable [Field K] [LinearOrder K] [IsStrictOrderedRing K] [LinearOrder W] [OrderTop W] [Inhabited W] [Inhabited K]

omit [LinearOrder W] [OrderTop W] [Inhabited W] [Inhabited K] in
/-- Neither method selects the top cluster, unless `eom` is allowed to. -/
theorem CondTree.top_not_base {n k : ℕ} {rows : List (CRow K K)} (h : CondTree n k rows) (hne : rows ≠ [])
    (hk : ∀ row ∈ rows, 1 < row.size ↔ n ≤ row.child) {o : ClusterOpts K} (ha : o.method = .leaf ∨ o.allowSingle = false)
    {sel0 : List ℕ} (hs : baseSelection o n rows = some sel0) : n ∉ sel0 := by
  unfold baseSelection at hs
  cases hmeth : o.method with
  | leaf =>
    rw [hmeth] at hs
    cases hs
    obtain ⟨_, _, g3, _⟩ := C20_leaf_selection rows h hk
    intro hn
    obtain ⟨h1, _, _, h4⟩ := (g3 n).1 hn
    obtain ⟨row, hr, hc⟩ := List.mem_map.1 ((h.children (n + 1)).2 (.inr ⟨by omega, by omega⟩))
    have hp := h.parents row hr
    have hd := h.down row hr (by omega)
    have := h4 row hr (by omega)
    omega
  | eom =>
    rw [hmeth] at hs
    simp only at hs
    have ha' : o.allowSingle = false := ha.resolve_left (by rw [hmeth]; decide)
    by_cases hk1 : 1 < k
    · obtain ⟨d, _, _, hex⟩ := h.extractEom_eq hne hk hk1 o.maxClusterSize o.allowSingle
      rw [hs, Option.some.injEq] at hex
      rw [hex, ha']
      exact C24_root_not_selected rows h hk _ d _ _
    · have : k = 1 := by have := h.pos; omega
      subst this
      rw [C57_no_split_no_cluster rows h hne hk, Option.some.injEq] at hs
      rw [← hs]; simp

/-- **C96** (partial).  In the result of clustering a spanning tree with `cluster_selection_method="leaf"` or without `allow_single_cluster` (other options as in
C63), the top cluster is selected exactly if the data split and the first split is at a distance below `cluster_selection_epsilon`.
Missing: it should never be selected; `C96_epsilon` shows that it is. -/
theorem C96_top_cluster_partial (n : ℕ) (hn : 2 ≤ n) (wt : ℕ → K) (t : List (Edge W)) (ht : SpanningTree n t)
    (o : ClusterOpts K) (h1 : 1 < o.minClusterSize) (h0 : ∀ x, x < n → 0 ≤ wt x)
    (hl : ∀ x, x < n → wt x < o.minClusterSize) (lam : W → K) (hlam : Antitone lam) (hpos : ∀ d, 0 ≤ lam d)
    (hper : o.persistence ≤ 0 ∨
      ∃ row ∈ condenseTree (Hier.ofRows (mstToLinkage wt (lexsortMst t))) wt o.minClusterSize none lam, n ≤ row.child)
    (hmax : o.method = .leaf ∨ ∀ rows, simplifyIf o.persistence
      (condenseTree (Hier.ofRows (mstToLinkage wt (lexsortMst t))) wt o.minClusterSize none lam) = some rows →
        LeavesFit n o.maxClusterSize rows)
    (ha : o.method = .leaf ∨ o.allowSingle = false) {r : ClusterResult W K} (hr : clustersFromMst lam wt o t = some r) :
    (n ∈ r.selected ↔ (∃ row ∈ r.condensed, n ≤ row.child) ∧
      ∀ row ∈ r.condensed, row.parent = n → n ≤ row.child → 0 < row.lam ∧ 1 / row.lam < o.epsilon) ∧
    (n ∉ r.selected → r.selected.length ≠ 1) := by
  have hlen := ht.length (by omega)
  obtain ⟨rows, k, hs, hct, hbin, hmono, hkind, hlamr, hne⟩ := simplified_tree hn ht h1 h0 hl hlam hpos hper
  obtain ⟨sel0, sel, g1, g2, g3, g4, g5, g6, g7⟩ := hct.selection_total hne hkind hbin hmono o (hmax.imp_right fun h => h rows hs)
  obtain ⟨sel1, sel2, f1, f2, f3, f4, f5, f6, f7⟩ := hct.selection_total hne hkind hbin hmono { o with epsilon := 0 }
    (hmax.imp_right fun h => h rows hs)
  have e1 : sel1 = sel0 := Option.some.inj (f1.symm.trans g1)
  subst e1
  have e2 : sel2 = sel1 := by
    unfold epsilonIf at f2
    rw [if_neg fun h => lt_irrefl _ h.2, Option.some.injEq] at f2
    exact f2.symm
  subst e2
  have hcr : r.condensed = rows ∧ r.selected = sel := by
    unfold clustersFromMst at hr
    simp only [hlen] at hr
    rw [hs, Option.bind_some, g1, Option.bind_some, g2, Option.bind_some] at hr
    obtain ⟨labels, _, hr⟩ := Option.bind_eq_some_iff.1 hr
    obtain ⟨str, _, rfl⟩ := Option.map_eq_some_iff.1 hr
    exact ⟨rfl, rfl⟩
  rw [hcr.1, hcr.2]
  have hn0 := hct.top_not_base hne hkind ha f1
  have hsplit : (∃ row ∈ rows, n ≤ row.child) ↔ 1 < k := by
    constructor
    · rintro ⟨row, hrow, hc⟩
      have := (hct.children row.child).1 (List.mem_map_of_mem hrow)
      omega
    · intro hk
      obtain ⟨row, hrow, hc⟩ := List.mem_map.1 ((hct.children (n + 1)).2 (.inr ⟨by omega, by omega⟩))
      exact ⟨row, hrow, by omega⟩
  refine ⟨?_, fun hnot hone => ?_⟩
  · rw [hsplit]
    by_cases hcond : 1 < sel2.length ∧ 0 < o.epsilon
    · have hk : 1 < k := by
        by_contra hk
        have : sel2 = [] := f7.2 (by have := hct.pos; omega)
        rw [this] at hcond; simp at hcond
      have hgt : ∀ c ∈ sel2, n < c := fun c hc => lt_of_le_of_ne (f5 c hc).1 fun h => hn0 (h ▸ hc)
      obtain ⟨out, q1, q2, q3, q4, q5, q6, q7, _⟩ := C25_epsilon_merges_partial rows hct hkind hbin hmono (epsClose o.epsilon) (epsClose_mono o.epsilon)
        hk sel2 (fun s hs => ⟨hgt s hs, (f5 s hs).2⟩) f3 f4
      unfold epsilonIf at g2
      rw [if_pos hcond, q1, Option.some.injEq] at g2
      subst g2
      constructor
      · intro hin
        refine ⟨hk, fun row hrow hp hc => ?_⟩
        have := (q6 n hin).resolve_left hn0 row hrow hp hc
        simpa [epsClose] using this
      · rintro ⟨_, hclose⟩
        obtain ⟨c, hc⟩ := List.exists_mem_of_ne_nil out fun h => by have := g7.1 h; omega
        rcases (g5 c hc).1.eq_or_lt with h | h
        · rwa [h]
        · exfalso
          obtain ⟨row, hrow, rfl⟩ := List.mem_map.1 ((hct.children c).2 (.inr ⟨h, (g5 c hc).2⟩))
          have hnc := q5 _ hc row hrow rfl
          have : epsClose o.epsilon row.lam = true := by
            rcases Relation.ReflTransGen.cases_head (hct.root_desc (g5 _ hc).1 (g5 _ hc).2) with he | ⟨b, ⟨rb, w1, w2, w3⟩, hbd⟩
            · omega
            · have hbn : n ≤ b := by
                rcases Relation.ReflTransGen.cases_head hbd with he | ⟨b', ⟨rb', v1, v2, v3⟩, _⟩
                · omega
                · rw [← v2]; exact (hct.parents rb' v1).1
              have hcl := hclose rb w1 w2 (by omega)
              have hle : rb.lam ≤ row.lam := by
                rcases Relation.ReflTransGen.cases_tail hbd with he | ⟨b', hb1, ⟨rb', v1, v2, v3⟩⟩
                · have : rb = row := List.inj_on_of_nodup_map hct.nodup w1 hrow (by omega)
                  rw [this]
                · have hrr : rb' = row := List.inj_on_of_nodup_map hct.nodup v1 hrow v3
                  subst hrr
                  exact hmono.desc hb1 w1 w3 v1 v2
              exact epsClose_mono _ _ _ hle (by simpa [epsClose] using hcl)
          rw [this] at hnc; cases hnc
    · unfold epsilonIf at g2
      rw [if_neg hcond, Option.some.injEq] at g2
      subst g2
      refine ⟨fun h => absurd h hn0, ?_⟩
      rintro ⟨hk, hclose⟩
      exfalso
      have hlen2 : 1 < sel2.length := by
        rcases g6 with h | h | h
        · have := g7.1 h; omega
        · rw [h] at hn0; simp at hn0
        · exact h.1
      have heps : ¬ 0 < o.epsilon := fun h => hcond ⟨hlen2, h⟩
      obtain ⟨row, hrow, hc⟩ := List.mem_map.1 ((hct.children (n + 1)).2 (.inr ⟨by omega, by omega⟩))
      have hp := hct.parents row hrow
      have hd := hct.down row hrow (by omega)
      obtain ⟨w1, w2⟩ := hclose row hrow (by omega) (by omega)
      exact heps ((one_div_pos.2 w1).trans w2)
  · rcases g6 with h | h | h
    · rw [h] at hone; simp at hone
    · rw [h] at hnot; simp at hnot
    · omega

/-- **C96** without `cluster_selection_epsilon`: the top cluster is not selected, and there is not just one cluster. -/
theorem C96_no_epsilon (n : ℕ) (hn : 2 ≤ n) (wt : ℕ → K) (t : List (Edge W)) (ht : SpanningTree n t)
    (o : ClusterOpts K) (h1 : 1 < o.minClusterSize) (h0 : ∀ x, x < n → 0 ≤ wt x)
    (hl : ∀ x, x < n → wt x < o.minClusterSize) (lam : W → K) (hlam : Antitone lam) (hpos : ∀ d, 0 ≤ lam d)
    (hper : o.persistence ≤ 0 ∨
      ∃ row ∈ condenseTree (Hier.ofRows (mstToLinkage wt (lexsortMst t))) wt o.minClusterSize none lam, n ≤ row.child)
    (hmax : o.method = .leaf ∨ ∀ rows, simplifyIf o.persistence
      (condenseTree (Hier.ofRows (mstToLinkage wt (lexsortMst t))) wt o.minClusterSize none lam) = some rows →
        LeavesFit n o.maxClusterSize rows)
    (ha : o.method = .leaf ∨ o.allowSingle = false) (heps : o.epsilon ≤ 0) {r : ClusterResult W K} (hr : clustersFromMst lam wt o t = some r) :
    n ∉ r.selected ∧ r.selected.length ≠ 1 := by
  obtain ⟨h2, h3⟩ := C96_top_cluster_partial n hn wt t ht o h1 h0 hl lam hlam hpos hper hmax ha hr
  have hnot : n ∉ r.selected := by
    rw [h2]
    rintro ⟨⟨row, hrow, hc⟩, hclose⟩
    obtain ⟨r', k, g1, hct, _⟩ := C63_clustering_total_partial n hn wt t ht o h1 h0 hl lam hlam hpos hper hmax
    have : r' = r := Option.some.inj (g1.symm.trans hr)
    subst this
    have hk := (hct.children row.child).1 (List.mem_map_of_mem hrow)
    obtain ⟨row, hrow, hc⟩ := List.mem_map.1 ((hct.children (n + 1)).2 (.inr ⟨by omega, by omega⟩))
    have hp := hct.parents row hrow
    have hd := hct.down row hrow (by omega)
    obtain ⟨w1, w2⟩ := hclose row hrow (by omega) (by omega)
    exact absurd (((one_div_pos.2 w1).trans w2).trans_le heps) (lt_irrefl _)
  exact ⟨hnot, h3 hnot⟩

/-- **C96** with any options besides: `leaf`, or `eom` without `allow_single_cluster`, selects the top cluster only if the data split and the first split is at a
distance below `cluster_selection_epsilon`. -/
theorem C96_only_below_epsilon (n : ℕ) (hn : 2 ≤ n) (wt : ℕ → K) (t : List (Edge W)) (ht : SpanningTree n t)
    (o : ClusterOpts K) (h1 : 1 < o.minClusterSize) (h0 : ∀ x, x < n → 0 ≤ wt x)
    (hl : ∀ x, x < n → wt x < o.minClusterSize) (lam : W → K) (hlam : Antitone lam) (hpos : ∀ d, 0 ≤ lam d)
    (ha : o.method = .leaf ∨ o.allowSingle = false) {r : ClusterResult W K} (hr : clustersFromMst lam wt o t = some r) (htop : n ∈ r.selected) :
    0 < o.epsilon ∧ (∃ row ∈ r.condensed, row.parent = n ∧ n ≤ row.child) ∧
      ∀ row ∈ r.condensed, row.parent = n → n ≤ row.child → 0 < row.lam ∧ 1 / row.lam < o.epsilon := by
  have hlen := ht.length (by omega)
  obtain ⟨rows, k, hs, hct, hbin, hmono, hkind, hlamr, hne⟩ := simplified_tree hn ht h1 h0 hl hlam hpos
    (returned_split hn ht h1 h0 hl hlam hpos hr)
  obtain ⟨sel0, sel, g1, g2, g3, g4, g5, g6, g7⟩ := hct.selection_any hne hkind hbin hmono o
  obtain ⟨sel1, sel2, f1, f2, f3, f4, f5, f6, f7⟩ := hct.selection_any hne hkind hbin hmono { o with epsilon := 0 }
  have e1 : sel1 = sel0 := Option.some.inj (f1.symm.trans g1)
  subst e1
  have e2 : sel2 = sel1 := by
    unfold epsilonIf at f2
    rw [if_neg fun h => lt_irrefl _ h.2, Option.some.injEq] at f2
    exact f2.symm
  subst e2
  have hcr : r.condensed = rows ∧ r.selected = sel := by
    unfold clustersFromMst at hr
    simp only [hlen] at hr
    rw [hs, Option.bind_some, g1, Option.bind_some, g2, Option.bind_some] at hr
    obtain ⟨labels, _, hr⟩ := Option.bind_eq_some_iff.1 hr
    obtain ⟨str, _, rfl⟩ := Option.map_eq_some_iff.1 hr
    exact ⟨rfl, rfl⟩
  rw [hcr.2] at htop
  rw [hcr.1]
  have hn0 := hct.top_not_base hne hkind ha f1
  by_cases hcond : 1 < sel2.length ∧ 0 < o.epsilon
  · have hk : 1 < k := by
      by_contra hk
      have : sel2 = [] := f7 (by have := hct.pos; omega)
      rw [this] at hcond; simp at hcond
    have hgt : ∀ c ∈ sel2, n < c := fun c hc => lt_of_le_of_ne (f5 c hc).1 fun h => hn0 (h ▸ hc)
    obtain ⟨out, q1, q2, q3, q4, q5, q6, q7, _⟩ := C25_epsilon_merges_partial rows hct hkind hbin hmono (epsClose o.epsilon) (epsClose_mono o.epsilon)
      hk sel2 (fun s hs => ⟨hgt s hs, (f5 s hs).2⟩) f3 f4
    unfold epsilonIf at g2
    rw [if_pos hcond, q1, Option.some.injEq] at g2
    subst g2
    refine ⟨hcond.2, ?_, fun row hrow hp hc => ?_⟩
    · obtain ⟨row, hrow, hc⟩ := List.mem_map.1 ((hct.children (n + 1)).2 (.inr ⟨by omega, by omega⟩))
      have hp := hct.parents row hrow
      have hd := hct.down row hrow (by omega)
      exact ⟨row, hrow, by omega, by omega⟩
    · have := (q6 n htop).resolve_left hn0 row hrow hp hc
      simpa [epsClose] using this
  · unfold epsilonIf at g2
    rw [if_neg hcond, Option.some.injEq] at g2
    subst g2
    exact absurd htop hn0

end

/-- The hypotheses hold for two groups of samples: with `cluster_selection_epsilon=1` the two near pairs are merged and the top cluster is not
selected, since the groups split at distance 5. -/
example : ∃ r, clustersFromMst lamq (fun _ => 1) { exOpts .leaf 0 with epsilon := 1 } exNear = some r ∧ r.labels = [0, 0, 0, 0, 1, 1] ∧ 6 ∉ r.selected ∧
    r.selected.length ≠ 1 := by
  have e1 : (clustersFromMst lamq (fun _ => 1) { exOpts .leaf 0 with epsilon := 1 } exNear).map (fun r => (r.labels, decide (6 ∈ r.selected))) =
      some ([0, 0, 0, 0, 1, 1], false) := by decide +kernel
  obtain ⟨r, hr, e1⟩ := Option.map_eq_some_iff.1 e1
  obtain ⟨e1, e2⟩ := Prod.mk.inj e1
  have hn : 6 ∉ r.selected := of_decide_eq_false e2
  exact ⟨r, hr, e1, hn, (C96_top_cluster_partial 6 (by decide) (fun _ => 1) exNear exNear_tree _ (by decide) (by decide) (by decide) lamq lamq_antitone
    lamq_nonneg (.inl le_rfl) (.inl rfl) (.inl rfl) hr).2 hn⟩

/-- **C96** fails: with `allow_single_cluster=False` and `cluster_selection_epsilon=6`, all six samples form one cluster. -/
theorem C96_epsilon : (exOpts .eom 0).allowSingle = false ∧
    (clustersFromMst lamq (fun _ => 1) { exOpts .eom 0 with epsilon := 6 } exNear).map ClusterResult.labels = some [0, 0, 0, 0, 0, 0] ∧
    (clustersFromMst lamq (fun _ => 1) { exOpts .leaf 0 with epsilon := 6 } exNear).map ClusterResult.labels = some [0, 0, 0, 0, 0, 0] :=
  ⟨rfl, by decide +kernel, by decide +kernel⟩

end Verif
