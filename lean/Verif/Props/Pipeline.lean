import Verif.Model.Pipeline
import Verif.Lemmas.Separation
import Verif.Lemmas.SelSep
import Verif.Props.Kruskal
import Verif.Props.Bridge
import Mathlib.Algebra.Order.Field.Rat

/-!
# Properties of the whole clustering step: C13, C29, C30
-/

namespace Verif
variable {W K : Type*}

/-! ## C13 -/

/-- **C13.** Permuting the rows of the spanning tree changes nothing, whatever the options, ties included. -/
theorem C13_order_independent [Field K] [LinearOrder K] [LinearOrder W] [Inhabited W] [Inhabited K] (lam : W → K)
    (wt : ℕ → K) (o : ClusterOpts K) (t t' : List (Edge W)) (hp : t.Perm t') :
    clustersFromMst lam wt o t = clustersFromMst lam wt o t' := by
  unfold clustersFromMst
  rw [C13_sorted_tree_order_independent t t' hp, hp.length_eq]

/-! ## Facts about the condensed tree used by the selection -/

section
variable [Field K] [LinearOrder K] [IsStrictOrderedRing K] [LinearOrder W] [OrderTop W] [Inhabited W] [Inhabited K]

/-- Everything the separation argument needs about the condensed tree of a sorted spanning tree. -/
theorem condense_sep {n : ℕ} (hn : 2 ≤ n) {wt : ℕ → K} {t : List (Edge W)} (ht : SpanningTree n t)
    (hs : t.Pairwise fun a b => a.w ≤ b.w) {mcs : K} (h1 : 1 < mcs) (h0 : ∀ x, x < n → 0 ≤ wt x)
    (hl : ∀ x, x < n → wt x < mcs) {lam : W → K} (hlam : Antitone lam) (hpos : ∀ d, 0 ≤ lam d) :
    let T := condenseTree (Hier.ofRows (mstToLinkage wt t)) wt mcs none lam
    ∃ k, CondTree n k T ∧ CBinary n k T ∧ SepHyp n T ∧ T ≠ [] ∧
      (∀ row ∈ T, n ≤ row.child → (∀ x, x < n → wt x ≤ 1) → row.size ≤ ((n - 1 : ℕ) : K)) ∧
      (∀ c, n ≤ c → c < n + k →
        (∀ row ∈ T, n ≤ row.child → CDesc T c row.parent → row.lam ≠ lam ⊤) →
        ∀ rx ∈ T, ∀ ry ∈ T, rx.child < n → ry.child < n → CDesc T c rx.child → CDesc T c ry.child →
          rx.lam ≠ lam ⊤ → ry.lam ≠ lam ⊤ → Conn (below ⊤ t) rx.child ry.child) := by
  classical
  intro T
  obtain ⟨hden, _, hheight, _⟩ := C12_linkage_is_dendrogram n (by omega) wt t ht hs
  have hHn := hden.hier_n
  have hh := hden.condHyp h0 hl
  have hm : 0 < (Hier.ofRows (mstToLinkage wt t)).m := by
    have := hden.length; change 0 < (mstToLinkage wt t).length; omega
  obtain ⟨_, _, _, hrow⟩ := C17_condensed_clusters_real n hn wt _ hden mcs h0 hl lam
  obtain ⟨hne, _, _, hkind⟩ := condenseTree_usable n hn wt _ hden mcs h1 h0 hl lam
  obtain ⟨k, relabel, top, hr⟩ := condense_res (mx := none) hh hm lam
  have hct : CondTree n k T := by have := hr.condTree; rwa [hHn] at this
  have hbin : CBinary n k T := by have := hr.binary hh; rwa [hHn] at this
  have hmono : CMono T := hr.mono hh hlam (ofRows_height hheight)
  have hlast := hr.split_last hh hlam (ofRows_height hheight)
  rw [hHn] at hlast
  have hsize1 : ∀ row ∈ T, row.child < n → row.size = 1 := fun row h => (hrow row h).1
  have hsize : ∀ row ∈ T, n ≤ row.child → row.size = ((Finset.range n).filter fun x => CDesc T row.child x).sum wt :=
    fun row h hc => ((hrow row h).2 hc).2
  have hmcs : ∀ row ∈ T, n ≤ row.child → mcs ≤ row.size := fun row h hc => ((hrow row h).2 hc).1
  refine ⟨k, hct, hbin, ⟨hkind, hmono, hlast, ?_, ?_, ?_⟩, hne, ?_, ?_⟩
  · intro row hrw
    by_cases hc : row.child < (Hier.ofRows (mstToLinkage wt t)).n
    · obtain ⟨_, _, _, h2, _⟩ := hr.rows_pt row hrw hc
      rw [h2]; exact hpos _
    · obtain ⟨_, _, _, _, _, _, h2, _⟩ := hr.rows_cl row hrw (by omega)
      rw [h2]; exact hpos _
  · intro row hrw row' hrw' hc' he
    rw [hsize row hrw (by rw [← he]; exact (hct.parents row' hrw').1), hsize row' hrw' hc']
    refine Finset.sum_le_sum_of_subset_of_nonneg ?_ ?_
    · intro x hx
      rw [Finset.mem_filter] at hx ⊢
      exact ⟨hx.1, Relation.ReflTransGen.head ⟨row', hrw', he, rfl⟩ hx.2⟩
    · intro x hx _
      exact h0 x (Finset.mem_range.1 (Finset.mem_filter.1 hx).1)
  · intro row hrw
    by_cases hc : row.child < n
    · rw [hsize1 row hrw hc]; exact zero_lt_one
    · exact zero_lt_one.trans (h1.trans_le (hmcs row hrw (by omega)))
  · intro row hrw hc hunit
    -- some sample lies below the sibling
    have hsib : ∃ row' ∈ T, n ≤ row'.child ∧ row'.parent = row.parent ∧ row'.child ≠ row.child := by
      have hp := hct.parents row hrw
      have hin : row ∈ T.filter fun r => decide (n ≤ r.child ∧ r.parent = row.parent) :=
        List.mem_filter.2 ⟨hrw, decide_eq_true ⟨hc, rfl⟩⟩
      rcases hbin row.parent hp.1 hp.2 with h2 | ⟨a, lv, s, t', _, h2⟩
      · rw [h2] at hin; cases hin
      · have hmem : ∀ r, r ∈ [(⟨row.parent, a, lv, s⟩ : CRow K K), ⟨row.parent, a + 1, lv, t'⟩] →
            r ∈ T ∧ n ≤ r.child ∧ r.parent = row.parent := fun r hr' => by
          rw [← h2] at hr'
          have h3 := List.mem_filter.1 hr'
          exact ⟨h3.1, of_decide_eq_true h3.2⟩
        have ha := hmem ⟨row.parent, a, lv, s⟩ (by simp)
        have hb := hmem ⟨row.parent, a + 1, lv, t'⟩ (by simp)
        by_cases hra : row.child = a
        · exact ⟨_, hb.1, hb.2.1, hb.2.2, by simp [hra]⟩
        · exact ⟨_, ha.1, ha.2.1, ha.2.2, by simpa using fun h => hra h.symm⟩
    obtain ⟨row', hrw', hc', hp', hne'⟩ := hsib
    have hex : ∃ x, x < n ∧ CDesc T row'.child x := by
      by_contra hno
      push Not at hno
      have h2 := hmcs row' hrw' hc'
      rw [hsize row' hrw' hc', Finset.filter_false_of_mem, Finset.sum_empty] at h2
      · exact absurd (h1.trans_le h2) (not_lt.2 zero_le_one)
      · intro x hx; exact hno x (Finset.mem_range.1 hx)
    obtain ⟨x, hx, hdx⟩ := hex
    have hnx : ¬ CDesc T row.child x := by
      intro hd
      have hcl := hct.clTree hkind
      have hpar : ∀ {c}, n ≤ c → CDesc T c x → ∃ p, n ≤ p ∧ CStep T p x ∧ CDesc T c p := by
        intro c hcn hcx
        rcases Relation.ReflTransGen.cases_tail hcx with h2 | ⟨p, h2, h3⟩
        · omega
        · obtain ⟨r, h4, h5, h6⟩ := h3
          exact ⟨p, by rw [← h5]; exact (hct.parents r h4).1, ⟨r, h4, h5, h6⟩, h2⟩
      obtain ⟨p, hpn, ⟨r, hr1, hr2, hr3⟩, h2⟩ := hpar hc hd
      obtain ⟨q, hqn, ⟨r', hr1', hr2', hr3'⟩, h3⟩ := hpar hc' hdx
      have := List.inj_on_of_nodup_map hct.nodup hr1 hr1' (hr3.trans hr3'.symm)
      subst this
      have hpq : p = q := hr2.symm.trans hr2'
      subst hpq
      rw [← hct.desc_clusterTree hkind hpn] at h2 h3
      have hka : row.child ∈ kidsOf (clusterTree T) row.parent :=
        mem_kidsOf.2 ⟨row, List.mem_filter.2 ⟨hrw, decide_eq_true ((hkind row hrw).2 hc)⟩, rfl, rfl⟩
      have hkb : row'.child ∈ kidsOf (clusterTree T) row.parent :=
        mem_kidsOf.2 ⟨row', List.mem_filter.2 ⟨hrw', decide_eq_true ((hkind row' hrw').2 hc')⟩, hp', rfl⟩
      exact hne' (hcl.kids_disjoint hkb hka h3 h2)
    rw [hsize row hrw hc]
    calc ((Finset.range n).filter fun y => CDesc T row.child y).sum wt
        ≤ ((Finset.range n).filter fun y => CDesc T row.child y).sum fun _ => (1 : K) :=
          Finset.sum_le_sum fun y hy => hunit y (Finset.mem_range.1 (Finset.mem_filter.1 hy).1)
      _ = (((Finset.range n).filter fun y => CDesc T row.child y).card : K) := by simp
      _ ≤ ((n - 1 : ℕ) : K) := by
        rw [Nat.cast_le]
        have hsub : ((Finset.range n).filter fun y => CDesc T row.child y) ⊆ (Finset.range n).erase x := by
          intro y hy
          rw [Finset.mem_filter] at hy
          rw [Finset.mem_erase]
          exact ⟨fun he => hnx (he ▸ hy.2), hy.1⟩
        refine (Finset.card_le_card hsub).trans ?_
        rw [Finset.card_erase_of_mem (Finset.mem_range.2 hx), Finset.card_range]
  · intro c hc hck hfin rx hrx ry hry hxn hyn hcx hcy hlx hly
    obtain ⟨v, g1, g2, g3, g4, g5⟩ := hr.meet hh (by omega) (by omega) (by rw [hHn]; exact hfin) hrx hry (by omega)
      (by omega) hcx hcy hlx hly
    rw [hHn] at g1 g5
    exact conn_of_meet (by omega) wt ht hs hxn hyn g1 g2 g3 g4 g5

/-- Samples with the same non-negative label are connected by edges of the spanning tree shorter than `+inf`. -/
theorem same_label_connected {n : ℕ} (hn : 2 ≤ n) {wt : ℕ → K} {t : List (Edge W)} (ht : SpanningTree n t)
    {o : ClusterOpts K} (h1 : 1 < o.minClusterSize) (h0 : ∀ x, x < n → 0 ≤ wt x)
    (hl : ∀ x, x < n → wt x < o.minClusterSize) {lam : W → K} (hlam : Antitone lam) (hpos : ∀ d, 0 ≤ lam d)
    (htop : ∀ d, lam d = 0 ↔ d = ⊤) (hper : o.persistence ≤ 0)
    {r : ClusterResult W K} (hr : clustersFromMst lam wt o t = some r)
    (hmax : n ∉ r.selected ∨ o.maxClusterSize = none ∨ o.allowSingle = false ∨ ∀ x, x < n → wt x ≤ 1) {x y : ℕ} {i : ℤ} (hi : 0 ≤ i)
    (hx : r.labels[x]? = some i) (hy : r.labels[y]? = some i) : Conn (below ⊤ t) x y := by
  have hlen := ht.length (by omega)
  have ht' := ht.perm (lexsortMst_perm t)
  obtain ⟨k, hct, hbin, hsep, hne, hbound, hconn⟩ :=
    condense_sep hn ht' (lexsortMst_sorted t) h1 h0 hl hlam hpos
  set T := condenseTree (Hier.ofRows (mstToLinkage wt (lexsortMst t))) wt o.minClusterSize none lam with hT
  have hlt : lam ⊤ = 0 := (htop ⊤).2 rfl
  -- unfold the pipeline
  unfold clustersFromMst at hr
  simp only [hlen] at hr
  rw [← hT] at hr
  have hsimp : simplifyIf o.persistence T = some T := by
    unfold simplifyIf
    rw [if_neg (fun h => absurd h.1 (not_lt.2 hper))]
  rw [hsimp, Option.bind_some] at hr
  obtain ⟨sel0, hsel0, hr⟩ := Option.bind_eq_some_iff.1 hr
  obtain ⟨sel, hsel, hr⟩ := Option.bind_eq_some_iff.1 hr
  obtain ⟨labels, hlab, hr⟩ := Option.bind_eq_some_iff.1 hr
  obtain ⟨str, _, rfl⟩ := Option.map_eq_some_iff.1 hr
  simp only at hx hy
  -- the base selection
  have hbase : (sel0.Nodup ∧ NonNested T sel0 ∧ ∀ c ∈ sel0, n ≤ c ∧ c < n + k) ∧
      ∀ c ∈ sel0, SafeAt n T c ∨ AllZero n T c := by
    unfold baseSelection at hsel0
    cases hmeth : o.method with
    | leaf =>
      rw [hmeth] at hsel0
      simp only [Option.some.injEq] at hsel0
      subst hsel0
      obtain ⟨g1, g2, g3, _⟩ := C20_leaf_selection T hct hsep.kind
      refine ⟨⟨g1.imp (fun h => ne_of_lt h), g2, fun c hc => ⟨((g3 c).1 hc).2.1, ((g3 c).1 hc).2.2.1⟩⟩, fun c hc => ?_⟩
      exact .inl (SafeAt.of_childless hct ((g3 c).1 hc).2.1 ((g3 c).1 hc).2.2.2)
    | eom =>
      rw [hmeth] at hsel0
      simp only at hsel0
      have hshape : sel0.Nodup ∧ NonNested T sel0 ∧ ∀ c ∈ sel0, n ≤ c ∧ c < n + k := by
        by_cases hs : 1 < k
        · obtain ⟨d, _, _, hex⟩ := hct.extractEom_eq hne hsep.kind hs o.maxClusterSize o.allowSingle
          obtain ⟨sel', he', hsorted, _⟩ := C22_eom_optimal_partial T hct hne hsep.kind hs o.maxClusterSize o.allowSingle
          rw [hsel0, Option.some.injEq] at he'
          subst he'
          have hnn := C21_eom_not_nested T hct hsep.kind (ScoreOps.exact K) d
            (sizeExceeds (clusterTree T) o.maxClusterSize) (rootExceeds o.maxClusterSize n) o.allowSingle
          rw [hex, Option.some.injEq] at hsel0
          simp only at hnn
          rw [hsel0] at hnn
          exact ⟨hsorted.imp (fun h => ne_of_lt h), hnn.1, hnn.2⟩
        · have hk1 : k = 1 := by have := hct.pos; omega
          subst hk1
          rw [C57_no_split_no_cluster T hct hne hsep.kind, Option.some.injEq] at hsel0
          subst hsel0
          exact ⟨List.nodup_nil, fun a ha => by simp at ha, by simp⟩
      have hrootc : n ∈ sel0 → ∀ m, o.maxClusterSize = some m → ∀ row ∈ T, n ≤ row.child → row.size ≤ m := by
        intro hnm m hm row hrow hc
        rcases hmax with h | h | h | h
        · -- the top cluster selected at first is selected in the end
          exfalso
          obtain ⟨hnd, hnn, hrg⟩ := hshape
          have hall : ∀ b ∈ sel0, b = n := fun b hb => by
            have h2 := (hct.clTree hsep.kind).desc_root (hrg b hb).1 (hrg b hb).2
            exact (hnn n hnm b hb ((hct.desc_clusterTree hsep.kind (hrg b hb).1).1 h2)).symm
          have h3 : sel0.toFinset ⊆ {n} := fun b hb => by
            rw [Finset.mem_singleton]; exact hall b (List.mem_toFinset.1 hb)
          have h4 := Finset.card_le_card h3
          rw [List.toFinset_card_of_nodup hnd, Finset.card_singleton] at h4
          unfold epsilonIf at hsel
          rw [if_neg (by omega), Option.some.injEq] at hsel
          exact h (hsel ▸ hnm)
        · rw [h] at hm; cases hm
        · exfalso
          by_cases hs : 1 < k
          · obtain ⟨d, _, _, hex⟩ := hct.extractEom_eq hne hsep.kind hs o.maxClusterSize o.allowSingle
            rw [hex, Option.some.injEq, h] at hsel0
            rw [← hsel0] at hnm
            exact C24_root_not_selected T hct hsep.kind _ _ _ _ hnm
          · have hk1 : k = 1 := by have := hct.pos; omega
            subst hk1
            rw [C57_no_split_no_cluster T hct hne hsep.kind, Option.some.injEq] at hsel0
            subst hsel0; simp at hnm
        · exact (hbound row hrow hc h).trans
            ((C23_max_cluster_size_partial T hct hne hsep.kind m o.allowSingle sel0 (hm ▸ hsel0)).2 hnm)
      exact ⟨hshape, hsep.eom hct hne hsel0 hrootc⟩
  -- after the epsilon search
  have hfinal : (sel.Nodup ∧ NonNested T sel ∧ ∀ c ∈ sel, n ≤ c ∧ c < n + k) ∧
      ∀ c ∈ sel, SafeAt n T c ∨ AllZero n T c := by
    obtain ⟨⟨hnd, hnn, hrg⟩, hgood⟩ := hbase
    unfold epsilonIf at hsel
    split at hsel
    · rename_i hcond
      have hnroot : ∀ s ∈ sel0, n < s ∧ s < n + k := by
        intro s hs
        refine ⟨lt_of_le_of_ne (hrg s hs).1 ?_, (hrg s hs).2⟩
        rintro rfl
        -- the top cluster is above every other selected cluster
        have hall : ∀ b ∈ sel0, b = n := fun b hb => by
          have h2 := (hct.clTree hsep.kind).desc_root (hrg b hb).1 (hrg b hb).2
          exact (hnn n hs b hb ((hct.desc_clusterTree hsep.kind (hrg b hb).1).1 h2)).symm
        have h3 : sel0.toFinset ⊆ {n} := by
          intro b hb
          rw [Finset.mem_singleton]; exact hall b (List.mem_toFinset.1 hb)
        have h4 := Finset.card_le_card h3
        rw [List.toFinset_card_of_nodup hnd, Finset.card_singleton] at h4
        have := hcond.1; omega
      have hs : 1 < k := by
        obtain ⟨s, hs⟩ := List.exists_mem_of_length_pos (show 0 < sel0.length by have := hcond.1; omega)
        have := hnroot s hs; omega
      obtain ⟨out, ho, g1, g2, g3, g4, g5, _⟩ := C25_epsilon_merges_partial T hct hsep.kind hbin hsep.mono
        (epsClose o.epsilon) (epsClose_mono o.epsilon) hs sel0 hnroot hnd hnn
      rw [ho, Option.some.injEq] at hsel
      subst hsel
      refine ⟨⟨g2, g1, fun c hc => ⟨(g3 c hc).1, (g3 c hc).2.1⟩⟩, fun c hc => ?_⟩
      rcases g5 c hc with h2 | h2
      · exact hgood c h2
      · refine .inl (SafeAt.of_own hct hsep fun row hrow hcn hp => ?_)
        have := h2 row hrow hp hcn
        rw [epsClose, decide_eq_true_eq] at this
        exact this.1.ne'
    · rw [Option.some.injEq] at hsel
      subst hsel
      exact ⟨⟨hnd, hnn, hrg⟩, hgood⟩
  obtain ⟨⟨hnd, hnn, hrg⟩, hgood⟩ := hfinal
  obtain ⟨hxn, s, hs1, hdx, rx, hrx, hrxc, hlx⟩ :=
    hct.labels_sound hnd (fun c hc => (hrg c hc).1) hnn hlab hx hi
  obtain ⟨hyn, s', hs1', hdy, ry, hry, hryc, hly⟩ :=
    hct.labels_sound hnd (fun c hc => (hrg c hc).1) hnn hlab hy hi
  rw [hs1, Option.some.injEq] at hs1'
  subst hs1'
  have hsm : s ∈ sel := (List.perm_insertionSort _ sel).mem_iff.1 (List.mem_of_getElem? hs1)
  subst hrxc
  subst hryc
  rcases hgood s hsm with hg | hg
  · have := hconn s (hrg s hsm).1 (hrg s hsm).2 (by rw [hlt]; exact hg) rx hrx ry hry hxn hyn hdx hdy
      (by rw [hlt]; exact hlx) (by rw [hlt]; exact hly)
    refine this.mono fun e he => ?_
    unfold below at he ⊢
    rw [List.mem_filter] at he ⊢
    exact ⟨(lexsortMst_perm t).mem_iff.1 he.1, he.2⟩
  · exact absurd (hg rx hrx hxn hdx) hlx

/-! ## C30 -/

/-- **C30** (partial): for every graph `g`, every spanning tree `t` whose edges shorter than `+inf` belong to `g` (in particular
every minimum spanning forest of `g` completed with `+inf` edges), every selection method, `cluster_selection_epsilon`,
`max_cluster_size` and `allow_single_cluster`: samples in different components of `g` never share a non-negative label.
`lam` is any decreasing function that is zero exactly at `+inf`.
Missing: `cluster_selection_persistence > 0`, for which the claim is false (`C30_persistence_joins_components`), and weights
above one together with both `max_cluster_size` and `allow_single_cluster` (false: `C30_weighted_root_joins_components`). -/
theorem C30_disconnected_never_share_partial (n : ℕ) (hn : 2 ≤ n) (wt : ℕ → K) (g t : List (Edge W))
    (ht : SpanningTree n t) (hg : ∀ e ∈ t, e.w ≠ ⊤ → e ∈ g) (o : ClusterOpts K) (h1 : 1 < o.minClusterSize)
    (h0 : ∀ x, x < n → 0 ≤ wt x) (hl : ∀ x, x < n → wt x < o.minClusterSize) (lam : W → K) (hlam : Antitone lam)
    (hpos : ∀ d, 0 ≤ lam d) (htop : ∀ d, lam d = 0 ↔ d = ⊤) (hper : o.persistence ≤ 0)
    (hmax : o.maxClusterSize = none ∨ o.allowSingle = false ∨ ∀ x, x < n → wt x ≤ 1)
    (r : ClusterResult W K) (hr : clustersFromMst lam wt o t = some r) (x y : ℕ) (hxy : ¬ Conn g x y) :
    ¬ ∃ i : ℤ, 0 ≤ i ∧ r.labels[x]? = some i ∧ r.labels[y]? = some i := by
  rintro ⟨i, hi, hx, hy⟩
  refine hxy ((same_label_connected hn ht h1 h0 hl hlam hpos htop hper hr (.inr hmax) hi hx hy).mono fun e he => ?_)
  obtain ⟨h2, h3⟩ := List.mem_filter.1 he
  exact hg e h2 (of_decide_eq_true h3).ne

/-! ## C29 -/

/-- Samples that the Kruskal forest keeps apart never share a label. -/
theorem kruskal_labels_apart {n : ℕ} (hn : 2 ≤ n) {wt : ℕ → K} {s : KState W} (hrep : Represents n s.pred s.mst)
    (ha : Acyclic s.mst) {o : ClusterOpts K} (h1 : 1 < o.minClusterSize)
    (h0 : ∀ x, x < n → 0 ≤ wt x) (hl : ∀ x, x < n → wt x < o.minClusterSize) {lam : W → K} (hlam : Antitone lam)
    (hpos : ∀ d, 0 ≤ lam d) (htop : ∀ d, lam d = 0 ↔ d = ⊤) (hper : o.persistence ≤ 0)
    (hmax : o.maxClusterSize = none ∨ o.allowSingle = false ∨ ∀ x, x < n → wt x ≤ 1)
    {r : ClusterResult W K} (hr : clustersFromMst lam wt o (finishMst s n) = some r) {x y : ℕ}
    (hxy : ¬ Conn s.mst x y) : ¬ ∃ i : ℤ, 0 ≤ i ∧ r.labels[x]? = some i ∧ r.labels[y]? = some i := by
  obtain ⟨h2, b, h3, h4⟩ := C08_finish_spanning_tree n (by omega) s hrep ha
  refine C30_disconnected_never_share_partial n hn wt s.mst _ h2 (fun e he hw => ?_) o h1 h0 hl lam hlam hpos htop hper
    hmax r hr x y hxy
  rw [h3, List.mem_append] at he
  exact he.resolve_right fun hb => hw (h4 e hb)

/-- **C29** (partial), pairwise constraints given as a sparse matrix and validated: two samples whose entries in the matrix do
not sum to zero never get the same non-negative label, for every data set (edge list), selection method, epsilon and
`max_cluster_size`.
Missing: `cluster_selection_persistence > 0`, for which the claim is false (`C29_persistence_joins_pair`), semi-supervised
selection, and metrics for which the constraint never reaches Kruskal's algorithm (C44). -/
theorem C29_pairwise_never_share_partial {V : Type*} [AddCommMonoid V] [DecidableEq V] (n : ℕ) (hn : 2 ≤ n) (m : SparseCL V)
    (cl : CLParams) (hcl : resolveCL n (some m) true none = .ok cl) (es : List (Edge W)) (hes : InRange n es)
    (wt : ℕ → K) (o : ClusterOpts K) (h1 : 1 < o.minClusterSize)
    (h0 : ∀ x, x < n → 0 ≤ wt x) (hl : ∀ x, x < n → wt x < o.minClusterSize) (lam : W → K) (hlam : Antitone lam)
    (hpos : ∀ d, 0 ≤ lam d) (htop : ∀ d, lam d = 0 ↔ d = ⊤) (hper : o.persistence ≤ 0)
    (hmax : o.maxClusterSize = none ∨ o.allowSingle = false ∨ ∀ x, x < n → wt x ≤ 1)
    (r : ClusterResult W K) (hr : clustersFromMst lam wt o (finishMst (runKruskalCore n cl es) n) = some r)
    (x y : ℕ) (hx : x < n) (hy : y < n) (hne : x ≠ y) (hxy : m.val x y + m.val y x ≠ 0) :
    ¬ ∃ i : ℤ, 0 ≤ i ∧ r.labels[x]? = some i ∧ r.labels[y]? = some i := by
  obtain ⟨_, _, _, rfl⟩ := resolve_pairwise_ok hcl
  set rows := fun i => (List.range n).filter fun j => m.val i j + m.val j i ≠ 0 with hrows
  have hsym : ∀ i j, CLRel n rows i j → CLRel n rows j i := by
    rintro i j ⟨hi, hj⟩
    rw [hrows] at hj
    simp only [List.mem_filter, List.mem_range, decide_eq_true_eq] at hj
    refine ⟨hj.1, ?_⟩
    simp only [hrows, List.mem_filter, List.mem_range, decide_eq_true_eq]
    exact ⟨hi, by rw [add_comm]; exact hj.2⟩
  have hinv := run_pairwise_inv hsym hes
  refine kruskal_labels_apart hn hinv.rep hinv.greedy.acyclic h1 h0 hl hlam hpos htop hper hmax hr ?_
  refine hinv.greedy.no_conflict hsym hne ⟨hx, ?_⟩
  simp only [hrows, List.mem_filter, List.mem_range, decide_eq_true_eq]
  exact ⟨hy, hxy⟩

/-- **C29** (partial), group constraints: two samples of one group never get the same non-negative label. -/
theorem C29_groups_never_share_partial (n : ℕ) (hn : 2 ≤ n) (len : ℕ) (g : ℕ → ℤ) (cl : CLParams) (v : Bool)
    (hcl : resolveCL (V := ℤ) n none v (some (len, g)) = .ok cl) (es : List (Edge W)) (hes : InRange n es)
    (wt : ℕ → K) (o : ClusterOpts K) (h1 : 1 < o.minClusterSize)
    (h0 : ∀ x, x < n → 0 ≤ wt x) (hl : ∀ x, x < n → wt x < o.minClusterSize) (lam : W → K) (hlam : Antitone lam)
    (hpos : ∀ d, 0 ≤ lam d) (htop : ∀ d, lam d = 0 ↔ d = ⊤) (hper : o.persistence ≤ 0)
    (hmax : o.maxClusterSize = none ∨ o.allowSingle = false ∨ ∀ x, x < n → wt x ≤ 1)
    (r : ClusterResult W K) (hr : clustersFromMst lam wt o (finishMst (runKruskalCore n cl es) n) = some r)
    (x y : ℕ) (hx : x < n) (hy : y < n) (hne : x ≠ y) (hgx : 0 ≤ g x) (hxy : g x = g y) :
    ¬ ∃ i : ℤ, 0 ≤ i ∧ r.labels[x]? = some i ∧ r.labels[y]? = some i := by
  have hno := C03_groups_never_connected n len g cl v hcl es hes x y hx hy hgx hxy hne
  rw [resolve_groups_ok hcl] at hr hno
  have hinv := run_groups_inv (g := g) hes
  exact kruskal_labels_apart hn hinv.rep hinv.greedy.acyclic h1 h0 hl hlam hpos htop hper hmax hr hno

end

/-! ## Concrete cases and counterexamples -/

/-- `1 / d`, zero at `+inf`; distances up to `1/1000` count as `1/1000`. -/
def lamq : WithTop ℚ → ℚ
  | ⊤ => 0
  | (d : ℚ) => if d ≤ 1 / 1000 then 1000 else 1 / d

theorem lamq_antitone : Antitone lamq := by
  intro a b hab
  cases b with
  | top => cases a with
    | top => exact le_rfl
    | coe a =>
      change 0 ≤ if a ≤ 1 / 1000 then (1000 : ℚ) else 1 / a
      split
      · norm_num
      · rename_i h
        have : 0 < a := by linarith
        positivity
  | coe b => cases a with
    | top => exact absurd hab (by simp)
    | coe a =>
      have hab : a ≤ b := WithTop.coe_le_coe.1 hab
      change (if b ≤ 1 / 1000 then (1000 : ℚ) else 1 / b) ≤ if a ≤ 1 / 1000 then (1000 : ℚ) else 1 / a
      split <;> split <;> rename_i h1 h2
      · exact le_rfl
      · exact absurd (hab.trans h1) h2
      · push Not at h1
        rw [div_le_iff₀ (by linarith)]; linarith
      · push Not at h1 h2
        exact one_div_le_one_div_of_le (by linarith) hab

theorem lamq_nonneg (d : WithTop ℚ) : 0 ≤ lamq d := lamq_antitone le_top

theorem lamq_zero (d : WithTop ℚ) : lamq d = 0 ↔ d = ⊤ := by
  cases d with
  | top => simp [lamq]
  | coe a =>
    simp only [lamq, WithTop.coe_ne_top, iff_false]
    split
    · norm_num
    · rename_i h
      have : 0 < a := by linarith
      positivity

/-- Four pairs of samples; distance 10 inside the first pair, 1 in the others, nothing between pairs. -/
def exPairs : List (Edge (WithTop ℚ)) :=
  [⟨0, 1, (10 : ℚ)⟩, ⟨2, 3, (1 : ℚ)⟩, ⟨4, 5, (1 : ℚ)⟩, ⟨6, 7, (1 : ℚ)⟩]

def exOpts (m : Method) (p : ℚ) : ClusterOpts ℚ :=
  { minClusterSize := 2, method := m, maxClusterSize := none, allowSingle := false, epsilon := 0, persistence := p }

/-- Labels of the Kruskal path without constraints. -/
def exLabels (m : Method) (p : ℚ) : Option (List ℤ) :=
  (clustersFromMst lamq (fun _ => 1) (exOpts m p)
    (finishMst (runKruskalCore 8 CLParams.none exPairs) 8)).map ClusterResult.labels

example : exLabels .eom 0 = some [2, 2, 3, 3, 1, 1, 0, 0] := by decide +kernel

/-- **C30** fails with `cluster_selection_persistence > 0`: samples 0 and 2 are in different components of the graph (nothing
but 0-1, 2-3, 4-5, 6-7 is connected) and get the same label, with either selection method. -/
theorem C30_persistence_joins_components : ¬ Conn exPairs 0 2 ∧
    exLabels .eom (1 / 2) = some [1, 1, 1, 1, 2, 2, 0, 0] ∧ exLabels .leaf (1 / 2) = some [1, 1, 1, 1, 2, 2, 0, 0] := by
  refine ⟨fun h => ?_, by decide +kernel, by decide +kernel⟩
  exact absurd (conn_invariant (fun x => x / 2) (by decide) h) (by decide)

/-- The same data with a distance 20 between samples 1 and 2 and the cannot-link pair (0, 2). -/
def exCL : SparseCL ℤ := { isSparse := true, rows := 8, cols := 8, stored := fun i => if i = 0 then [2] else [], val := fun i j => if i = 0 ∧ j = 2 then 1 else 0 }

def exCLLabels (m : Method) (p : ℚ) : Option (List ℤ) :=
  match resolveCL 8 (some exCL) true none with
  | .ok cl => (clustersFromMst lamq (fun _ => 1) (exOpts m p)
      (finishMst (runKruskalCore 8 cl (exPairs ++ [⟨1, 2, (20 : ℚ)⟩])) 8)).map ClusterResult.labels
  | .error _ => none

example : exCLLabels .eom 0 = some [2, 2, 3, 3, 1, 1, 0, 0] := by decide +kernel

/-- **C29** fails with `cluster_selection_persistence > 0`: the cannot-link pair (0, 2) gets label 1. -/
theorem C29_persistence_joins_pair : exCLLabels .eom (1 / 2) = some [1, 1, 1, 1, 2, 2, 0, 0] ∧
    exCLLabels .leaf (1 / 2) = some [1, 1, 1, 1, 2, 2, 0, 0] := ⟨by decide +kernel, by decide +kernel⟩

/-- Two pairs of samples of weight two each. -/
def exTwo : List (Edge (WithTop ℚ)) := [⟨0, 1, (1 : ℚ)⟩, ⟨2, 3, (1 : ℚ)⟩]

/-- **C30** fails with sample weights above one, `max_cluster_size` and `allow_single_cluster`: the weight of the top cluster
is taken to be the number of samples minus one (`max_cluster_size` 3 admits it, though it weighs 8, and not its halves
weighing 4), and everything gets label 0 though 0 and 2 are not connected. -/
theorem C30_weighted_root_joins_components : ¬ Conn exTwo 0 2 ∧
    (clustersFromMst lamq (fun _ => 2)
      { minClusterSize := 3, method := .eom, maxClusterSize := some 3, allowSingle := true, epsilon := 0, persistence := 0 }
      (finishMst (runKruskalCore 4 CLParams.none exTwo) 4)).map ClusterResult.labels = some [0, 0, 0, 0] := by
  refine ⟨fun h => ?_, by decide +kernel⟩
  exact absurd (conn_invariant (fun x => x / 2) (by decide) h) (by decide)

/-- The hypotheses of C29 and C30 are met by this data: the labels exist, and the theorem applies to the pair (0, 2). -/
example : ∃ r, clustersFromMst lamq (fun _ => 1) (exOpts .eom 0)
      (finishMst (runKruskalCore 8 ⟨none, some fun i => if i = 0 ∨ i = 2 then 0 else -1, 1⟩
        (exPairs ++ [⟨1, 2, (20 : ℚ)⟩])) 8) = some r ∧
    ¬ ∃ i : ℤ, 0 ≤ i ∧ r.labels[0]? = some i ∧ r.labels[2]? = some i := by
  obtain ⟨r, hr⟩ := Option.isSome_iff_exists.1 (show (clustersFromMst lamq (fun _ => 1) (exOpts .eom 0)
      (finishMst (runKruskalCore 8 ⟨none, some fun i => if i = 0 ∨ i = 2 then 0 else -1, 1⟩
        (exPairs ++ [⟨1, 2, (20 : ℚ)⟩])) 8)).isSome = true by decide +kernel)
  refine ⟨r, hr, ?_⟩
  exact C29_groups_never_share_partial 8 (by decide) 8 (fun i => if i = 0 ∨ i = 2 then 0 else -1) _ true (by rfl) _
    (by decide) (fun _ => 1) (exOpts .eom 0) (by decide) (by decide) (by decide) lamq lamq_antitone lamq_nonneg
    lamq_zero (by decide) (.inl rfl) r hr 0 2 (by decide) (by decide) (by decide) (by decide) (by decide)

end Verif
