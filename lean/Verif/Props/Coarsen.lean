import Verif.Props.PlscanNested
import Verif.Props.GroupsCases

/-!
# C108: raising `min_cluster_size` coarsens the leaf clustering
-/

namespace Verif
variable {W K : Type*}

section
variable [Field K] [LinearOrder K] [IsStrictOrderedRing K] [LinearOrder W] [Inhabited W] [Inhabited K]

omit [Inhabited W] [Inhabited K] in
/-- The edges of positive lambda are the first ones. -/
theorem positive_prefix {es : List (Edge W)} (hs : es.Pairwise fun a b => a.w ≤ b.w) {lam : W → K} (hlam : Antitone lam) (hpos : ∀ d, 0 ≤ lam d) :
    ∃ m0, ∀ j (hj : j < es.length), lam es[j].w ≠ 0 ↔ j < m0 := by
  induction es with
  | nil => exact ⟨0, fun j hj => absurd hj (by simp)⟩
  | cons e es ih =>
    obtain ⟨m0, hm⟩ := ih hs.of_cons
    by_cases h0 : lam e.w = 0
    · refine ⟨0, fun j hj => ⟨fun h => absurd ?_ h, fun h => absurd h (by omega)⟩⟩
      rcases j with _ | j
      · exact h0
      · have hle := (List.pairwise_cons.1 hs).1 (es[j]'(by simpa using hj)) (List.getElem_mem _)
        exact le_antisymm (h0 ▸ hlam hle) (hpos _)
    · refine ⟨m0 + 1, fun j hj => ?_⟩
      rcases j with _ | j
      · simpa using h0
      · have := hm j (by simpa using hj)
        simpa using this

/-- A leaf clustering, in terms of the linkage table: a label marks the samples below a leaf node whose component of the edges of positive lambda is large. -/
structure LeafView (n : ℕ) (wt : ℕ → K) (es : List (Edge W)) (m0 : ℕ) (θ : K) (labels : List ℤ) : Prop where
  marks : ∀ l ∈ labels, 0 ≤ l → (Hier.ofRows (mstToLinkage wt es)).splitRows wt θ ≠ ∅ ∧ ∃ v, (Hier.ofRows (mstToLinkage wt es)).LeafNode wt θ v ∧
    ∀ z : ℕ, labels[z]? = some l ↔ z < n ∧ (Hier.ofRows (mstToLinkage wt es)).Sub v z ∧ BigComp n wt θ es m0 z
  found : (Hier.ofRows (mstToLinkage wt es)).splitRows wt θ ≠ ∅ → ∀ v, (Hier.ofRows (mstToLinkage wt es)).LeafNode wt θ v → ∃ l : ℤ, 0 ≤ l ∧
    ∀ z : ℕ, labels[z]? = some l ↔ z < n ∧ (Hier.ofRows (mstToLinkage wt es)).Sub v z ∧ BigComp n wt θ es m0 z

theorem leaf_view_core {n : ℕ} (hn : 2 ≤ n) {wt : ℕ → K} {es : List (Edge W)} (ht' : SpanningTree n es) (hs : es.Pairwise fun a b => a.w ≤ b.w)
    {θ : K} (h0 : ∀ x, x < n → 0 ≤ wt x) (hl : ∀ x, x < n → wt x < θ) {lam : W → K} {T : List (CRow K K)}
    (hcond : T = condenseTree (Hier.ofRows (mstToLinkage wt es)) wt θ none lam) (hkind : ∀ row ∈ T, 1 < row.size ↔ n ≤ row.child)
    {sel : List ℕ} (hbase : leafSelection (clusterTree T) n = sel) {eps : Option K} {labels : List ℤ} (hmean : LabelsMean n T sel eps labels)
    {m0 : ℕ} (hm0 : ∀ j (hj : j < es.length), lam es[j].w ≠ 0 ↔ j < m0) :
    LeafView n wt es m0 θ labels := by
  classical
  obtain ⟨k1, -, -, g2, -⟩ := tree_groups hn h0 hl ht' hs lam
  rw [← hcond] at g2
  obtain ⟨hden, hd, -, hnode⟩ := C12_linkage_is_dendrogram n (by omega) wt es ht' hs
  have hrl : (mstToLinkage wt es).length = es.length := by
    have := congrArg List.length hd; simpa using this
  have hHn := hden.hier_n
  have hh := hden.condHyp h0 hl
  have hlen' := ht'.length (by omega)
  have hdEs : ∀ i (hi : i < es.length), (Hier.ofRows (mstToLinkage wt es)).d i = es[i].w := by
    intro i hi
    have hg : (mstToLinkage wt es)[i]? = some (mstToLinkage wt es)[i] := List.getElem?_eq_getElem (by omega)
    rw [Hier.ofRows_d hg]
    have := congrArg (fun l => l[i]?) hd
    simp only [List.getElem?_map] at this
    rw [hg, List.getElem?_eq_getElem hi] at this
    simpa using this
  have hre := (Hier.ofRows (mstToLinkage wt es)).root_eq
  have hmm : (Hier.ofRows (mstToLinkage wt es)).m = es.length := hrl
  obtain ⟨k, relabel, top, hres⟩ := condense_res (mx := none) hh (by omega) lam
  rw [← hcond] at hres
  have hcount : ∀ {v}, v ≤ (Hier.ofRows (mstToLinkage wt es)).root → _ := fun {v} hv => hden.count_eq (v := v) hv
  set H := Hier.ofRows (mstToLinkage wt es) with hH
  have hct : CondTree n k T := hHn ▸ hres.condTree
  have hv := hh.valid
  have hHd : H.n = n := hHn
  -- the selection
  obtain ⟨-, -, hsel, -⟩ := C20_leaf_selection T hct hkind
  rw [hbase] at hsel
  have hsplit : 1 < k ↔ H.splitRows wt θ ≠ ∅ := by
    have hids := hres.cluster_ids hh
    constructor
    · intro hk he
      rw [he] at hids
      simp only [Finset.image_empty, Finset.union_empty] at hids
      have : H.n + 1 ∈ Finset.Ico (H.n + 1) (H.n + k) := Finset.mem_Ico.2 (by omega)
      rw [hids] at this
      simp at this
    · intro hne
      obtain ⟨j, hj⟩ := Finset.nonempty_iff_ne_empty.2 hne
      have hm : relabel (H.l j) ∈ Finset.Ico (H.n + 1) (H.n + k) := by
        rw [hids]; exact Finset.mem_union_left _ (Finset.mem_image.2 ⟨j, hj, rfl⟩)
      rw [Finset.mem_Ico] at hm
      omega
  have htopsel : n ∉ sel := by
    intro hns
    obtain ⟨p1, p2, p3, p4⟩ := (hsel n).1 hns
    have := hres.leafNode hh (c := n) (by omega) (by omega) (by rw [hHd]; exact p4)
    obtain ⟨j, hj⟩ := Finset.nonempty_iff_ne_empty.2 (hsplit.1 p1)
    have h5 := (mem_splitRows.1 hj).1
    have h6 : top n = H.root := by rw [← hHd]; exact hres.top_root
    rw [h6] at this
    exact this.2 j hj (Hier.sub_root hv (by omega))
  -- samples leave at positive lambda if their component is large
  have hbig : H.splitRows wt θ ≠ ∅ → ∀ row ∈ T, row.child < n → (row.lam ≠ 0 ↔ BigComp n wt θ es m0 row.child) := by
    intro hne row hrow hx
    constructor
    · intro hlam0
      obtain ⟨v, ⟨hva, a, hka, hna, hsa⟩, -, hrl', -⟩ := hres.rows_pt row hrow (by omega)
      have hcnt : θ ≤ H.count wt v := by
        rcases hva.2.2 with h | h
        · subst h
          obtain ⟨j, hj⟩ := Finset.nonempty_iff_ne_empty.2 hne
          obtain ⟨q1, q2, q3⟩ := mem_splitRows.1 hj
          obtain ⟨_, _, kl, _⟩ := splitRows_alive hh hj
          have := kl.lt hv
          exact q2.trans (count_mono hh (Hier.sub_root hv (by omega)))
        · exact h
      obtain ⟨j, rfl⟩ := Nat.exists_eq_add_of_le hva.1
      have hjr := hva.2.1
      have hj : j < es.length := by omega
      rw [show H.n + j - H.n = j by omega, hdEs j hj] at hrl'
      rw [hrl'] at hlam0
      have hjm := (hm0 j hj).1 hlam0
      have hsub : H.Sub (H.n + j) row.child := (Hier.Sub.kid hka).trans hsa
      have hconn : ∀ z, z < n → (H.Sub (n + j) z ↔ Conn (es.take (j + 1)) z es[j].u) := by
        intro z hz
        have := hnode j _ (List.getElem?_eq_getElem hj) z hz
        rw [below_iff_sub hHn] at this
        exact (and_iff_right hz).symm.trans this
      rw [hHd] at hsub hcnt
      refine hcnt.trans ?_
      rw [hcount (by omega)]
      refine Finset.sum_le_sum_of_subset_of_nonneg (fun z hz => ?_) fun z hz _ => h0 z (Finset.mem_range.1 (Finset.mem_filter.1 hz).1)
      obtain ⟨z1, z2⟩ := Finset.mem_filter.1 hz
      refine Finset.mem_filter.2 ⟨z1, ?_⟩
      exact (((hconn _ hx).1 hsub).trans ((hconn _ (Finset.mem_range.1 z1)).1 z2).symm).mono fun e he =>
        (List.take_sublist_take_left (show j + 1 ≤ m0 by omega)).subset he
    · intro hb
      obtain ⟨e, he, h⟩ := g2 m0 row.child hx hb row hrow hx (Conn.refl _ _)
      obtain ⟨j, hj⟩ := List.mem_iff_getElem?.1 he
      rw [List.getElem?_take] at hj
      split at hj
      · obtain ⟨hj1, hj2⟩ := List.getElem?_eq_some_iff.1 hj
        rw [h, ← hj2]
        exact (hm0 j hj1).2 ‹_›
      · cases hj
  obtain ⟨hll, hrows⟩ := hmean
  have hrowOf : ∀ x, x < n → ∃ row ∈ T, row.child = x := fun x hx => by
    obtain ⟨row, hrow, he⟩ := List.mem_map.1 ((hct.children x).2 (.inl hx))
    exact ⟨row, hrow, he⟩
  have hiff : ∀ (i : ℕ) (c : ℕ), (sel.insertionSort (· ≤ ·))[i]? = some c → ∀ z : ℕ, labels[z]? = some (i : ℤ) ↔
      z < n ∧ H.Sub (top c) z ∧ BigComp n wt θ es m0 z := by
    intro i c hi z
    obtain ⟨p1, p2, p3, p4⟩ := (hsel c).1 ((List.mem_insertionSort _).1 (List.mem_of_getElem? hi))
    constructor
    · intro hz
      have hzn : z < n := by rw [← hll]; exact (List.getElem?_eq_some_iff.1 hz).1
      obtain ⟨row, hrow, rfl⟩ := hrowOf z hzn
      obtain ⟨q1, c', q2, q3⟩ := ((hrows row hrow hzn).1 htopsel i).1 hz
      rw [hi, Option.some.injEq] at q2
      subst q2
      exact ⟨hzn, (hres.below_iff hh (by omega) (by omega) (by omega)).1 q3, (hbig (hsplit.1 p1) row hrow hzn).1 q1⟩
    · rintro ⟨hzn, hz1, hz2⟩
      obtain ⟨row, hrow, rfl⟩ := hrowOf z hzn
      exact ((hrows row hrow hzn).1 htopsel i).2
        ⟨(hbig (hsplit.1 p1) row hrow hzn).2 hz2, c, hi, (hres.below_iff hh (by omega) (by omega) (by omega)).2 hz1⟩
  refine ⟨fun l hl' hl0 => ?_, fun hne v hv' => ?_⟩
  · obtain ⟨i, rfl⟩ := Int.eq_ofNat_of_zero_le hl0
    obtain ⟨x, hx⟩ := List.mem_iff_getElem?.1 hl'
    have hxn : x < n := by rw [← hll]; exact (List.getElem?_eq_some_iff.1 hx).1
    obtain ⟨row, hrow, rfl⟩ := hrowOf x hxn
    obtain ⟨_, c, hc, _⟩ := ((hrows row hrow hxn).1 htopsel i).1 hx
    obtain ⟨p1, p2, p3, p4⟩ := (hsel c).1 ((List.mem_insertionSort _).1 (List.mem_of_getElem? hc))
    exact ⟨hsplit.1 p1, top c, hres.leafNode hh (by omega) (by omega) (by rw [hHd]; exact p4), hiff i c hc⟩
  · obtain ⟨c, c1, c2, c3, rfl⟩ := hres.leaf_of_node hh hv'
    rw [hHd] at c1 c2 c3
    obtain ⟨i, hi⟩ := List.mem_iff_getElem?.1 ((List.mem_insertionSort (· ≤ ·)).2 ((hsel c).2 ⟨hsplit.2 hne, c1, c2, c3⟩))
    exact ⟨i, by omega, hiff i c hi⟩

theorem leaf_view [OrderTop W] {n : ℕ} (hn : 2 ≤ n) {wt : ℕ → K} {t : List (Edge W)} (ht : SpanningTree n t)
    {o : ClusterOpts K} (h1 : 1 < o.minClusterSize) (h0 : ∀ x, x < n → 0 ≤ wt x)
    (hl : ∀ x, x < n → wt x < o.minClusterSize) {lam : W → K} (hlam : Antitone lam) (hpos : ∀ d, 0 ≤ lam d)
    (hleaf : o.method = .leaf) (hper : o.persistence ≤ 0) (heps : o.epsilon ≤ 0) {r : ClusterResult W K} (hr : clustersFromMst lam wt o t = some r)
    {m0 : ℕ} (hm0 : ∀ j (hj : j < (lexsortMst t).length), lam (lexsortMst t)[j].w ≠ 0 ↔ j < m0) :
    LeafView n wt (lexsortMst t) m0 o.minClusterSize r.labels := by
  classical
  have hlen := ht.length (by omega)
  have ht' := ht.perm (lexsortMst_perm t)
  have hs := lexsortMst_sorted t
  obtain ⟨k', hct', -, -, -, -, -, hmean, -⟩ := C63_returned n hn wt t ht o h1 h0 hl lam hlam hpos hr
  obtain ⟨hcond, hbase⟩ : r.condensed = condenseTree (Hier.ofRows (mstToLinkage wt (lexsortMst t))) wt o.minClusterSize none lam ∧
      baseSelection o n r.condensed = some r.selected := by
    have hr' := hr
    unfold clustersFromMst at hr'
    simp only [hlen] at hr'
    obtain ⟨rows, e4, hr'⟩ := Option.bind_eq_some_iff.1 hr'
    obtain ⟨sel0, e0, hr'⟩ := Option.bind_eq_some_iff.1 hr'
    obtain ⟨sel, e1, hr'⟩ := Option.bind_eq_some_iff.1 hr'
    obtain ⟨labels, e2, hr'⟩ := Option.bind_eq_some_iff.1 hr'
    obtain ⟨str, e3, rfl⟩ := Option.map_eq_some_iff.1 hr'
    unfold epsilonIf at e1
    rw [if_neg (fun h => absurd h.2 (not_lt.2 heps))] at e1
    unfold simplifyIf at e4
    rw [if_neg (fun h => absurd h.1 (not_lt.2 hper))] at e4
    exact ⟨(Option.some.inj e4).symm, by rw [e0, e1]⟩
  obtain ⟨k2, hct2, -, -, hkind, -⟩ := C54_applies n hn wt _ ht' hs o.minClusterSize h1 h0 hl lam hlam
  rw [← hcond] at hct2 hkind
  unfold baseSelection at hbase
  rw [hleaf] at hbase
  exact leaf_view_core hn ht' hs h0 hl hcond hkind (Option.some.inj hbase) hmean hm0

omit [IsStrictOrderedRing K] [LinearOrder W] [Inhabited W] [Inhabited K] in
theorem bigComp_le {n : ℕ} {wt : ℕ → K} {θ θ' : K} (hle : θ ≤ θ') {es : List (Edge W)} {m x : ℕ} (h : BigComp n wt θ' es m x) : BigComp n wt θ es m x := hle.trans h

omit [IsStrictOrderedRing K] [LinearOrder W] [Inhabited W] [Inhabited K] in
theorem bigComp_conn {n : ℕ} {wt : ℕ → K} {θ : K} {es : List (Edge W)} {m x y : ℕ} (hc : Conn (es.take m) x y) (h : BigComp n wt θ es m x) : BigComp n wt θ es m y := by
  classical
  unfold BigComp at h ⊢
  refine h.trans_eq (Finset.sum_congr (Finset.filter_congr fun z _ => ?_) fun _ _ => rfl)
  exact ⟨fun hz => hc.symm.trans hz, fun hz => hc.trans hz⟩

/-- All large components of the first edges that meet a leaf are one. -/
theorem leaf_one_comp {n : ℕ} (hn : 2 ≤ n) {wt : ℕ → K} {θ : K} (h0 : ∀ x, x < n → 0 ≤ wt x) (hl : ∀ x, x < n → wt x < θ) {es : List (Edge W)}
    (ht : SpanningTree n es) (hs : es.Pairwise fun a b => a.w ≤ b.w) {v : ℕ} (hv : (Hier.ofRows (mstToLinkage wt es)).LeafNode wt θ v) {m y z : ℕ}
    (hy : y < n) (hz : z < n) (hvy : (Hier.ofRows (mstToLinkage wt es)).Sub v y) (hvz : (Hier.ofRows (mstToLinkage wt es)).Sub v z)
    (hby : BigComp n wt θ es m y) (hbz : BigComp n wt θ es m z) : Conn (es.take m) y z := by
  by_contra hno
  obtain ⟨hden, -, -, -⟩ := C12_linkage_is_dendrogram n (by omega) wt es ht hs
  have hh := hden.condHyp h0 hl
  have hval := hh.valid
  have hHn := hden.hier_n
  obtain ⟨i, h1, h2, h3, h4⟩ := group_node hn hl ht hs hy hby
  obtain ⟨i', h1', h2', h3', h4'⟩ := group_node hn hl ht hs hz hbz
  have e1 : ¬ (Hier.ofRows (mstToLinkage wt es)).Sub (n + i) (n + i') := fun h => hno ((h4 z hz).1 (h.trans ((h4' z hz).2 (Conn.refl _ _))))
  have e2 : ¬ (Hier.ofRows (mstToLinkage wt es)).Sub (n + i') (n + i) := fun h => hno ((h4' y hy).1 (h.trans ((h4 y hy).2 (Conn.refl _ _)))).symm
  have d1 : (Hier.ofRows (mstToLinkage wt es)).Sub v (n + i) := by
    rcases hvy.comparable hval ((h4 y hy).2 (Conn.refl _ _)) with h | h
    · exact h
    · exact absurd ((h4 z hz).1 (h.trans hvz)) hno
  have d2 : (Hier.ofRows (mstToLinkage wt es)).Sub v (n + i') := by
    rcases hvz.comparable hval ((h4' z hz).2 (Conn.refl _ _)) with h | h
    · exact h
    · exact absurd ((h4' y hy).1 (h.trans hvy)).symm hno
  obtain ⟨j, hj, hsj⟩ := split_of_two hh e1 e2 h3 h3' v d1 d2
  exact hv.2 j hj hsj

/-- Two leaf clusterings of one tree. -/
theorem leafView_nested {n : ℕ} (hn : 2 ≤ n) {wt : ℕ → K} {θ θ' : K} (hle : θ ≤ θ') (h0 : ∀ x, x < n → 0 ≤ wt x) (hl : ∀ x, x < n → wt x < θ) {es : List (Edge W)}
    (ht : SpanningTree n es) (hs : es.Pairwise fun a b => a.w ≤ b.w) {m0 : ℕ} {labels labels' : List ℤ} (h : LeafView n wt es m0 θ labels) (h' : LeafView n wt es m0 θ' labels') :
    (∀ a b : ℤ, 0 ≤ a → 0 ≤ b → (∀ x : ℕ, labels[x]? = some a → labels'[x]? = some b) ∨ ∀ x : ℕ, labels[x]? = some a → labels'[x]? ≠ some b) ∧
      ∀ b ∈ labels', 0 ≤ b → ∃ a ∈ labels, 0 ≤ a ∧ ∀ x : ℕ, labels[x]? = some a → labels'[x]? = some b := by
  obtain ⟨hden, -, -, -⟩ := C12_linkage_is_dendrogram n (by omega) wt es ht hs
  have hh := hden.condHyp h0 hl
  have hval := hh.valid
  have hHn := hden.hier_n
  have hl' : ∀ x, x < n → wt x < θ' := fun x hx => (hl x hx).trans_le hle
  have hnest : ∀ a b : ℤ, 0 ≤ a → 0 ≤ b → ∀ z : ℕ, labels[z]? = some a → labels'[z]? = some b → ∀ x : ℕ, labels[x]? = some a → labels'[x]? = some b := by
    intro a b ha hb z hza hzb x hxa
    obtain ⟨-, v, hv, hva⟩ := h.marks a (List.mem_of_getElem? hza) ha
    obtain ⟨-, w, hw, hwb⟩ := h'.marks b (List.mem_of_getElem? hzb) hb
    obtain ⟨hzn, hz1, hz2⟩ := (hva z).1 hza
    obtain ⟨-, hz3, hz4⟩ := (hwb z).1 hzb
    obtain ⟨hxn, hx1, hx2⟩ := (hva x).1 hxa
    have hsub : (Hier.ofRows (mstToLinkage wt es)).Sub w v := by
      rcases hz1.comparable hval hz3 with h1 | h1
      · rw [leafNode_nested hval hle hv hw h1]; exact Hier.Sub.refl _
      · exact h1
    exact (hwb x).2 ⟨hxn, hsub.trans hx1, bigComp_conn (leaf_one_comp hn h0 hl ht hs hv hzn hxn hz1 hx1 hz2 hx2) hz4⟩
  refine ⟨fun a b ha hb => ?_, fun b hb hb0 => ?_⟩
  · by_cases hex : ∃ z : ℕ, labels[z]? = some a ∧ labels'[z]? = some b
    · obtain ⟨z, h1, h2⟩ := hex
      exact .inl (hnest a b ha hb z h1 h2)
    · exact .inr fun x h1 h2 => hex ⟨x, h1, h2⟩
  · obtain ⟨hne, w, hw, hwb⟩ := h'.marks b hb hb0
    obtain ⟨z, hz⟩ := List.mem_iff_getElem?.1 hb
    obtain ⟨hzn, hz1, hz2⟩ := (hwb z).1 hz
    obtain ⟨j, hj⟩ := Finset.nonempty_iff_ne_empty.2 hne
    have hne0 : (Hier.ofRows (mstToLinkage wt es)).splitRows wt θ ≠ ∅ := fun e => by
      have := splitRows_le hle hj
      rw [e] at this; simp at this
    obtain ⟨i, h1, h2, h3, h4⟩ := group_node hn hl' ht hs hzn hz2
    have hwroot := leafNode_le hval hw
    have hcw : θ' ≤ (Hier.ofRows (mstToLinkage wt es)).count wt w := by
      refine leafNode_count ?_ hw
      obtain ⟨q1, q2, q3⟩ := mem_splitRows.1 hj
      obtain ⟨_, _, kl, _⟩ := splitRows_alive (hden.condHyp h0 hl') hj
      have := kl.lt hval
      have := (Hier.ofRows (mstToLinkage wt es)).root_eq
      exact q2.trans (count_mono hh (Hier.sub_root hval (by omega)))
    -- the lower of the leaf and the component
    obtain ⟨q, hq1, hq2, hq3, hq4⟩ : ∃ q, q ≤ (Hier.ofRows (mstToLinkage wt es)).root ∧ θ' ≤ (Hier.ofRows (mstToLinkage wt es)).count wt q ∧
        (Hier.ofRows (mstToLinkage wt es)).Sub w q ∧ ∀ y, y < n → (Hier.ofRows (mstToLinkage wt es)).Sub q y → Conn (es.take m0) z y := by
      rcases hz1.comparable hval ((h4 z hzn).2 (Conn.refl _ _)) with h5 | h5
      · have := h5.le hval
        exact ⟨n + i, by omega, h3, h5, fun y hy hs => (h4 y hy).1 hs⟩
      · exact ⟨w, hwroot, hcw, Hier.Sub.refl _, fun y hy hs => (h4 y hy).1 (h5.trans hs)⟩
    obtain ⟨u, hu, hu1, hu2⟩ := exists_leafNode hh hq1 (hle.trans hq2)
    obtain ⟨y, hyn, hyu, hyq⟩ : ∃ y, y < n ∧ (Hier.ofRows (mstToLinkage wt es)).Sub u y ∧ (Hier.ofRows (mstToLinkage wt es)).Sub q y := by
      rcases hu2 with h5 | h5
      · obtain ⟨y, h6, h7⟩ := sample_below hval u hu1
        exact ⟨y, by omega, h7, h5.trans h7⟩
      · obtain ⟨y, h6, h7⟩ := sample_below hval q hq1
        exact ⟨y, by omega, h5.trans h7, h7⟩
    have hby' := bigComp_conn (hq4 y hyn hyq) hz2
    obtain ⟨a, ha0, ha⟩ := h.found hne0 u hu
    have hya := (ha y).2 ⟨hyn, hyu, bigComp_le hle hby'⟩
    exact ⟨a, List.mem_of_getElem? hya, ha0, hnest a b ha0 hb0 y hya ((hwb y).2 ⟨hyn, hq3.trans hyq, hby'⟩)⟩

/-- **C108** (partial), the leaf method.  Two clusterings of one spanning tree for two values of `min_cluster_size`: every cluster for the larger value has a whole cluster for the smaller
value inside, every cluster for the smaller value is inside one for the larger value or apart from it, and the larger value gives no more clusters.  Spanning trees may have
infinite edges, samples may have weights below the smaller value.
Missing: excess of mass, for which it is false (`C108_eom`), `cluster_selection_epsilon` and a positive persistence. -/
theorem C108_leaf_partial [OrderTop W] (n : ℕ) (hn : 2 ≤ n) (wt : ℕ → K) (t : List (Edge W)) (ht : SpanningTree n t)
    (o o' : ClusterOpts K) (h1 : 1 < o.minClusterSize) (hle : o.minClusterSize ≤ o'.minClusterSize) (h0 : ∀ x, x < n → 0 ≤ wt x)
    (hl : ∀ x, x < n → wt x < o.minClusterSize) (lam : W → K) (hlam : Antitone lam) (hpos : ∀ d, 0 ≤ lam d)
    (hleaf : o.method = .leaf ∧ o'.method = .leaf) (hper : o.persistence ≤ 0 ∧ o'.persistence ≤ 0) (heps : o.epsilon ≤ 0 ∧ o'.epsilon ≤ 0)
    (r r' : ClusterResult W K) (hr : clustersFromMst lam wt o t = some r) (hr' : clustersFromMst lam wt o' t = some r') :
    (∀ a b : ℤ, 0 ≤ a → 0 ≤ b → (∀ x : ℕ, r.labels[x]? = some a → r'.labels[x]? = some b) ∨ ∀ x : ℕ, r.labels[x]? = some a → r'.labels[x]? ≠ some b) ∧
      (∀ b ∈ r'.labels, 0 ≤ b → ∃ a ∈ r.labels, 0 ≤ a ∧ ∀ x : ℕ, r.labels[x]? = some a → r'.labels[x]? = some b) ∧
      (r'.labels.toFinset.filter fun l => 0 ≤ l).card ≤ (r.labels.toFinset.filter fun l => 0 ≤ l).card := by
  obtain ⟨m0, hm0⟩ := positive_prefix (lexsortMst_sorted t) hlam hpos
  have hv := leaf_view hn ht h1 h0 hl hlam hpos hleaf.1 hper.1 heps.1 hr hm0
  have hv' := leaf_view hn ht (h1.trans_le hle) h0 (fun x hx => (hl x hx).trans_le hle) hlam hpos hleaf.2 hper.2 heps.2 hr' hm0
  obtain ⟨k1, k2⟩ := leafView_nested hn hle h0 hl (ht.perm (lexsortMst_perm t)) (lexsortMst_sorted t) hv hv'
  refine ⟨k1, k2, ?_⟩
  choose! ψ p1 p2 p3 using k2
  refine Finset.card_le_card_of_injOn ψ (fun b hb => ?_) fun b hb c hc hbc => ?_
  · obtain ⟨q1, q2⟩ := Finset.mem_filter.1 hb
    rw [List.mem_toFinset] at q1
    exact Finset.mem_filter.2 ⟨List.mem_toFinset.2 (p1 b q1 q2), p2 b q1 q2⟩
  · obtain ⟨q1, q2⟩ := Finset.mem_filter.1 hb
    obtain ⟨q3, q4⟩ := Finset.mem_filter.1 hc
    rw [List.mem_toFinset] at q1 q3
    obtain ⟨x, hx⟩ := List.mem_iff_getElem?.1 (p1 b q1 q2)
    have e1 := p3 b q1 q2 x hx
    rw [hbc] at hx
    rw [p3 c q3 q4 x hx] at e1
    exact (Option.some.inj e1).symm

end

/-- Eight samples on a line: four pairs, in two groups of two pairs. -/
def exFourPairs : List (Edge (WithTop ℚ)) := [⟨0, 1, 1⟩, ⟨1, 2, 2⟩, ⟨2, 3, 1⟩, ⟨3, 4, 5⟩, ⟨4, 5, 1⟩, ⟨5, 6, 2⟩, ⟨6, 7, 1⟩]

theorem exFourPairs_tree : SpanningTree 8 exFourPairs := path_spanning (by decide) (by decide) fun i hi => by
  have h : ∀ i : Fin 7, ∃ e ∈ exFourPairs, e.u = (i : ℕ) ∧ e.v = (i : ℕ) + 1 := by decide
  exact h ⟨i, by omega⟩

/-- The hypotheses of `C108_leaf_partial` hold for these samples: four clusters for `min_cluster_size=2`, two for 3, and the theorem applies. -/
example : ∃ r r', clustersFromMst lamq (fun _ => 1) ⟨2, .leaf, none, false, 0, 0⟩ exFourPairs = some r ∧ clustersFromMst lamq (fun _ => 1) ⟨3, .leaf, none, false, 0, 0⟩ exFourPairs = some r' ∧
    r.labels = [3, 3, 2, 2, 1, 1, 0, 0] ∧ r'.labels = [1, 1, 1, 1, 0, 0, 0, 0] ∧ (r'.labels.toFinset.filter fun l => 0 ≤ l).card ≤ (r.labels.toFinset.filter fun l => 0 ≤ l).card := by
  have e1 : (clustersFromMst lamq (fun _ => 1) ⟨2, .leaf, none, false, 0, 0⟩ exFourPairs).map ClusterResult.labels = some [3, 3, 2, 2, 1, 1, 0, 0] := by decide +kernel
  have e2 : (clustersFromMst lamq (fun _ => 1) ⟨3, .leaf, none, false, 0, 0⟩ exFourPairs).map ClusterResult.labels = some [1, 1, 1, 1, 0, 0, 0, 0] := by decide +kernel
  obtain ⟨r, hr, e1⟩ := Option.map_eq_some_iff.1 e1
  obtain ⟨r', hr', e2⟩ := Option.map_eq_some_iff.1 e2
  exact ⟨r, r', hr, hr', e1, e2, (C108_leaf_partial 8 (by decide) (fun _ => 1) exFourPairs exFourPairs_tree _ _ (by norm_num) (by norm_num) (fun _ _ => by norm_num) (fun _ _ => by norm_num) lamq
    lamq_antitone lamq_nonneg ⟨rfl, rfl⟩ ⟨le_rfl, le_rfl⟩ ⟨le_rfl, le_rfl⟩ r r' hr hr').2.2⟩

/-- Eleven samples on a line: two far from the nine others, which are three groups of three. -/
def exFar : List (Edge (WithTop ℚ)) :=
  [⟨0, 1, 1⟩, ⟨1, 2, 100⟩, ⟨2, 3, 3⟩, ⟨3, 4, 3⟩, ⟨4, 5, 5⟩, ⟨5, 6, 3⟩, ⟨6, 7, 3⟩, ⟨7, 8, ((9 / 2 : ℚ) : WithTop ℚ)⟩, ⟨8, 9, 3⟩, ⟨9, 10, 3⟩]

/-- **C108** fails for excess of mass: with `min_cluster_size=2` the nine samples are one cluster; with 3 they are three, each of them inside the one found before.  The two far samples
no longer form a cluster, so the nine become the top cluster, which is never chosen. -/
theorem C108_eom : SpanningTree 11 exFar ∧
    (clustersFromMst lamq (fun _ => 1) ⟨2, .eom, none, false, 0, 0⟩ exFar).map ClusterResult.labels = some [1, 1, 0, 0, 0, 0, 0, 0, 0, 0, 0] ∧
    (clustersFromMst lamq (fun _ => 1) ⟨3, .eom, none, false, 0, 0⟩ exFar).map ClusterResult.labels = some [-1, -1, 0, 0, 0, 2, 2, 2, 1, 1, 1] :=
  ⟨path_spanning (by decide) (by decide) fun i hi => by
    have h : ∀ i : Fin 10, ∃ e ∈ exFar, e.u = (i : ℕ) ∧ e.v = (i : ℕ) + 1 := by decide
    exact h ⟨i, by omega⟩, by decide +kernel, by decide +kernel⟩

/-- A larger `min_cluster_size` may also leave samples out: with 4, the leaf method finds no cluster in this tree. -/
example : (clustersFromMst lamq (fun _ => 1) ⟨3, .leaf, none, false, 0, 0⟩ exFar).map ClusterResult.labels = some [-1, -1, 0, 0, 0, 2, 2, 2, 1, 1, 1] ∧
    (clustersFromMst lamq (fun _ => 1) ⟨4, .leaf, none, false, 0, 0⟩ exFar).map ClusterResult.labels = some (List.replicate 11 (-1)) := ⟨by decide +kernel, by decide +kernel⟩

end Verif
