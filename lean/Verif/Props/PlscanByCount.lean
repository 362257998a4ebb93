import Verif.Props.PlscanRows
import Verif.Props.PlscanNested
import Verif.Props.GroupsCases

/-!
# PLSCAN with `base_n_clusters`: C69, C84, C86, C105 and C107 for a base layer found by a number of clusters
-/

namespace Verif
variable {W S L K α : Type*}

/-! ## A base layer of one cluster -/

section
variable {H : Hier W S} {wt : ℕ → S} {mcs : S} {lam : W → L} {rows : List (CRow L S)} {relabel top : ℕ → ℕ} [One S] [LinearOrder S]

/-- In a condensed tree of one cluster the samples below the lowest large node leave last. -/
theorem CondRes.bottom [Preorder W] [Preorder L] (hh : CondHyp H wt mcs) (hlam : Antitone lam) (hm : 0 < H.m)
    (hd : ∀ i j, i ≤ j → j < H.m → H.d i ≤ H.d j) (h : CondRes H wt mcs none lam rows 1 relabel top) :
    ∃ v, H.Alive wt mcs v ∧ ∀ x, x < H.n → H.Sub v x → ∀ row ∈ rows, row.child = x → ∀ row' ∈ rows, row'.lam ≤ row.lam := by
  classical
  have hv := hh.valid
  have hre := H.root_eq
  have hex : ∃ v, H.Alive wt mcs v := ⟨H.root, by omega, le_rfl, .inl rfl⟩
  -- the alive node of least number
  obtain ⟨v, hva, hmin⟩ : ∃ v, H.Alive wt mcs v ∧ ∀ w, H.Alive wt mcs w → v ≤ w := ⟨Nat.find hex, Nat.find_spec hex, fun w hw => Nat.find_min' hex hw⟩
  have hlab : ∀ w, H.Alive wt mcs w → relabel w = H.n := fun w hw => by have := h.lab w hw; omega
  have hbelow : ∀ w, H.Alive wt mcs w → H.Sub w v := fun w hw => by
    rcases h.label_chain hh hw hva ((hlab w hw).trans (hlab v hva).symm) with g | g
    · exact g
    · have := g.le hv
      have := hmin w hw
      have : w = v := by omega
      rw [this]; exact Hier.Sub.refl _
  refine ⟨v, hva, fun x hx hsub row hrow hrx row' hrow' => ?_⟩
  obtain ⟨u, hu1, -, hu3, -⟩ := h.rows_pt row hrow (by omega)
  obtain ⟨w, hw1, hw2⟩ := exists_home hh hva hx hsub
  have huv : u = v := by
    have := Home.unique hh hu1 (hrx ▸ hw1)
    have h1 := hw2.le hv
    have h2 := hmin w hw1.1
    omega
  rw [hu3, huv]
  have key : ∀ w, H.Alive wt mcs w → lam (H.d (w - H.n)) ≤ lam (H.d (v - H.n)) := fun w hw => hlam ((hbelow w hw).height hv hd hva.1 hw.2.1)
  by_cases hc : row'.child < H.n
  · obtain ⟨w', g1, -, g3, -⟩ := h.rows_pt row' hrow' hc
    rw [g3]; exact key w' g1.1
  · obtain ⟨-, -, w', g1, -, -, g3, -⟩ := h.rows_cl row' hrow' (by omega)
    rw [g3]; exact key w' g1

end

section
variable [Field K] [LinearOrder K] [IsStrictOrderedRing K] [LinearOrder W] [Inhabited W] [Inhabited K]

/-- Every label of a leaf clustering for minimum cluster size `s` is used at least `s` times, if no sample leaves at lambda 0. -/
theorem leaf_counts {n : ℕ} (hn : 2 ≤ n) {linkage : List (LRow W K)} (h : Dendrogram n (fun _ => (1 : K)) linkage)
    (hd : (linkage.map LRow.d).Pairwise (· ≤ ·)) {lam : W → K} (hlam : Antitone lam) {s : ℕ} (hs : 2 ≤ s) (hsn : s ≤ n)
    (hrows : ∀ row ∈ searchTree lam linkage s, row.lam ≠ 0) {r : LeafResult K} (hl : IsLeafClustering n (searchTree lam linkage s) r) :
    0 ≤ maxLabel r.labels ∧ ∀ i : ℕ, (i : ℤ) ≤ maxLabel r.labels → s ≤ r.labels.count (i : ℤ) := by
  classical
  have hdense := base_dense hn h hs hrows hl
  obtain ⟨hnd, _, h3, ⟨k, hct, hleaf⟩, _⟩ := hl
  have hlen := h3.1
  have hcard : ∀ i : ℤ, ((Finset.range n).filter fun x => r.labels[x]? = some i).card = r.labels.count i := fun i => by
    rw [← hlen]; exact count_eq_card i r.labels
  by_cases htop : n ∈ r.leaves
  · have hk1 := hct.childless_root ((hleaf n).1 htop).2.2
    subst hk1
    have hyp : CondHyp (Hier.ofRows linkage) (fun _ => (1 : K)) (s : K) :=
      h.condHyp (fun _ _ => zero_le_one) (fun _ _ => by exact_mod_cast (show 1 < s by omega))
    have hM : 0 < (Hier.ofRows linkage).m := by
      have := h.length; change 0 < linkage.length; omega
    have hN := h.hier_n
    obtain ⟨k', relabel, top, hr⟩ := condense_res (mx := none) hyp hM lam
    have hct' : CondTree n k' (searchTree lam linkage s) := by have := hr.condTree; rw [hN] at this; exact this
    have hkk := CondTree.k_unique hct' hct
    subst hkk
    obtain ⟨v, hva, hlast⟩ := hr.bottom hyp hlam hM (ofRows_height hd)
    have hzero : ∀ x, x < n → (Hier.ofRows linkage).Sub v x → r.labels[x]? = some ((0 : ℕ) : ℤ) := by
      intro x hx hsub
      obtain ⟨row, hrow, rfl⟩ := List.mem_map.1 ((hct.children x).2 (.inl hx))
      exact ((h3.2 row hrow hx).2.1 htop 0).2 ⟨rfl, hrows row hrow, fun row' hrow' _ => hlast _ (by rw [hN]; exact hx) hsub row hrow rfl row' hrow'⟩
    have hcnt : (s : K) ≤ (Hier.ofRows linkage).count (fun _ => (1 : K)) v := by
      rcases hva.2.2 with rfl | h4
      · have hre := (Hier.ofRows linkage).root_eq
        have hR : ((Finset.range n).filter fun x => (Hier.ofRows linkage).Sub (Hier.ofRows linkage).root x) = Finset.range n :=
          Finset.filter_true_of_mem fun x hx => Hier.sub_root hyp.valid (by have := Finset.mem_range.1 hx; omega)
        rw [h.count_eq le_rfl, hR, Finset.sum_const, nsmul_eq_mul, mul_one, Finset.card_range]
        exact_mod_cast hsn
      · exact h4
    rw [h.count_eq hva.2.1, Finset.sum_const, nsmul_eq_mul, mul_one, Nat.cast_le] at hcnt
    have hge : s ≤ r.labels.count ((0 : ℕ) : ℤ) := by
      rw [← hcard]
      refine hcnt.trans (Finset.card_le_card fun x hx => ?_)
      rw [Finset.mem_filter, Finset.mem_range] at hx ⊢
      exact ⟨hx.1, hzero x hx.1 hx.2⟩
    have hmem : (0 : ℤ) ∈ r.labels := List.count_pos_iff.1 (by have := hge; simp only [Nat.cast_zero] at this; omega)
    refine ⟨(hdense.mem_iff le_rfl).1 hmem, fun i hi => ?_⟩
    have := (hdense.mem_iff (by omega)).2 hi
    rcases top_labels hct htop h3 _ this with h5 | h5
    · omega
    · rw [h5]; exact_mod_cast hge
  · obtain ⟨k', hct', hbig⟩ := cluster_card hn h lam hs
    have hkk := CondTree.k_unique hct' hct
    subst hkk
    have hlabel : ∀ x, x < n → ∀ i : ℕ, r.labels[x]? = some (i : ℤ) ↔
        ∃ c, (r.leaves.insertionSort (· ≤ ·))[i]? = some c ∧ CDesc (searchTree lam linkage s) c x := fun x hx i => by
      obtain ⟨row, hrow, rfl⟩ := List.mem_map.1 ((hct.children x).2 (.inl hx))
      rw [(h3.2 row hrow hx).1 htop i]
      exact ⟨fun hh => hh.2, fun hh => ⟨hrows row hrow, hh⟩⟩
    have hcount : ∀ i : ℕ, i < (r.leaves.insertionSort (· ≤ ·)).length → s ≤ r.labels.count (i : ℤ) := by
      intro i hi
      have hc : (r.leaves.insertionSort (· ≤ ·))[i] ∈ r.leaves := (List.mem_insertionSort _).1 (List.getElem_mem hi)
      obtain ⟨f1, f2, _⟩ := (hleaf _).1 hc
      rw [← hcard]
      refine hbig _ (lt_of_le_of_ne f1 fun e => htop (by rw [e]; exact hc)) f2 _ fun x => ?_
      rw [Finset.mem_filter, Finset.mem_range]
      refine and_congr_right fun hx => ?_
      rw [hlabel x hx i, List.getElem?_eq_getElem hi]
      simp
    have hpos : 0 < r.leaves.length := by
      obtain ⟨c, hc⟩ : ∃ c, c ∈ r.leaves := by
        obtain ⟨lv, e1, e2⟩ : ∃ c, n ≤ c ∧ c < n + k' ∧ Childless n (searchTree lam linkage s) c := by
          have := hct.pos
          refine ⟨n + (k' - 1), by omega, by omega, fun row hrow hp => ?_⟩
          by_contra hge
          have h4 := (hct.children row.child).1 (List.mem_map_of_mem hrow)
          have h5 := hct.down row hrow (by omega)
          omega
        exact ⟨lv, (hleaf lv).2 ⟨e1, e2⟩⟩
      exact List.length_pos_of_mem hc
    have h0 := hcount 0 (by rw [List.length_insertionSort]; exact hpos)
    have hmem : (0 : ℤ) ∈ r.labels := List.count_pos_iff.1 (by simp only [Nat.cast_zero] at h0; omega)
    refine ⟨(hdense.mem_iff le_rfl).1 hmem, fun i hi => ?_⟩
    obtain ⟨x, hx⟩ := List.mem_iff_getElem?.1 ((hdense.mem_iff (by omega)).2 hi)
    have hxn : x < n := by rw [← hlen]; exact (List.getElem?_eq_some_iff.1 hx).1
    obtain ⟨c, hc, _⟩ := (hlabel x hxn i).1 hx
    exact hcount i (List.getElem?_eq_some_iff.1 hc).1

omit [Field K] [LinearOrder K] [IsStrictOrderedRing K] [LinearOrder W] [Inhabited W] [Inhabited K] in
/-- The minimum cluster size after the search is the size of the smallest cluster. -/
theorem searchedMinSize_spec {labels : List ℤ} {s : ℕ} (hs : 1 ≤ s) (h0 : 0 ≤ maxLabel labels) (h : ∀ i : ℕ, (i : ℤ) ≤ maxLabel labels → s ≤ labels.count (i : ℤ))
    (b : ℕ) : s ≤ searchedMinSize labels b ∧ (∀ i : ℕ, (i : ℤ) ≤ maxLabel labels → searchedMinSize labels b ≤ labels.count (i : ℤ)) ∧
      ∃ i : ℕ, (i : ℤ) ≤ maxLabel labels ∧ labels.count (i : ℤ) = searchedMinSize labels b := by
  unfold searchedMinSize
  cases hx : (labelCounts labels).min? with
  | none =>
    have := List.min?_eq_none_iff.1 hx
    unfold labelCounts at this
    rw [List.map_eq_nil_iff, List.range_eq_nil] at this
    omega
  | some x =>
    obtain ⟨g1, g2⟩ := List.min?_eq_some_iff.1 hx
    obtain ⟨i, hi, rfl⟩ := List.mem_map.1 g1
    have hi' := List.mem_range.1 hi
    have h2 := h i (by omega)
    refine ⟨by dsimp only; omega, fun j hj => ?_, i, by omega, by dsimp only; omega⟩
    have h3 := g2 _ (List.mem_map.2 ⟨j, List.mem_range.2 (by omega), rfl⟩)
    dsimp only
    omega

end

/-! ## The fit -/

section
variable [Field K] [LinearOrder K] [IsStrictOrderedRing K] [Inhabited K]

/-- **C84** (for a spanning tree without infinite edges) with `base_n_clusters`.  Fitting at least four samples returns at most `max_layers` layers, in order of falling
numbers of clusters.  One of them, the base layer, is the leaf clustering for a minimum cluster size `s` from 2 to `n // 2`, and no size in that range gives a number of
leaf clusters closer to `base_n_clusters`.  The others are leaf clusterings for minimum cluster sizes larger than the smallest cluster of the base layer, which has
`m ≥ s` samples.  `labels_` and `membership_strengths_` are those of one of the layers, not of the base layer if there is another.
Missing: infinite edges, for which the minimum cluster size can become 1, `C69_gap`; fewer than four samples. -/
theorem C84_by_count_partial (n : ℕ) (hn : 4 ≤ n) (core : List (WithTop K)) (edges : List (Edge (WithTop K))) (ht : SpanningTree n edges) (hfin : ∀ e ∈ edges, e.w ≠ ⊤)
    (sortE : List (Edge (WithTop K)) → List (Edge (WithTop K))) (hsortE : ∀ l, (sortE l).Perm l ∧ (sortE l).Pairwise fun a b => a.w ≤ b.w)
    (lamSearch lam : WithTop K → K) (hanti : Antitone lamSearch) (hposS : ∀ d, 0 ≤ lamSearch d) (hlamS : ∀ d, d ≠ ⊤ → lamSearch d ≠ 0) (hpos : ∀ d, 0 ≤ lam d)
    (expInv : K → K) (hexp : ∀ x, 0 < x → expInv x ≤ 1) (order : (ℕ → K) → List ℕ → List ℕ)
    (horder : ∀ x l, (order x l).Perm l ∧ (order x l).Pairwise fun a b => x b ≤ x a) (sortLayers : List (Layer K) → List (Layer K))
    (hsort : ∀ l, (sortLayers l).Perm l ∧ (sortLayers l).Pairwise fun a b => maxLabel b.labels ≤ maxLabel a.labels) (thr : ℚ) (maxLayers : ℕ)
    (hmax : 1 ≤ maxLayers) (baseSize : ℕ) (a : ℤ) :
    let linkage := mstToLinkage (fun _ => (1 : K)) (sortE (normaliseEdges core edges))
    ∃ (r : PlscanFit K) (base : Layer K) (leaves : List ℕ) (others : List (ℕ × List ℕ × Layer K)) (s m : ℕ),
      plscanFit expInv order sortLayers sortE lamSearch lam thr maxLayers baseSize (some a) n core edges = some r ∧
      r.layers.length ≤ maxLayers ∧ 2 ≤ s ∧ s ≤ n / 2 ∧ s ≤ m ∧
      (∀ s' : ℕ, 2 ≤ s' → s' ≤ n / 2 → |(leaves.length : ℤ) - a| ≤ |((1 + bigMerges n (fun _ => (1 : K)) linkage (s' : K) : ℕ) : ℤ) - a|) ∧
      (∀ i : ℕ, (i : ℤ) ≤ maxLabel base.labels → m ≤ base.labels.count (i : ℤ)) ∧
      (∃ i : ℕ, (i : ℤ) ≤ maxLabel base.labels ∧ base.labels.count (i : ℤ) = m) ∧
      FitShape n linkage lamSearch s lam m r base leaves others := by
  intro linkage
  obtain ⟨f, _, hf2⟩ := normaliseEdges_mapW core edges
  have ht1 : SpanningTree n (normaliseEdges core edges) := by rw [hf2]; exact (spanningTree_mapW f edges).2 ht
  have ht2 := ht1.perm (hsortE (normaliseEdges core edges)).1
  obtain ⟨hden, hdw, -⟩ := C12_linkage_is_dendrogram n (by omega) (fun _ => (1 : K)) _ ht2 (hsortE (normaliseEdges core edges)).2
  have hdist : (linkage.map LRow.d).Pairwise (· ≤ ·) := by
    rw [show linkage.map LRow.d = (sortE (normaliseEdges core edges)).map Edge.w from hdw, List.pairwise_map]
    exact (hsortE (normaliseEdges core edges)).2
  obtain ⟨-, hrows⟩ := fit_tree (by omega) core ht hfin hsortE
  obtain ⟨q, s, _, _, q1, q2, q3, q4, q5, q6, -, -, -, q7⟩ := C65_search_closest n hn linkage hden lamSearch hposS a
  obtain ⟨c0, c1⟩ := leaf_counts (by omega) hden hdist hanti q2 (by omega) (hrows lamSearch hlamS s q2) q5
  obtain ⟨m1, m2, m3⟩ := searchedMinSize_spec (by omega) c0 c1 baseSize
  obtain ⟨layers, others, g1, g2, g3, g4, g5, -⟩ := layersFromTree_spec n (by omega) linkage hden lam hpos expInv hexp order horder sortLayers hsort thr
    maxLayers hmax _ (q2.trans m1) ⟨q.labels, q.strengths, 0⟩
  have hne : layers ≠ [] := by
    rintro rfl
    simpa using g2.length_eq
  obtain ⟨pre, best, post, b1, b2, b3, b4⟩ := bestLayer_split layers hne
  have hext : extractLeaves (searchTree lamSearch linkage s) = some q.leaves := by
    unfold leafResult at q4
    obtain ⟨ls, e1, e2⟩ := Option.bind_eq_some_iff.1 q4
    obtain ⟨lb, e3, e4⟩ := Option.bind_eq_some_iff.1 e2
    obtain ⟨st, e5, e6⟩ := Option.map_eq_some_iff.1 e4
    rw [e1, ← e6]
  refine ⟨⟨layers, layerTreeDict (buildClusterTree layers.length (layerLabels layers)), best.labels, best.strengths⟩, ⟨q.labels, q.strengths, 0⟩, q.leaves, others, s,
    searchedMinSize q.labels baseSize, ?_, g3, q2, q3, m1, q7, m2, m3, rfl, g2, g4, hext, q5, g5, ⟨best, by rw [b2]; simp, rfl, rfl⟩, fun ho => ?_⟩
  · unfold plscanFit
    simp only
    rw [show buildLayersByCount expInv order sortLayers thr maxLayers n lamSearch lam (mstToLinkage (fun _ => (1 : K)) (sortE (normaliseEdges core edges))) a baseSize =
      some layers by
        unfold buildLayersByCount
        rw [show binarySearchClusters lamSearch (mstToLinkage (fun _ => (1 : K)) (sortE (normaliseEdges core edges))) a n = some q from q1, Option.bind_some]
        exact g1, Option.bind_some, b1]
    rfl
  · have hmem : best ∈ layers := by rw [b2]; simp
    rcases List.mem_cons.1 (g2.mem_iff.1 hmem) with h | h
    · obtain ⟨o, os, rfl⟩ := List.exists_cons_of_ne_nil ho
      have h1 := (g5 o (by simp)).score
      have h2 : o.2.2 ∈ layers := g2.mem_iff.2 (by simp)
      have h3 : o.2.2.score ≤ best.score := by
        rw [b2, List.mem_append, List.mem_cons] at h2
        rcases h2 with h2 | h2 | h2
        · exact (b3 _ h2).le
        · rw [h2]
        · exact b4 _ h2
      rw [h] at h3
      exact absurd h1 (not_lt.2 h3)
    · obtain ⟨o, ho', e⟩ := List.mem_map.1 h
      exact ⟨o, ho', by rw [e], by rw [e]⟩

/-- **C86** (partial) with `base_n_clusters`: as `C86_layer_tree_partial`.  If there is more than one layer then each cluster of `labels_` has more samples than the
smallest cluster of the base layer, and that has at least two.
Missing: infinite edges, fewer than four samples. -/
theorem C86_by_count_partial (n : ℕ) (hn : 4 ≤ n) (core : List (WithTop K)) (edges : List (Edge (WithTop K))) (ht : SpanningTree n edges) (hfin : ∀ e ∈ edges, e.w ≠ ⊤)
    (sortE : List (Edge (WithTop K)) → List (Edge (WithTop K))) (hsortE : ∀ l, (sortE l).Perm l ∧ (sortE l).Pairwise fun a b => a.w ≤ b.w)
    (lamSearch lam : WithTop K → K) (hanti : Antitone lamSearch) (hposS : ∀ d, 0 ≤ lamSearch d) (hlamS : ∀ d, d ≠ ⊤ → lamSearch d ≠ 0) (hpos : ∀ d, 0 ≤ lam d)
    (hlam : ∀ d, d ≠ ⊤ → lam d ≠ 0)
    (expInv : K → K) (hexp : ∀ x, 0 < x → expInv x ≤ 1) (order : (ℕ → K) → List ℕ → List ℕ)
    (horder : ∀ x l, (order x l).Perm l ∧ (order x l).Pairwise fun a b => x b ≤ x a) (sortLayers : List (Layer K) → List (Layer K))
    (hsort : ∀ l, (sortLayers l).Perm l ∧ (sortLayers l).Pairwise fun a b => maxLabel b.labels ≤ maxLabel a.labels) (thr : ℚ) (maxLayers : ℕ)
    (hmax : 1 ≤ maxLayers) (baseSize : ℕ) (a : ℤ) :
    ∃ (r : PlscanFit K) (base : Layer K) (m : ℕ), plscanFit expInv order sortLayers sortE lamSearch lam thr maxLayers baseSize (some a) n core edges = some r ∧
      base ∈ r.layers ∧ 2 ≤ m ∧ (∃ i : ℕ, (i : ℤ) ≤ maxLabel base.labels ∧ base.labels.count (i : ℤ) = m) ∧
      (r.tree.map Prod.fst).Nodup ∧
      (∀ l c, (∃ k ks, (k, ks) ∈ r.tree ∧ (l, c) ∈ ks) ↔ ∃ layer, r.layers[l]? = some layer ∧ 0 ≤ c ∧ c ∈ layer.labels) ∧
      (∀ k ks, (k, ks) ∈ r.tree → ∀ l c, (l, c) ∈ ks → LayerParent r.layers.length (layerLabels r.layers) k.1 k.2 l c ∨
        (k = (r.layers.length, 0) ∧ ∀ pl p, l < pl → pl < r.layers.length → 0 ≤ p → ¬ Shares (layerLabels r.layers) pl p l c)) ∧
      (1 < r.layers.length → ∃ t : ℕ, 2 ≤ t ∧ (∀ v ∈ r.labels, -1 ≤ v ∧ v < t) ∧
        ∀ i : ℕ, i < t → m < ((Finset.range n).filter fun x => r.labels[x]? = some (i : ℤ)).card) := by
  obtain ⟨r, base, leaves, others, s, m, g1, _, g3, _, g5, _, _, g8, h⟩ := C84_by_count_partial n hn core edges ht hfin sortE hsortE lamSearch lam hanti hposS hlamS hpos
    expInv hexp order horder sortLayers hsort thr maxLayers hmax baseSize a
  obtain ⟨hden, hrows⟩ := fit_tree (by omega) core ht hfin hsortE
  exact ⟨r, base, m, g1, h.perm.mem_iff.2 (by simp), by omega, g8, shape_tree (by omega) hden g3 (by omega) hpos (hrows _ hlamS _ g3) (hrows _ hlam _ (by omega)) h⟩

/-- **C107** (partial) with `base_n_clusters`: the layers are nested, as in `C107_nested_partial`.
Missing: infinite edges, fewer than four samples. -/
theorem C107_by_count_partial (n : ℕ) (hn : 4 ≤ n) (core : List (WithTop K)) (edges : List (Edge (WithTop K))) (ht : SpanningTree n edges) (hfin : ∀ e ∈ edges, e.w ≠ ⊤)
    (sortE : List (Edge (WithTop K)) → List (Edge (WithTop K))) (hsortE : ∀ l, (sortE l).Perm l ∧ (sortE l).Pairwise fun a b => a.w ≤ b.w)
    (lamSearch lam : WithTop K → K) (hanti : Antitone lamSearch) (hposS : ∀ d, 0 ≤ lamSearch d) (hlamS : ∀ d, d ≠ ⊤ → lamSearch d ≠ 0) (hpos : ∀ d, 0 ≤ lam d)
    (hlam : ∀ d, d ≠ ⊤ → lam d ≠ 0)
    (expInv : K → K) (hexp : ∀ x, 0 < x → expInv x ≤ 1) (order : (ℕ → K) → List ℕ → List ℕ)
    (horder : ∀ x l, (order x l).Perm l ∧ (order x l).Pairwise fun a b => x b ≤ x a) (sortLayers : List (Layer K) → List (Layer K))
    (hsort : ∀ l, (sortLayers l).Perm l ∧ (sortLayers l).Pairwise fun a b => maxLabel b.labels ≤ maxLabel a.labels) (thr : ℚ) (maxLayers : ℕ)
    (hmax : 1 ≤ maxLayers) (baseSize : ℕ) (a : ℤ) :
    ∃ r : PlscanFit K, plscanFit expInv order sortLayers sortE lamSearch lam thr maxLayers baseSize (some a) n core edges = some r ∧
      (∀ (i j : ℕ) (fine coarse : Layer K), i < j → r.layers[i]? = some fine → r.layers[j]? = some coarse → ∀ a b : ℤ, 0 ≤ a → 0 ≤ b →
        (∀ x : ℕ, fine.labels[x]? = some a → coarse.labels[x]? = some b) ∨ ∀ x : ℕ, fine.labels[x]? = some a → coarse.labels[x]? ≠ some b) ∧
      ∀ k ks, (k, ks) ∈ r.tree → ∀ l c, (l, c) ∈ ks → k = (r.layers.length, 0) ∨
        ∃ (child parent : Layer K), r.layers[l]? = some child ∧ r.layers[k.1]? = some parent ∧ ∀ x : ℕ, child.labels[x]? = some c → parent.labels[x]? = some k.2 := by
  obtain ⟨r, base, leaves, others, s, m, g1, _, g3, _, g5, _, _, g8, h⟩ := C84_by_count_partial n hn core edges ht hfin sortE hsortE lamSearch lam hanti hposS hlamS hpos
    expInv hexp order horder sortLayers hsort thr maxLayers hmax baseSize a
  obtain ⟨hden, hrows⟩ := fit_tree (by omega) core ht hfin hsortE
  exact ⟨r, g1, shape_nested (by omega) hden g3 g5 hposS hpos (hrows _ hlamS _ g3) (hrows _ hlam _ (by omega)) h⟩

/-- **C105** (partial) with `base_n_clusters`: every layer is a sound clustering of the rows.  The base layer has clusters of at least `m ≥ 2` rows, the other layers
clusters of more than `m`.
Missing: infinite edges, fewer than four rows. -/
theorem C105_by_count_partial {reach : α → α → WithTop K} (hsym : ∀ x y, reach x y = reach y x) (X : List α) (h4 : 4 ≤ X.length) (core : List (WithTop K))
    (edges : List (Edge (WithTop K))) (hspan : SpanningTree X.length edges) (hmin : MinSpanningForest (completeGraph X.length (rowDist reach X)) edges)
    (hfin : ∀ e ∈ edges, e.w ≠ ⊤)
    (sortE : List (Edge (WithTop K)) → List (Edge (WithTop K))) (hsortE : ∀ l, (sortE l).Perm l ∧ (sortE l).Pairwise fun a b => a.w ≤ b.w)
    (lamSearch lam : WithTop K → K) (hanti : Antitone lamSearch) (hposS : ∀ d, 0 ≤ lamSearch d) (hlamS : ∀ d, d ≠ ⊤ → lamSearch d ≠ 0) (hpos : ∀ d, 0 ≤ lam d)
    (hlam : ∀ d, d ≠ ⊤ → lam d ≠ 0)
    (expInv : K → K) (hexp : ∀ x, 0 < x → expInv x ≤ 1) (order : (ℕ → K) → List ℕ → List ℕ)
    (horder : ∀ x l, (order x l).Perm l ∧ (order x l).Pairwise fun a b => x b ≤ x a) (sortLayers : List (Layer K) → List (Layer K))
    (hsort : ∀ l, (sortLayers l).Perm l ∧ (sortLayers l).Pairwise fun a b => maxLabel b.labels ≤ maxLabel a.labels) (thr : ℚ) (maxLayers : ℕ)
    (hmax : 1 ≤ maxLayers) (baseSize : ℕ) (a : ℤ) :
    ∃ (r : PlscanFit K) (m : ℕ), plscanFit expInv order sortLayers sortE lamSearch lam thr maxLayers baseSize (some a) X.length core edges = some r ∧ 2 ≤ m ∧
      (∃ layer ∈ r.layers, r.labels = layer.labels ∧ r.strengths = layer.strengths) ∧
      (1 < r.layers.length → SoundGroups (fun _ => true) reach (fun _ => (1 : K)) (m + 1 : ℕ) X r.labels ((List.range X.length).map r.strengths)) ∧
      ∃ base rest, r.layers.Perm (base :: rest) ∧
        (∀ layer ∈ rest, SoundGroups (fun _ => true) reach (fun _ => (1 : K)) (m + 1 : ℕ) X layer.labels ((List.range X.length).map layer.strengths)) ∧
        (SoundGroups (fun _ => true) reach (fun _ => (1 : K)) m X base.labels ((List.range X.length).map base.strengths) ∨
          (rest = [] ∧ LabelledRows (fun _ => true) X base.labels ((List.range X.length).map base.strengths) ∧ ∀ l ∈ base.labels, l = -1 ∨ l = 0)) := by
  obtain ⟨r, base, leaves, others, s, m, g1, _, g3, _, g5, _, g7, _, h⟩ := C84_by_count_partial X.length h4 core edges hspan hfin sortE hsortE lamSearch lam hanti hposS
    hlamS hpos expInv hexp order horder sortLayers hsort thr maxLayers hmax baseSize a
  obtain ⟨c1, c2, c3, c4⟩ := shape_sound hsym (by omega) hspan hmin hfin hsortE hpos hlamS hlam g3 g5 h
  refine ⟨r, m, g1, by omega, c1, c2, base, others.map fun o => o.2.2, h.perm, fun layer hlay => ?_, ?_⟩
  · obtain ⟨o, ho, rfl⟩ := List.mem_map.1 hlay
    exact c3 o ho
  · rcases c4 with c4 | ⟨e1, e2⟩
    · refine .inl ⟨c4.toLabelledRows, fun l hl hl1 => ⟨(c4.size l hl hl1).1, ?_⟩, c4.cluster⟩
      obtain ⟨i, rfl⟩ := Int.eq_ofNat_of_zero_le (c4.size l hl hl1).1
      have hlen : base.labels.length = X.length := h.base_leaf.2.2.1.1
      rw [Finset.sum_const, nsmul_eq_mul, mul_one, Nat.cast_le]
      refine (g7 i ((foldl_maxZ_ge base.labels (-1)).2 _ hl)).trans (le_of_eq ?_)
      rw [← count_eq_card, hlen]
    · exact .inr ⟨by rw [e1]; rfl, e2⟩


/-- **C105** (partial) with `base_n_clusters` and `algorithm='kruskal'`, without `knn_k` and constraints: for every data set of at least four rows with finite symmetric
distances.
Missing: as in `C105_by_count_partial`. -/
theorem C105_kruskal_by_count_partial {dist : α → α → WithTop K} (hsym : ∀ x y, dist x y = dist y x) (ms : ℕ) (X : List α) (h4 : 4 ≤ X.length)
    (hfin : ∀ x ∈ X, ∀ y ∈ X, rowReach dist X ms x y ≠ ⊤) (core : List (WithTop K))
    (sortE : List (Edge (WithTop K)) → List (Edge (WithTop K))) (hsortE : ∀ l, (sortE l).Perm l ∧ (sortE l).Pairwise fun a b => a.w ≤ b.w)
    (lamSearch lam : WithTop K → K) (hanti : Antitone lamSearch) (hposS : ∀ d, 0 ≤ lamSearch d) (hlamS : ∀ d, d ≠ ⊤ → lamSearch d ≠ 0) (hpos : ∀ d, 0 ≤ lam d)
    (hlam : ∀ d, d ≠ ⊤ → lam d ≠ 0)
    (expInv : K → K) (hexp : ∀ x, 0 < x → expInv x ≤ 1) (order : (ℕ → K) → List ℕ → List ℕ)
    (horder : ∀ x l, (order x l).Perm l ∧ (order x l).Pairwise fun a b => x b ≤ x a) (sortLayers : List (Layer K) → List (Layer K))
    (hsort : ∀ l, (sortLayers l).Perm l ∧ (sortLayers l).Pairwise fun a b => maxLabel b.labels ≤ maxLabel a.labels) (thr : ℚ) (maxLayers : ℕ)
    (hmax : 1 ≤ maxLayers) (baseSize : ℕ) (a : ℤ) :
    ∃ (r : PlscanFit K) (m : ℕ), plscanFit expInv order sortLayers sortE lamSearch lam thr maxLayers baseSize (some a) X.length core (kruskalRows dist ms X (X.map fun _ => ())) = some r ∧ 2 ≤ m ∧
      (∃ layer ∈ r.layers, r.labels = layer.labels ∧ r.strengths = layer.strengths) ∧
      (1 < r.layers.length → SoundGroups (fun _ => true) (rowReach dist X ms) (fun _ => (1 : K)) (m + 1 : ℕ) X r.labels ((List.range X.length).map r.strengths)) ∧
      ∃ base rest, r.layers.Perm (base :: rest) ∧
        (∀ layer ∈ rest, SoundGroups (fun _ => true) (rowReach dist X ms) (fun _ => (1 : K)) (m + 1 : ℕ) X layer.labels ((List.range X.length).map layer.strengths)) ∧
        (SoundGroups (fun _ => true) (rowReach dist X ms) (fun _ => (1 : K)) m X base.labels ((List.range X.length).map base.strengths) ∨
          (rest = [] ∧ LabelledRows (fun _ => true) X base.labels ((List.range X.length).map base.strengths) ∧ ∀ l ∈ base.labels, l = -1 ∨ l = 0)) := by
  obtain ⟨h3, h3'⟩ := kruskalRows_tree dist hsym ms X (by omega) (X.map fun _ => ())
  refine C105_by_count_partial (rowReach_comm hsym X ms) X h4 core _ h3 h3' (fun e he => ?_) sortE hsortE lamSearch lam hanti hposS hlamS hpos hlam expInv hexp order horder
    sortLayers hsort thr maxLayers hmax baseSize a
  obtain ⟨hu, hv, _, hw⟩ := mem_completeGraph.1 (h3'.forest.sub.subset he)
  rw [rowDist_eq (List.getElem?_eq_getElem hu) (List.getElem?_eq_getElem hv)] at hw
  rw [hw]
  exact hfin _ (List.getElem_mem hu) _ (List.getElem_mem hv)

end

theorem plLam_anti : Antitone plLam := by
  intro a b hab
  match a, b with
  | _, ⊤ => exact plLam_nonneg _
  | ⊤, (b : ℚ) => exact absurd hab (by simp)
  | (a : ℚ), (b : ℚ) =>
    refine one_div_le_one_div_of_le (add_pos_of_pos_of_nonneg one_pos (le_max_right _ _)) ?_
    have : a ≤ b := WithTop.coe_le_coe.1 hab
    gcongr

/-- Two pairs and two groups of five, 100 apart, and thirteen samples far away. -/
def exCounts : List (Edge (WithTop ℚ)) :=
  [⟨0, 1, 0⟩, ⟨1, 2, 1⟩, ⟨2, 3, 0⟩, ⟨3, 4, 100⟩, ⟨4, 5, 0⟩, ⟨5, 6, 0⟩, ⟨6, 7, 0⟩, ⟨7, 8, 0⟩, ⟨8, 9, 1⟩, ⟨9, 10, 0⟩, ⟨10, 11, 0⟩, ⟨11, 12, 0⟩, ⟨12, 13, 0⟩,
    ⟨13, 14, 200⟩, ⟨14, 15, 0⟩, ⟨15, 16, 0⟩, ⟨16, 17, 0⟩, ⟨17, 18, 0⟩, ⟨18, 19, 0⟩, ⟨19, 20, 0⟩, ⟨20, 21, 0⟩, ⟨21, 22, 0⟩, ⟨22, 23, 0⟩, ⟨23, 24, 0⟩, ⟨24, 25, 0⟩,
    ⟨25, 26, 0⟩]

theorem exCounts_tree : SpanningTree 27 exCounts := path_spanning (by decide) (by decide) fun i hi => by
  have h : ∀ i : Fin 26, ∃ e ∈ exCounts, e.u = (i : ℕ) ∧ e.v = (i : ℕ) + 1 := by decide
  exact h ⟨i, by omega⟩

/-- Asked for five clusters, the base layer has five; another layer has two. -/
example : (plscanFit exExpInv exOrder exSortLayers plSort plLam plLam (1 / 2) 10 10 (some 5) 27 [1, 1] exCounts).map (fun r => (r.layers.map (·.labels), r.tree)) =
    some ([[4, 4, 3, 3, 2, 2, 2, 2, 2, 1, 1, 1, 1, 1, 0, 0, 0, 0, 0, 0, 0, 0, 0, 0, 0, 0, 0],
      [0, 0, 0, 0, 0, 0, 0, 0, 0, 0, 0, 0, 0, 0, 1, 1, 1, 1, 1, 1, 1, 1, 1, 1, 1, 1, 1]],
      [((1, 0), [(0, 4), (0, 3), (0, 2), (0, 1)]), ((1, 1), [(0, 0)]), ((2, 0), [(1, 0), (1, 1)])]) := by decide +kernel

/-- The hypotheses of C84, C86 and C107 hold for it. -/
example : ∃ (r : PlscanFit ℚ) (base : Layer ℚ) (leaves : List ℕ) (others : List (ℕ × List ℕ × Layer ℚ)) (s m : ℕ),
    plscanFit exExpInv exOrder exSortLayers plSort plLam plLam (1 / 2) 10 10 (some 5) 27 [1, 1] exCounts = some r ∧
    FitShape 27 (mstToLinkage (fun _ => (1 : ℚ)) (plSort (normaliseEdges [1, 1] exCounts))) plLam s plLam m r base leaves others := by
  obtain ⟨r, base, leaves, others, s, m, h1, _, _, _, _, _, _, _, h2⟩ := C84_by_count_partial 27 (by decide) [1, 1] exCounts exCounts_tree (by decide) plSort plSort_sorts
    plLam plLam plLam_anti plLam_nonneg plLam_ne_zero plLam_nonneg exExpInv (fun x hx => by unfold exExpInv; rw [div_le_one (by linarith)]; linarith) exOrder
    exOrder_sorts exSortLayers exSortLayers_sorts (1 / 2) 10 (by decide) 10 5
  exact ⟨r, base, leaves, others, s, m, h1, h2⟩

/-- The hypotheses of C105 hold for the eleven points. -/
example : ∃ (r : PlscanFit ℚ) (m : ℕ), plscanFit exExpInv exOrder exSortLayers plSort plLam plLam (1 / 2) 10 10 (some 2) 11 [1, 1]
    (kruskalRows rowLine 1 exPlRows (exPlRows.map fun _ => ())) = some r ∧ 2 ≤ m := by
  obtain ⟨r, m, h1, h2, _⟩ := C105_kruskal_by_count_partial rowLine_comm 1 exPlRows (by decide) (by decide +kernel) [1, 1] plSort plSort_sorts
    plLam plLam plLam_anti plLam_nonneg plLam_ne_zero plLam_nonneg plLam_ne_zero exExpInv (fun x hx => by unfold exExpInv; rw [div_le_one (by linarith)]; linarith) exOrder
    exOrder_sorts exSortLayers exSortLayers_sorts (1 / 2) 10 (by decide) 10 2
  exact ⟨r, m, h1, h2⟩

/-- Asked for one cluster, eighteen samples in three groups get a base layer of one cluster, the samples of the two nearest groups. -/
example : (plscanFit exExpInv exOrder exSortLayers plSort plLam plLam (1 / 2) 10 10 (some 1) 18 [1, 1]
      [⟨0, 1, 0⟩, ⟨1, 2, 0⟩, ⟨2, 3, 2⟩, ⟨3, 4, 0⟩, ⟨4, 5, 0⟩, ⟨5, 6, 10⟩, ⟨6, 7, 0⟩, ⟨7, 8, 0⟩, ⟨8, 9, 2⟩, ⟨9, 10, 0⟩, ⟨10, 11, 0⟩, ⟨11, 12, 100⟩,
        ⟨12, 13, 0⟩, ⟨13, 14, 0⟩, ⟨14, 15, 2⟩, ⟨15, 16, 0⟩, ⟨16, 17, 0⟩]).map (fun r => r.layers.map (·.labels)) =
    some [[0, 0, 0, 0, 0, 0, 0, 0, 0, 0, 0, 0, -1, -1, -1, -1, -1, -1]] := by decide +kernel

/-- **C105** and **C107** with `base_n_clusters` and infinite edges.  The isolated samples are a cluster of the base layer that labels nobody, so the minimum cluster size
becomes 1 and a second layer labels only three samples.  The first cluster of the base layer is neither inside a cluster of the second layer nor apart from all. -/
theorem C107_by_count_infinite_edges : SpanningTree 16 exBridged ∧
    ∃ fine coarse : List ℤ,
      (plscanFit exExpInv exOrder exSortLayers plSort plLam plLam (1 / 2) 10 10 (some 3) 16 [1, 1] exBridged).map (fun r => (r.layers.map (·.labels), r.labels)) =
        some ([fine, coarse], coarse) ∧
      fine = [-1, -1, -1, -1, -1, -1, 2, 2, 2, 2, 2, 2, 0, 0, 0, 0] ∧ coarse = [-1, -1, -1, -1, -1, -1, -1, 2, -1, -1, 2, -1, -1, 0, -1, -1] ∧
      ¬ ((∀ x : ℕ, fine[x]? = some 2 → coarse[x]? = some 2) ∨ ∀ x : ℕ, fine[x]? = some 2 → coarse[x]? ≠ some 2) := by
  refine ⟨exBridged_tree, _, _, by decide +kernel, rfl, rfl, ?_⟩
  rintro (h | h)
  · exact absurd (h 6 rfl) (by decide)
  · exact absurd rfl (h 7 rfl)

/-- Twenty isolated samples before six samples and two triples, a path as `bridge_forest_with_inf` makes it, with the infinite edges in some order: sorting does not
order them. -/
def exIsolated : List (Edge (WithTop ℚ)) :=
  [⟨20, 21, 1⟩, ⟨21, 22, 1⟩, ⟨22, 23, 1⟩, ⟨23, 24, 1⟩, ⟨24, 25, 1⟩, ⟨26, 27, 1⟩, ⟨27, 28, 1⟩, ⟨29, 30, 1⟩, ⟨30, 31, 1⟩, ⟨28, 29, 2⟩, ⟨25, 26, 10⟩,
    ⟨0, 1, ⊤⟩, ⟨1, 2, ⊤⟩, ⟨3, 4, ⊤⟩, ⟨4, 5, ⊤⟩, ⟨2, 3, ⊤⟩, ⟨5, 6, ⊤⟩, ⟨6, 7, ⊤⟩, ⟨7, 8, ⊤⟩, ⟨8, 9, ⊤⟩,
    ⟨10, 11, ⊤⟩, ⟨11, 12, ⊤⟩, ⟨13, 14, ⊤⟩, ⟨14, 15, ⊤⟩, ⟨12, 13, ⊤⟩, ⟨15, 16, ⊤⟩, ⟨16, 17, ⊤⟩, ⟨17, 18, ⊤⟩, ⟨18, 19, ⊤⟩, ⟨19, 20, ⊤⟩, ⟨9, 10, ⊤⟩]

theorem exIsolated_tree : SpanningTree 32 exIsolated :=
  path_spanning (by decide) rfl fun i hi => by
    have h : ∀ i : Fin 31, ∃ e ∈ exIsolated, e.u = i ∧ e.v = (i : ℕ) + 1 := by decide
    exact h ⟨i, by omega⟩

/-- **C107** with infinite edges and the default base layer, refuted.  Labels that nobody has put the finer layer after the coarser one: the second cluster of the first
layer is two clusters of the second, and samples with label 2 in the first layer have label 2 or 1 in the second. -/
theorem C107_infinite_edges : SpanningTree 32 exIsolated ∧
    ∃ first second : List ℤ,
      (plscanFit exExpInv exOrder exSortLayers plSort plLam plLam (1 / 2) 10 2 none 32 [1, 1] exIsolated).map (fun r => r.layers.map (·.labels)) =
        some [first, second] ∧
      (∀ x : ℕ, x < 20 → first[x]? = some (-1) ∧ second[x]? = some (-1)) ∧
      first.drop 20 = [3, 3, 3, 3, 3, 3, 2, 2, 2, 2, 2, 2] ∧ second.drop 20 = [0, 0, 0, 0, 0, 0, 2, 2, 2, 1, 1, 1] ∧
      ¬ ((∀ x : ℕ, first[x]? = some 2 → second[x]? = some 2) ∨ ∀ x : ℕ, first[x]? = some 2 → second[x]? ≠ some 2) := by
  refine ⟨exIsolated_tree, [-1, -1, -1, -1, -1, -1, -1, -1, -1, -1, -1, -1, -1, -1, -1, -1, -1, -1, -1, -1, 3, 3, 3, 3, 3, 3, 2, 2, 2, 2, 2, 2],
    [-1, -1, -1, -1, -1, -1, -1, -1, -1, -1, -1, -1, -1, -1, -1, -1, -1, -1, -1, -1, 0, 0, 0, 0, 0, 0, 2, 2, 2, 1, 1, 1], by decide +kernel, by decide, rfl, rfl, ?_⟩
  rintro (h | h)
  · exact absurd (h 29 rfl) (by decide)
  · exact absurd rfl (h 26 rfl)

end Verif
