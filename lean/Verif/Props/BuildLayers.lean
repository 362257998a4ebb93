import Verif.Props.LayerLeaves
import Verif.Props.Persistence
import Verif.Props.Layers
import Mathlib.Tactic.Linarith
import Mathlib.Tactic.Positivity

/-!
# C69: the layers of `build_cluster_layers`
-/

namespace Verif
variable {W K : Type*}

section
variable [Field K] [LinearOrder K] {n k : ℕ}

/-- Births and deaths of a tree whose cluster sizes are integers up to `n`. -/
theorem barcode_nat [IsStrictOrderedRing K] [Inhabited K] (rows : List (CRow K K)) (h : CondTree n k rows) (hb : CBinary n k rows) (h2 : 1 < k)
    (expInv : K → K) (hexp : ∀ x, 0 < x → expInv x ≤ 1) (m : ℕ) (hsz : ∀ row ∈ rows, n ≤ row.child → ∃ t : ℕ, row.size = t ∧ t ≤ n) :
    let b := sizeBarcode expInv n (m : K) (clusterRows n rows)
    ∀ i, i < k → (∃ t : ℕ, b.births i = t ∧ m ≤ t) ∧ b.deaths i ≤ n ∧ b.lamDeaths i ≤ 1 := by
  intro b i hi
  obtain ⟨_, hd0, _, hl0, hd, hl, hbirth⟩ := C66_barcode rows h hb h2 expInv (m : K)
  refine ⟨?_, ?_⟩
  · obtain ⟨M, P, A, B, lv, hk, hp⟩ := exists_pairRows h hb
    have hinv : BarInv expInv n (m : K) P A B lv 0 M b := barcode_inv hp
    obtain ⟨t, ht⟩ := hinv.births_pred hk hp (fun x => ∃ t : ℕ, x = t) ⟨m, rfl⟩ (fun j hj => by
      obtain ⟨g1, g2⟩ := hp.mem hj
      obtain ⟨t1, e1, _⟩ := hsz _ g1 (by dsimp only; omega)
      obtain ⟨t2, e2, _⟩ := hsz _ g2 (by dsimp only; omega)
      dsimp only at e1 e2
      rw [e1, e2]
      exact ⟨min t1 t2, (Nat.cast_min t1 t2).symm⟩) _ i hi le_rfl
    refine ⟨t, ht, ?_⟩
    have := ((hbirth (i + n) (by omega) (by omega) (t : K)).1 (by rw [Nat.add_sub_cancel]; exact ht.le)).1
    exact_mod_cast this
  · rcases Nat.eq_zero_or_pos i with rfl | hpos
    · exact ⟨hd0.le, by rw [show b.lamDeaths 0 = 0 from hl0]; exact zero_le_one⟩
    · obtain ⟨row, hr, hc⟩ := List.mem_map.1 ((h.children (n + i)).2 (.inr ⟨by omega, by omega⟩))
      obtain ⟨sib, hsr, hsc, hsp, hsne⟩ := exists_sibling h hb hr (by omega)
      have e1 := hd row hr sib hsr (by omega) hsc hsp.symm (Ne.symm hsne)
      have e2 := (hl row hr (by omega)).2
      rw [show row.child - n = i by omega] at e1 e2
      obtain ⟨t, ht, htn⟩ := hsz row hr (by omega)
      refine ⟨?_, ?_⟩
      · change (sizeBarcode expInv n (m : K) (clusterRows n rows)).deaths i ≤ n
        rw [e1]
        refine (min_le_left _ _).trans ?_
        rw [ht]; exact_mod_cast htn
      · change (sizeBarcode expInv n (m : K) (clusterRows n rows)).lamDeaths i ≤ 1
        rw [e2]
        split_ifs with hpos'
        · exact hexp _ hpos'
        · exact zero_le_one

variable [IsStrictOrderedRing K] [Inhabited W] [Inhabited K]

omit [Field K] [LinearOrder K] [IsStrictOrderedRing K] [Inhabited W] [Inhabited K] in
theorem mapM_eq_some_map {α β : Type*} (f : α → Option β) (g : α → β) : ∀ l : List α, (∀ a ∈ l, f a = some (g a)) → l.mapM f = some (l.map g)
  | [], _ => rfl
  | a :: l, h => by
    rw [List.mapM_cons, h a (by simp), mapM_eq_some_map f g l fun a ha => h a (by simp [ha])]
    rfl

/-- A layer of the samples: `sel` are clusters of the condensed tree `rows`, `leaves` those for the minimum cluster size `s + 1`. -/
structure IsLayer (n : ℕ) (linkage : List (LRow W K)) (lam : W → K) (m s : ℕ) (sel : List ℕ) (l : Layer K) : Prop where
  size : m ≤ s ∧ s < n
  nodup : sel.Nodup
  nonNested : NonNested (searchTree lam linkage m) sel
  two : 1 < sel.length ∧ ∀ c ∈ sel, n < c
  leaves : ∃ leaves, extractLeaves (searchTree lam linkage (s + 1)) = some leaves ∧
    sampleSets n (searchTree lam linkage m) sel = sampleSets n (searchTree lam linkage (s + 1)) leaves
  labels : LabelsMean n (searchTree lam linkage m) sel none l.labels
  strengths : ∀ x, x < n → 0 ≤ l.strengths x ∧ l.strengths x ≤ 1 ∧ (l.labels[x]? = some (-1) → l.strengths x = 0)
  score : 0 < l.score

/-- The layers above a given base layer. -/
theorem layersFromTree_spec (n : ℕ) (hn : 2 ≤ n) (linkage : List (LRow W K)) (h : Dendrogram n (fun _ => 1) linkage) (lam : W → K) (hpos : ∀ d, 0 ≤ lam d)
    (expInv : K → K) (hexp : ∀ x, 0 < x → expInv x ≤ 1) (order : (ℕ → K) → List ℕ → List ℕ)
    (horder : ∀ x l, (order x l).Perm l ∧ (order x l).Pairwise fun a b => x b ≤ x a) (sortLayers : List (Layer K) → List (Layer K))
    (hsort : ∀ l, (sortLayers l).Perm l ∧ (sortLayers l).Pairwise fun a b => maxLabel b.labels ≤ maxLabel a.labels) (thr : ℚ) (maxLayers : ℕ)
    (hmax : 1 ≤ maxLayers) (m : ℕ) (hm : 2 ≤ m) (base : Layer K) :
    ∃ (layers : List (Layer K)) (others : List (ℕ × List ℕ × Layer K)),
      layersFromTree expInv order sortLayers thr maxLayers n (m : K) (searchTree lam linkage m) base = some layers ∧
      layers.Perm (base :: others.map fun o => o.2.2) ∧ layers.length ≤ maxLayers ∧
      (layers.Pairwise fun a b => maxLabel b.labels ≤ maxLabel a.labels) ∧
      (∀ o ∈ others, IsLayer n linkage lam m o.1 o.2.1 o.2.2) ∧
      others.Pairwise fun o p => o.1 ≠ p.1 ∧ p.2.2.score ≤ o.2.2.score ∧ jaccard o.2.1.toFinset p.2.1.toFinset ≤ thr := by
  classical
  have hm' : (1 : K) < m := by exact_mod_cast (show 1 < m by omega)
  have h0 : ∀ x, x < n → (0 : K) ≤ (fun _ => (1 : K)) x := fun _ _ => zero_le_one
  have hl : ∀ x, x < n → (fun _ => (1 : K)) x < (m : K) := fun _ _ => hm'
  unfold layersFromTree
  obtain ⟨k, hct, hcb, hsz⟩ := C17_condensed_clusters_real n hn (fun _ => (1 : K)) linkage h (m : K) h0 hl lam
  change CondTree n k (searchTree lam linkage m) at hct
  change CBinary n k (searchTree lam linkage m) at hcb
  cases hk : barcodeNodes n (clusterRows n (searchTree lam linkage m)) with
  | none =>
    dsimp only
    refine ⟨_, [], rfl, (hsort _).1, ?_, (hsort _).2, by simp, List.Pairwise.nil⟩
    rw [(hsort _).1.length_eq]; exact hmax
  | some k' =>
    have h2 : 1 < k := barcodeNodes_ne hct ⟨k', hk⟩
    have hkk : k' = k := by
      have := (C66_barcode _ hct hcb h2 expInv (m : K)).1
      rw [hk] at this; exact Option.some.inj this
    subst hkk
    dsimp only
    have hnat : ∀ row ∈ searchTree lam linkage m, n ≤ row.child → ∃ t : ℕ, row.size = t ∧ t ≤ n := by
      intro row hrow hc
      refine ⟨_, ((hsz row hrow).2 hc).2.trans (Finset.sum_const 1 |>.trans (nsmul_one _)), ?_⟩
      exact (Finset.card_filter_le _ _).trans (Finset.card_range n).le
    have hbar := barcode_nat _ hct hcb h2 expInv hexp m hnat
    have hlay := C66_layers _ hct hcb h2 expInv (m : K)
    have hleafS := fun s h1 h3 => C67_layer_is_leaf_clustering n hn linkage h lam lam expInv m s k' hm h1 h3 hk
    dsimp only at hbar hlay
    set b := sizeBarcode expInv n (m : K) (clusterRows n (searchTree lam linkage m)) with hbdef
    set sizes := uniqueBirths k' b.births with hsizes
    set total := totalPersistence k' b.births b.deaths b.lamDeaths with htotal
    have hp1 := C68_positive k' b.births b.deaths b.lamDeaths (fun i hi => by
      obtain ⟨⟨t, ht, _⟩, _⟩ := hbar i hi
      rw [ht]; exact Nat.cast_nonneg t) (fun i hi => (hbar i hi).2.2)
    rw [if_neg (by omega)]
    obtain ⟨ps, e1, e2, e3, e4, e5⟩ := C51_peaks sizes.length total
    have hndp : (findPeaks sizes.length total).Nodup := e4.imp fun h => h.ne
    obtain ⟨f1, f2, f3, f4, f5, _⟩ := C52_diverse_peaks (order total) total (findPeaks sizes.length total) (horder _ _).1 (horder _ _).2 hndp
      (fun p => sizes.getD p 0) k' b.births b.deaths thr (maxLayers - 1) _ rfl
    set sel := selectDiversePeaks (order total) (findPeaks sizes.length total) (fun p => sizes.getD p 0) k' b.births b.deaths thr (maxLayers - 1)
    have hlam : ∀ row ∈ searchTree lam linkage m, 0 ≤ row.lam := by
      intro row hrow
      have hM : 0 < (Hier.ofRows linkage).m := by
        have := h.length; change 0 < linkage.length; omega
      obtain ⟨k2, relabel, top, hres⟩ := condense_res (mx := none) (h.condHyp h0 hl) hM lam
      have hN := h.hier_n
      by_cases hc : row.child < n
      · obtain ⟨v, _, _, hv, _⟩ := hres.rows_pt row hrow (by omega)
        rw [hv]; exact hpos _
      · obtain ⟨_, _, v, _, _, _, hv, _⟩ := hres.rows_cl row hrow (by omega)
        rw [hv]; exact hpos _
    have hne : searchTree lam linkage m ≠ [] := by
      rintro he
      rw [he] at hk
      cases hk
    -- each peak gives a layer
    have hpeak : ∀ p ∈ sel, ∃ l, peakLayer n k' b (searchTree lam linkage m) sizes total p = some l ∧ l.score = total p ∧
        ∃ s : ℕ, sizes[p]? = some (s : K) ∧ IsLayer n linkage lam m s (layerClusters n k' b (s : K)) l := by
      intro p hp
      have hpk := f3 p hp
      rw [e1] at hpk
      obtain ⟨⟨lo, hi⟩, hq, hmid⟩ := List.mem_map.1 hpk
      have hpl := (e2 lo hi).1 hq
      have g1 := hpl.pos
      have g2 := hpl.le
      have g3 := hpl.lt
      simp only at hmid
      have hval : total p = total lo := hpl.flat p (by omega) (by omega)
      have hlt : p < sizes.length := by omega
      have hget : sizes[p]? = some sizes[p] := List.getElem?_eq_getElem hlt
      obtain ⟨i, hi, hbi⟩ := mem_uniqueBirths.1 (List.getElem_mem hlt)
      obtain ⟨⟨s, hs, hms⟩, _⟩ := hbar i hi
      have hsv : sizes[p] = (s : K) := by rw [← hs, hbi]
      rw [hsv] at hget
      have htp : 0 < total p := by
        have hl1 : lo - 1 < sizes.length := by omega
        have := (hp1 (lo - 1) _ (List.getElem?_eq_getElem hl1)).1
        rw [hval]
        exact this.trans_lt hpl.left
      obtain ⟨i', i1, i2, i3, i4⟩ := (hp1 p _ hget).2.1 htp
      have hsn : (s : K) < n := i4.trans_le (hbar i' i2).2.1
      have hsn' : s < n := by exact_mod_cast hsn
      obtain ⟨c1, c2, c3, _⟩ := hlay (s : K) (by exact_mod_cast hms) hsn
      have hroot : 1 < (layerClusters n k' b (s : K)).length ∧ ∀ c ∈ layerClusters n k' b (s : K), n < c := by
        rcases c3 with c3 | c3
        · exfalso
          have : i' + n ∈ layerClusters n k' b (s : K) := mem_layerClusters.2 ⟨by omega, by omega, by rw [Nat.add_sub_cancel]; exact ⟨i3, i4⟩⟩
          rw [c3, List.mem_singleton] at this
          omega
        · exact c3
      obtain ⟨labels, str, d1, d2, d3, d4⟩ := hct.labels_total hne hlam _ c2 c1 none (.inr (.inr hroot))
      refine ⟨⟨labels, str, total p⟩, ?_, rfl, s, hget, ⟨hms, hsn'⟩, c2, c1, hroot, hleafS s hms hsn', d3, fun x hx => ?_, htp⟩
      · unfold peakLayer extractById
        rw [List.getD_eq_getElem?_getD, hget, Option.getD_some]
        have hfirst : ∀ row rest, searchTree lam linkage m = row :: rest → row.parent = n := fun row rest he => by
          rcases hct.order 0 row (by rw [he]; rfl) with g | ⟨j, _, hj, _⟩
          · exact g
          · omega
        cases hrows : searchTree lam linkage m with
        | nil => exact absurd hrows hne
        | cons row rest =>
          dsimp only
          rw [hfirst row rest hrows, ← hrows, d1, Option.bind_some]
          unfold finiteStrengths
          rw [d2]; rfl
      · obtain ⟨row, hrow, rfl⟩ := List.mem_map.1 ((hct.children x).2 (.inl hx))
        exact d4 row hrow hx
    haveI : Inhabited (Layer K) := ⟨⟨[], fun _ => 0, 0⟩⟩
    choose! L hL hsc S hS hIs using hpeak
    rw [mapM_eq_some_map _ L sel hL, Option.map_some]
    refine ⟨_, sel.map fun p => (S p, layerClusters n k' b (S p : K), L p), rfl, ?_, ?_, (hsort _).2, ?_, ?_⟩
    · rw [List.map_map]
      exact (hsort _).1
    · rw [(hsort _).1.length_eq, List.length_cons, List.length_map]
      omega
    · intro o ho
      obtain ⟨p, hp, rfl⟩ := List.mem_map.1 ho
      exact hIs p hp
    · rw [List.pairwise_map]
      refine (List.Pairwise.and_mem.1 (f2.and f4)).imp fun {p q} hpq => ?_
      obtain ⟨hp, hq, hne', hle⟩ := hpq
      have key : ∀ p ∈ sel, (layerClusters n k' b (S p : K)).toFinset = (activeSet k' b.births b.deaths (sizes.getD p 0)).map (addRightEmbedding n) := by
        intro p hp
        rw [List.getD_eq_getElem?_getD, hS p hp, Option.getD_some]
        ext c
        rw [List.mem_toFinset, Finset.mem_map]
        unfold layerClusters activeAt activeSet
        rw [List.mem_map]
        simp [addRightEmbedding]
      refine ⟨?_, ?_, ?_⟩
      · dsimp only
        intro he
        have h3 := hS p hp
        rw [he, ← hS q hq] at h3
        obtain ⟨hl1, _⟩ := List.getElem?_eq_some_iff.1 (hS p hp)
        exact hne' ((List.getElem?_inj hl1 ((uniqueBirths_sorted _ _).imp fun h => h.ne)).1 h3)
      · dsimp only
        rw [hsc p hp, hsc q hq]; exact hle
      · have := f5 p hp q hq hne'
        dsimp only
        rw [key p hp, key q hq]
        unfold jaccard at this ⊢
        rw [← Finset.map_inter, ← Finset.map_union, Finset.card_map, Finset.card_map]
        exact this

/-- **C69.**  For every dendrogram with each sample counting 1, every base minimum cluster size of at least 2 and at least one layer allowed, layers
are returned: the base layer, which is the leaf clustering for the base size with score 0, and others.  There are no more than allowed, and they
are sorted by descending number of clusters.  Each other layer is the leaf clustering for a larger minimum cluster size, of at least two clusters,
with a positive score; two of them are never more similar than the threshold. -/
theorem C69_layers (n : ℕ) (hn : 2 ≤ n) (linkage : List (LRow W K)) (h : Dendrogram n (fun _ => 1) linkage) (lam : W → K) (hpos : ∀ d, 0 ≤ lam d)
    (expInv : K → K) (hexp : ∀ x, 0 < x → expInv x ≤ 1) (order : (ℕ → K) → List ℕ → List ℕ)
    (horder : ∀ x l, (order x l).Perm l ∧ (order x l).Pairwise fun a b => x b ≤ x a) (sortLayers : List (Layer K) → List (Layer K))
    (hsort : ∀ l, (sortLayers l).Perm l ∧ (sortLayers l).Pairwise fun a b => maxLabel b.labels ≤ maxLabel a.labels) (thr : ℚ) (maxLayers : ℕ)
    (hmax : 1 ≤ maxLayers) (m : ℕ) (hm : 2 ≤ m) :
    ∃ (layers : List (Layer K)) (base : Layer K) (others : List (ℕ × List ℕ × Layer K)),
      buildLayers expInv order sortLayers thr maxLayers n lam linkage m = some layers ∧
      layers.Perm (base :: others.map fun o => o.2.2) ∧ layers.length ≤ maxLayers ∧
      (layers.Pairwise fun a b => maxLabel b.labels ≤ maxLabel a.labels) ∧
      base.score = 0 ∧ (∃ leaves, extractLeaves (searchTree lam linkage m) = some leaves ∧
        IsLeafClustering n (searchTree lam linkage m) ⟨leaves, base.labels, base.strengths⟩) ∧
      (∀ o ∈ others, IsLayer n linkage lam m o.1 o.2.1 o.2.2) ∧
      others.Pairwise fun o p => o.1 ≠ p.1 ∧ p.2.2.score ≤ o.2.2.score ∧ jaccard o.2.1.toFinset p.2.1.toFinset ≤ thr := by
  obtain ⟨r, hr, hleaf, _⟩ := leafResult_total n hn linkage h lam hpos m hm
  have hext : extractLeaves (searchTree lam linkage m) = some r.leaves := by
    unfold leafResult at hr
    obtain ⟨ls, e1, e2⟩ := Option.bind_eq_some_iff.1 hr
    obtain ⟨lb, e3, e4⟩ := Option.bind_eq_some_iff.1 e2
    obtain ⟨st, e5, e6⟩ := Option.map_eq_some_iff.1 e4
    rw [e1, ← e6]
  have hbase : buildLayers expInv order sortLayers thr maxLayers n lam linkage m =
      layersFromTree expInv order sortLayers thr maxLayers n (m : K) (searchTree lam linkage m) ⟨r.labels, r.strengths, 0⟩ := by
    unfold buildLayers
    simp only
    rw [hr]; rfl
  obtain ⟨layers, others, g1, g2, g3, g4, g5, g6⟩ := layersFromTree_spec n hn linkage h lam hpos expInv hexp order horder sortLayers hsort thr maxLayers
    hmax m hm ⟨r.labels, r.strengths, 0⟩
  exact ⟨layers, _, others, hbase.trans g1, g2, g3, g4, rfl, ⟨r.leaves, hext, hleaf⟩, g5, g6⟩

/-- **C69** with the base layer searched for by a number of clusters: the same, the base layer being the closest leaf clustering, when the smallest
cluster of the base layer has at least two labelled samples.
Missing: a base layer with an unused label, `C69_gap`, where the minimum cluster size becomes 1. -/
theorem C69_layers_by_count_partial (n : ℕ) (hn : 4 ≤ n) (linkage : List (LRow W K)) (h : Dendrogram n (fun _ => 1) linkage) (lamSearch lam : W → K)
    (hposS : ∀ d, 0 ≤ lamSearch d) (hpos : ∀ d, 0 ≤ lam d) (expInv : K → K) (hexp : ∀ x, 0 < x → expInv x ≤ 1) (order : (ℕ → K) → List ℕ → List ℕ)
    (horder : ∀ x l, (order x l).Perm l ∧ (order x l).Pairwise fun a b => x b ≤ x a) (sortLayers : List (Layer K) → List (Layer K))
    (hsort : ∀ l, (sortLayers l).Perm l ∧ (sortLayers l).Pairwise fun a b => maxLabel b.labels ≤ maxLabel a.labels) (thr : ℚ) (maxLayers : ℕ)
    (hmax : 1 ≤ maxLayers) (approx : ℤ) (baseSize : ℕ) (hbase : 2 ≤ baseSize) :
    ∃ r, binarySearchClusters lamSearch linkage approx n = some r ∧
      ((∀ i : ℕ, (i : ℤ) ≤ maxLabel r.labels → 2 ≤ r.labels.count (i : ℤ)) →
        ∃ (m : ℕ) (layers : List (Layer K)) (others : List (ℕ × List ℕ × Layer K)),
          2 ≤ m ∧ (∀ i : ℕ, (i : ℤ) ≤ maxLabel r.labels → m ≤ r.labels.count (i : ℤ)) ∧
          buildLayersByCount expInv order sortLayers thr maxLayers n lamSearch lam linkage approx baseSize = some layers ∧
          layers.Perm (⟨r.labels, r.strengths, 0⟩ :: others.map fun o => o.2.2) ∧ layers.length ≤ maxLayers ∧
          (layers.Pairwise fun a b => maxLabel b.labels ≤ maxLabel a.labels) ∧
          (∀ o ∈ others, IsLayer n linkage lam m o.1 o.2.1 o.2.2) ∧
          others.Pairwise fun o p => o.1 ≠ p.1 ∧ p.2.2.score ≤ o.2.2.score ∧ jaccard o.2.1.toFinset p.2.1.toFinset ≤ thr) := by
  obtain ⟨r, _, _, _, hr, _⟩ := C65_search_closest n hn linkage h lamSearch hposS approx
  refine ⟨r, hr, fun hcount => ?_⟩
  have hm : 2 ≤ searchedMinSize r.labels baseSize ∧
      ∀ i : ℕ, (i : ℤ) ≤ maxLabel r.labels → searchedMinSize r.labels baseSize ≤ r.labels.count (i : ℤ) := by
    unfold searchedMinSize
    cases hx : (labelCounts r.labels).min? with
    | none =>
      refine ⟨hbase, fun i hi => ?_⟩
      have := List.min?_eq_none_iff.1 hx
      unfold labelCounts at this
      rw [List.map_eq_nil_iff, List.range_eq_nil] at this
      omega
    | some x =>
      obtain ⟨g1, g2⟩ := List.min?_eq_some_iff.1 hx
      obtain ⟨i, hi, rfl⟩ := List.mem_map.1 g1
      have hi' := List.mem_range.1 hi
      have h2 := hcount i (by omega)
      refine ⟨by dsimp only; omega, fun j hj => ?_⟩
      have h3 := g2 _ (List.mem_map.2 ⟨j, List.mem_range.2 (by omega), rfl⟩)
      dsimp only
      omega
  obtain ⟨layers, others, g1, g2, g3, g4, g5, g6⟩ := layersFromTree_spec n (by omega) linkage h lam hpos expInv hexp order horder sortLayers hsort thr
    maxLayers hmax _ hm.1 ⟨r.labels, r.strengths, 0⟩
  refine ⟨_, layers, others, hm.1, hm.2, ?_, g2, g3, g4, g5, g6⟩
  unfold buildLayersByCount
  rw [hr, Option.bind_some]
  exact g1

end

/-- Peaks by descending persistence, by a stable sort. -/
def exOrder (x : ℕ → ℚ) (l : List ℕ) : List ℕ := l.insertionSort fun a b => x b ≤ x a

/-- Layers by descending number of clusters, by a stable sort. -/
def exSortLayers (l : List (Layer ℚ)) : List (Layer ℚ) := l.insertionSort fun a b => maxLabel b.labels ≤ maxLabel a.labels

theorem exOrder_sorts (x : ℕ → ℚ) (l : List ℕ) : (exOrder x l).Perm l ∧ (exOrder x l).Pairwise fun a b => x b ≤ x a := by
  haveI : Std.Total fun a b : ℕ => x b ≤ x a := ⟨fun a b => le_total _ _⟩
  haveI : IsTrans ℕ fun a b => x b ≤ x a := ⟨fun a b c h1 h2 => h2.trans h1⟩
  exact ⟨List.perm_insertionSort _ _, List.pairwise_insertionSort _ _⟩

theorem exSortLayers_sorts (l : List (Layer ℚ)) :
    (exSortLayers l).Perm l ∧ (exSortLayers l).Pairwise fun a b => maxLabel b.labels ≤ maxLabel a.labels := by
  haveI : Std.Total fun a b : Layer ℚ => maxLabel b.labels ≤ maxLabel a.labels := ⟨fun a b => le_total _ _⟩
  haveI : IsTrans (Layer ℚ) fun a b => maxLabel b.labels ≤ maxLabel a.labels := ⟨fun a b c h1 h2 => h2.trans h1⟩
  exact ⟨List.perm_insertionSort _ _, List.pairwise_insertionSort _ _⟩

/-- Two layers of the twelve samples: the triples and the halves. -/
example : (buildLayers exExpInv exOrder exSortLayers (1 / 5) 10 12 invLam exTwelveLinkage 2).map
      (fun l => l.map fun x => (x.labels, x.score)) =
    some [([3, 3, 3, 2, 2, 2, 1, 1, 1, 0, 0, 0], 0), ([1, 1, 1, 1, 1, 1, 0, 0, 0, 0, 0, 0], 54 / 5)] := by decide +kernel

/-- The hypotheses of C69 hold for it. -/
example : ∃ layers, buildLayers exExpInv exOrder exSortLayers (1 / 5) 10 12 invLam exTwelveLinkage 2 = some layers ∧ layers.length ≤ 10 := by
  obtain ⟨layers, _, _, h1, _, h2, _⟩ := C69_layers 12 (by decide) exTwelveLinkage exTwelve_dendrogram invLam
    (fun d => by unfold invLam; positivity) exExpInv
    (fun x hx => by unfold exExpInv; rw [div_le_one (by linarith)]; linarith) exOrder exOrder_sorts exSortLayers exSortLayers_sorts (1 / 5) 10 (by decide) 2
    (by decide)
  exact ⟨layers, h1, h2⟩

/-- **C69** needs room for the base layer: asked for no layers at all, the search raises instead of returning none. -/
theorem C69_zero_layers : (buildLayers exExpInv exOrder exSortLayers (1 / 5) 0 12 invLam exTwelveLinkage 2).isNone = true := by decide +kernel

/-- With four clusters asked for, the minimum cluster size becomes 3 and no other layer is found. -/
example : (buildLayersByCount exExpInv exOrder exSortLayers (1 / 5) 10 12 invLam invLam exTwelveLinkage 4 10).map
      (fun l => l.map fun x => (x.labels, x.score)) =
    some [([3, 3, 3, 2, 2, 2, 1, 1, 1, 0, 0, 0], 0)] := by decide +kernel

/-- Its hypotheses hold: each label is used three times. -/
example : ∀ i : ℕ, (i : ℤ) ≤ maxLabel [3, 3, 3, 2, 2, 2, 1, 1, 1, 0, 0, 0] → 2 ≤ [3, 3, 3, 2, 2, 2, 1, 1, 1, 0, 0, 0].count (i : ℤ) := by
  intro i hi
  have : i < 4 := by
    have : maxLabel [3, 3, 3, 2, 2, 2, 1, 1, 1, 0, 0, 0] = 3 := by decide
    omega
  interval_cases i <;> decide
example : (binarySearchClusters invLam exTwelveLinkage 4 12).map (fun r => r.labels) = some [3, 3, 3, 2, 2, 2, 1, 1, 1, 0, 0, 0] := by decide +kernel

/-- Three samples close together and three unreachable ones. -/
def exApart : List (Edge (WithTop ℕ)) := [⟨0, 1, 1⟩, ⟨1, 2, 1⟩, ⟨3, 4, ⊤⟩, ⟨4, 5, ⊤⟩, ⟨2, 3, ⊤⟩]

theorem exApart_tree : SpanningTree 6 exApart := by
  have hstep : ∀ i, i < 5 → Conn exApart i (i + 1) := by
    intro i hi
    interval_cases i
    · exact Conn.edge (e := ⟨0, 1, 1⟩) (by decide)
    · exact Conn.edge (e := ⟨1, 2, 1⟩) (by decide)
    · exact Conn.edge (e := ⟨2, 3, ⊤⟩) (by decide)
    · exact Conn.edge (e := ⟨3, 4, ⊤⟩) (by decide)
    · exact Conn.edge (e := ⟨4, 5, ⊤⟩) (by decide)
  have h0 : ∀ a, a < 6 → Conn exApart a 0 := by
    intro a ha
    induction a with
    | zero => exact Conn.refl _ _
    | succ a ih => exact (hstep a (by omega)).symm.trans (ih (by omega))
  have hconn : ∀ a b, a < 6 → b < 6 → Conn exApart a b := fun a b ha hb => (h0 a ha).trans (h0 b hb).symm
  exact ⟨by decide, acyclic_of_connected (by decide) hconn (by decide), hconn⟩

/-- `1 / distance`, 0 for an infinite distance. -/
def infLam : WithTop ℕ → ℚ
  | none => 0
  | some d => 1 / d

/-- **C69** by number of clusters, the gap: the unreachable samples form a leaf cluster of lambda 0 and label nobody, the other cluster has label 1,
and the tree of the layers is condensed with minimum cluster size 1 although the smallest labelled cluster has three samples. -/
theorem C69_gap : SpanningTree 6 exApart ∧ exApart.Pairwise (fun a b => a.w ≤ b.w) ∧
    (binarySearchClusters infLam (mstToLinkage (fun _ => (1 : ℚ)) exApart) 2 6).map (fun r => (r.labels, searchedMinSize r.labels 10)) =
      some ([1, 1, 1, -1, -1, -1], 1) := ⟨exApart_tree, by decide, by decide +kernel⟩

end Verif
