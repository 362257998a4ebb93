import Verif.Lemmas.EomSel
import Verif.Props.Condense

/-!
# Properties C20–C24: cluster selection
-/

namespace Verif
variable {L S V : Type*} {n k : ℕ}

/-! ## Condensed trees of the model satisfy the hypotheses used below -/

/-- The hypotheses of the theorems below hold for the trees built by `condense_tree` whenever `1 < min_cluster_size` and
every sample is lighter than `min_cluster_size`. -/
theorem condenseTree_usable {W : Type*} [AddCommMonoid S] [One S] [LinearOrder S] [IsOrderedAddMonoid S] [Inhabited W]
    [Inhabited S] (n : ℕ) (hn : 2 ≤ n) (wt : ℕ → S) (rows : List (LRow W S)) (h : Dendrogram n wt rows) (mcs : S)
    (h1 : 1 < mcs) (h0 : ∀ x, x < n → 0 ≤ wt x) (hl : ∀ x, x < n → wt x < mcs) (lam : W → L) :
    let T := condenseTree (Hier.ofRows rows) wt mcs none lam
    T ≠ [] ∧ ∃ k, CondTree n k T ∧ ∀ row ∈ T, 1 < row.size ↔ n ≤ row.child := by
  intro T
  obtain ⟨k, hc, _, hrow⟩ := C17_condensed_clusters_real n hn wt rows h mcs h0 hl lam
  refine ⟨?_, k, hc, fun row hr => ⟨fun hs => ?_, fun hcn => ?_⟩⟩
  · intro he
    have := (hc.children 0).2 (.inl (by omega))
    rw [show condenseTree (Hier.ofRows rows) wt mcs none lam = T from rfl, he] at this
    simp at this
  · by_contra hlt
    rw [(hrow row hr).1 (by omega)] at hs
    exact lt_irrefl _ hs
  · exact lt_of_lt_of_le h1 ((hrow row hr).2 hcn).1

/-! ## C20 -/

/-- **C20.** Leaf selection: with at least one split the selected ids are exactly the clusters without child cluster, in
ascending order, none nested in another, and every cluster contains a selected one.  Without a split nothing is
selected. -/
theorem C20_leaf_selection [One S] [LinearOrder S] (rows : List (CRow L S)) (h : CondTree n k rows)
    (hk : ∀ row ∈ rows, 1 < row.size ↔ n ≤ row.child) :
    let sel := leafSelection (clusterTree rows) n
    sel.Pairwise (· < ·) ∧ NonNested rows sel ∧
    (∀ c, c ∈ sel ↔ 1 < k ∧ n ≤ c ∧ c < n + k ∧ Childless n rows c) ∧
    (1 < k → ∀ c, n ≤ c → c < n + k → ∃ s ∈ sel, CDesc rows c s) := by
  intro sel
  have hc := h.clTree hk
  have hlen := hc.length
  have hpos := h.pos
  have hleaf : ∀ c, (∀ row ∈ clusterTree rows, row.parent ≠ c) ↔ Childless n rows c := by
    intro c
    constructor
    · intro h1 row hr hp
      by_contra hlt
      exact h1 row (List.mem_filter.2 ⟨hr, decide_eq_true ((hk row hr).2 (by omega))⟩) hp
    · intro h1 row hr hp
      obtain ⟨h2, h3⟩ := List.mem_filter.1 hr
      have := h1 row h2 hp
      have := (hk row h2).1 (of_decide_eq_true h3)
      omega
  have hmem : ∀ c, c ∈ sel ↔ 1 < k ∧ n ≤ c ∧ c < n + k ∧ Childless n rows c := by
    intro c
    by_cases hk1 : 1 < k
    · have hmax : ((clusterTree rows).map CRow.child).foldl max 0 = n + k - 1 := by
        apply foldl_max_eq
        · omega
        · intro x hx; have := hc.mem.1 hx; omega
        · exact .inr (hc.mem.2 ⟨by omega, by omega⟩)
      have : sel = clusterTreeLeaves (clusterTree rows) n := by
        change leafSelection _ _ = _
        rw [leafSelection, if_neg (by omega)]
      rw [this, clusterTreeLeaves, hmax, List.mem_filter, List.mem_range'_1, decide_eq_true_eq, hleaf]
      constructor
      · rintro ⟨h1, h2⟩; exact ⟨hk1, h1.1, by omega, h2⟩
      · rintro ⟨_, h1, h2, h3⟩; exact ⟨⟨h1, by omega⟩, h3⟩
    · have : sel = [] := by
        change leafSelection _ _ = _
        rw [leafSelection, if_pos (by omega)]
      rw [this]
      simp [hk1]
  refine ⟨?_, ?_, hmem, ?_⟩
  · change (leafSelection _ _).Pairwise _
    unfold leafSelection
    split
    · exact List.Pairwise.nil
    · exact (List.pairwise_lt_range' (s := _) (n := _)).sublist List.filter_sublist
  · intro a ha b hb hab
    have hb := (hmem b).1 hb
    have ha := (hmem a).1 ha
    rw [← h.desc_clusterTree hk hb.2.1] at hab
    rcases desc_cases hab with h1 | ⟨c, h1, _⟩
    · exact h1.symm
    · obtain ⟨row, h2, h3, h4⟩ := mem_kidsOf.1 h1
      exact absurd h3 ((hleaf a).2 ha.2.2.2 row h2)
  · intro hk1 c h1 h2
    induction hj : n + k - c using Nat.strong_induction_on generalizing c with
    | _ j ih =>
      by_cases hl : Childless n rows c
      · exact ⟨c, (hmem c).2 ⟨hk1, h1, h2, hl⟩, .refl⟩
      · unfold Childless at hl
        push Not at hl
        obtain ⟨row, h3, h4, h5⟩ := hl
        have h6 := h.down row h3 h5
        have h7 := (h.children row.child).1 (List.mem_map_of_mem h3)
        obtain ⟨s, h8, h9⟩ := ih (n + k - row.child) (by omega) row.child (by omega) (by omega) rfl
        exact ⟨s, h8, .head ⟨row, h3, h4, rfl⟩ h9⟩

/-- **C20**, `extract_leaves` (used for the layers): when every cluster has at least one row below it, it returns exactly
the clusters without child cluster, the top cluster included when there is no split. -/
theorem C20_extract_leaves [One S] [LinearOrder S] (rows : List (CRow L S)) (h : CondTree n k rows)
    (hk : ∀ row ∈ rows, 1 < row.size ↔ n ≤ row.child)
    (hne : ∀ c, n ≤ c → c < n + k → ∃ row ∈ rows, row.parent = c) :
    ∃ sel, extractLeaves rows = some sel ∧ sel.Pairwise (· < ·) ∧ NonNested rows sel ∧
      ∀ c, c ∈ sel ↔ n ≤ c ∧ c < n + k ∧ Childless n rows c := by
  have hpos := h.pos
  obtain ⟨row0, hr0, hp0⟩ := hne n le_rfl (by omega)
  obtain ⟨row, rest, hrows⟩ := List.exists_cons_of_ne_nil (List.ne_nil_of_mem hr0)
  have hmin : (rows.map CRow.parent).foldl min row.parent = n := by
    apply foldl_min_eq
    · exact (h.parents row (by rw [hrows]; simp)).1
    · intro x hx
      obtain ⟨r, h1, rfl⟩ := List.mem_map.1 hx
      exact (h.parents r h1).1
    · exact .inr (hp0 ▸ List.mem_map_of_mem hr0)
  obtain ⟨row1, hr1, hp1⟩ := hne (n + k - 1) (by omega) (by omega)
  have hmax : (rows.map CRow.parent).foldl max 0 = n + k - 1 := by
    apply foldl_max_eq
    · omega
    · intro x hx
      obtain ⟨r, h1, rfl⟩ := List.mem_map.1 hx
      have := (h.parents r h1).2
      omega
    · exact .inr (hp1 ▸ List.mem_map_of_mem hr1)
  have hunf : extractLeaves rows = some ((List.range ((rows.map CRow.parent).foldl max 0 + 1)).filter fun c =>
      decide ((rows.map CRow.parent).foldl min row.parent ≤ c ∧
        ∀ row ∈ rows, 1 < row.size → row.parent ≠ c)) := by
    rw [hrows]; rfl
  rw [hmin, hmax] at hunf
  have hmem : ∀ c, c ∈ ((List.range (n + k - 1 + 1)).filter fun c =>
      decide (n ≤ c ∧ ∀ row ∈ rows, 1 < row.size → row.parent ≠ c)) ↔ n ≤ c ∧ c < n + k ∧ Childless n rows c := by
    intro c
    rw [List.mem_filter, List.mem_range, decide_eq_true_eq]
    constructor
    · rintro ⟨h1, h2, h3⟩
      refine ⟨h2, by omega, fun r hr hp => ?_⟩
      by_contra hlt
      exact h3 r hr ((hk r hr).2 (by omega)) hp
    · rintro ⟨h1, h2, h3⟩
      refine ⟨by omega, h1, fun r hr hs hp => ?_⟩
      have := h3 r hr hp
      have := (hk r hr).1 hs
      omega
  refine ⟨_, hunf, List.pairwise_lt_range.sublist List.filter_sublist, ?_, hmem⟩
  intro a ha b hb hab
  have ha := (hmem a).1 ha
  have hb := (hmem b).1 hb
  rcases Relation.ReflTransGen.cases_head hab with h1 | ⟨c, ⟨r, h1, h2, h3⟩, h4⟩
  · exact h1
  · exfalso
    have h5 := ha.2.2 r h1 h2
    rcases Relation.ReflTransGen.cases_head h4 with h6 | ⟨d, ⟨r', h6, h7, _⟩, _⟩
    · omega
    · have := (h.parents r' h6).1
      omega

/-! ## C21 -/

/-- **C21.** Whatever the arithmetic on scores does (`o` is arbitrary, so NaN and infinities are covered), whatever the
scores, sizes and parameters: no selected cluster lies below another one, and every selected id is a cluster. -/
theorem C21_eom_not_nested [One S] [LinearOrder S] (rows : List (CRow L S)) (h : CondTree n k rows)
    (hk : ∀ row ∈ rows, 1 < row.size ↔ n ≤ row.child) (o : ScoreOps V) (d : ScoreDict V) (sizeGt : ℕ → Bool)
    (rootGt allow : Bool) :
    let sel := eomClusters (clusterTree rows) o d sizeGt rootGt allow
    NonNested rows sel ∧ ∀ c ∈ sel, n ≤ c ∧ c < n + k := by
  intro sel
  have hc := h.clTree hk
  have hlen := hc.length
  by_cases hk1 : 1 < k
  · have key : ∀ c ∈ sel, ∃ r, n ≤ r ∧ r < n + k ∧ hc.Top o d.val (Function.update sizeGt n rootGt) r c ∧
        (∀ c' ∈ sel, ∃ r', hc.Top o d.val (Function.update sizeGt n rootGt) r' c' ∧ (CDesc (clusterTree rows) c c' → r' = r)) := by
      intro c hcs
      have h1 := (hc.eom_mem hk1 o d sizeGt rootGt allow c).1 hcs
      cases allow
      · simp only [Bool.false_eq_true, if_false] at h1
        obtain ⟨_, _, r, h2, h3⟩ := h1
        have := hc.kid_lt h2
        refine ⟨r, by omega, by omega, h3, fun c' hcs' => ?_⟩
        have h4 := (hc.eom_mem hk1 o d sizeGt rootGt false c').1 hcs'
        simp only [Bool.false_eq_true, if_false] at h4
        obtain ⟨_, _, r', h5, h6⟩ := h4
        exact ⟨r', h6, fun hd => hc.kids_disjoint h5 h2 h6.1 (h3.1.trans hd)⟩
      · simp only [if_true] at h1
        refine ⟨n, le_rfl, by omega, h1.2, fun c' hcs' => ?_⟩
        have h4 := (hc.eom_mem hk1 o d sizeGt rootGt true c').1 hcs'
        exact ⟨n, h4.2, fun _ => rfl⟩
    constructor
    · intro a ha b hb hab
      obtain ⟨r, h1, h2, h3, h4⟩ := key a ha
      obtain ⟨r', h5, h6⟩ := h4 b hb
      have hbn : n ≤ b := by
        obtain ⟨r2, g1, g2, g3, _⟩ := key b hb
        exact (hc.desc_range g3.1 g1 g2).1
      rw [← h.desc_clusterTree hk hbn] at hab
      have := h6 hab
      subst this
      by_contra hne
      have := h5.2.2 a h3.1 hab hne
      rw [h3.2.1] at this; cases this
    · intro c hcs
      obtain ⟨r, h1, h2, h3, _⟩ := key c hcs
      exact hc.desc_range h3.1 h1 h2
  · have : sel = [] := by
      change eomClusters _ _ _ _ _ _ = _
      rw [List.length_eq_zero_iff.1 (show (clusterTree rows).length = 0 by have := h.pos; omega)]
      rfl
    rw [this]
    exact ⟨fun a ha => absurd ha (by simp), fun c hc => absurd hc (by simp)⟩

/-! ## C22 -/

section
variable [Ring V] [LinearOrder V] [IsStrictOrderedRing V]

/-- **C22**, scores: the scores handed to the recursion are the stabilities, and computing them does not fail. -/
theorem C22_scores_are_stabilities (rows : List (CRow V V)) (h : CondTree n k rows)
    (hne : rows ≠ []) (hk : ∀ row ∈ rows, 1 < row.size ↔ n ≤ row.child) :
    ∃ d, scoreNodes rows = some d ∧ d.keys = List.range' n k ∧
      ∀ c, n ≤ c → c < n + k → d.val c = stability rows c :=
  h.scoreNodes_eq hne hk

/-- **C22** (partial): in exact arithmetic, for every condensed tree with at least one split: the total positive stability of
the selected clusters is at least that of every set `A` of pairwise non-nested clusters, none larger than `max_cluster_size`,
and not containing the top cluster unless `allow_single_cluster`.
Missing: trees without a split, where with `allow_single_cluster` the top cluster is permitted but nothing is selected
(`C57_no_split_no_cluster`). -/
theorem C22_eom_optimal_partial (rows : List (CRow V V)) (h : CondTree n k rows)
    (hne : rows ≠ []) (hk : ∀ row ∈ rows, 1 < row.size ↔ n ≤ row.child) (hs : 1 < k) (mx : Option V) (allow : Bool) :
    ∃ sel, extractEom rows mx allow = some sel ∧ sel.Pairwise (· < ·) ∧
    ∀ A : Finset ℕ, (∀ c ∈ A, n ≤ c ∧ c < n + k) → (∀ a ∈ A, ∀ b ∈ A, CDesc rows a b → a = b) →
      (n ∈ A → allow = true ∧ ∀ m, mx = some m → (n : V) ≤ m) →
      (∀ row ∈ rows, row.child ∈ A → ∀ m, mx = some m → row.size ≤ m) →
      ∑ c ∈ A, max (stability rows c) 0 ≤ (sel.map fun c => max (stability rows c) 0).sum := by
  obtain ⟨d, hkeys, hval, hex⟩ := h.extractEom_eq hne hk hs mx allow
  have hc := h.clTree hk
  set sizeGt := sizeExceeds (clusterTree rows) mx with hsg
  set rootGt : Bool := rootExceeds mx n with hrg
  have hsorted : (eomClusters (clusterTree rows) (ScoreOps.exact V) d sizeGt rootGt allow).Pairwise (· < ·) := by
    obtain ⟨row, rest, hct⟩ := hc.head_parent hs
    rw [hct]
    simp only [eomClusters]
    refine List.Pairwise.sublist List.filter_sublist ?_
    rw [hkeys]
    exact List.pairwise_lt_range' (s := _) (n := _)
  refine ⟨_, hex, hsorted, fun A hA hnn hroot hsize => ?_⟩
  have hnd := hsorted.imp (fun h => ne_of_lt h)
  rw [← List.sum_toFinset _ hnd]
  have hmem := hc.eom_mem hs (ScoreOps.exact V) d sizeGt rootGt allow
  set sel := eomClusters (clusterTree rows) (ScoreOps.exact V) d sizeGt rootGt allow
  have hselr : ∀ c ∈ sel, n ≤ c ∧ c < n + k := fun c hcm =>
    (C21_eom_not_nested rows h hk (ScoreOps.exact V) d sizeGt rootGt allow).2 c hcm
  have e1 : ∑ c ∈ A, max (stability rows c) 0 = ∑ c ∈ A, max (d.val c) 0 :=
    Finset.sum_congr rfl fun c hcA => by rw [hval c (hA c hcA).1 (hA c hcA).2]
  have e2 : ∑ c ∈ sel.toFinset, max (stability rows c) 0 = ∑ c ∈ sel.toFinset, max (d.val c) 0 :=
    Finset.sum_congr rfl fun c hcA => by
      have := hselr c (List.mem_toFinset.1 hcA)
      rw [hval c this.1 this.2]
  rw [e1, e2]
  have hlarge : ∀ x ∈ A, Function.update sizeGt n rootGt x = false := by
    intro x hx
    by_cases hxn : x = n
    · subst hxn
      rw [Function.update_self, hrg]
      cases hmx : mx with
      | none => rfl
      | some m =>
        simp only [rootExceeds, decide_eq_false_iff_not, not_lt]
        exact le_trans (Nat.cast_le.2 (Nat.sub_le _ _)) ((hroot hx).2 m hmx)
    · rw [Function.update_of_ne hxn, hsg]
      cases hmx : mx with
      | none => rfl
      | some m =>
        simp only [sizeExceeds, List.any_eq_false, decide_eq_true_eq, not_and, not_lt]
        intro row hr hrx
        exact hsize row (List.mem_filter.1 hr).1 (hrx ▸ hx) m hmx
  have hanti : ∀ x ∈ A, ∀ y ∈ A, CDesc (clusterTree rows) x y → x = y := fun x hx y hy hd =>
    hnn x hx y hy ((h.desc_clusterTree hk (hA y hy).1).1 hd)
  have hdesc : ∀ x ∈ A, CDesc (clusterTree rows) n x := fun x hx => hc.desc_root (hA x hx).1 (hA x hx).2
  have hinkeys : ∀ c, CDesc (clusterTree rows) n c → c ∈ d.keys := by
    intro c hcd
    have := hc.desc_range hcd le_rfl (by omega)
    rw [hkeys, List.mem_range'_1]; omega
  cases hallow : allow
  · subst hallow
    simp only [Bool.false_eq_true, if_false] at hmem
    have hB : ∀ x, x ∈ sel.toFinset ↔ ∃ c ∈ kidsOf (clusterTree rows) n,
        hc.Top (ScoreOps.exact V) d.val (Function.update sizeGt n rootGt) c x := by
      intro x
      rw [List.mem_toFinset, hmem]
      constructor
      · rintro ⟨_, _, r, h1⟩; exact ⟨r, h1⟩
      · rintro ⟨r, h1, h2⟩
        refine ⟨hinkeys x (desc_of_kid h1 h2.1), ?_, r, h1, h2⟩
        rw [hkeys, List.length_range']; exact hs
    rw [hc.sum_tops_kids d.val (Function.update sizeGt n rootGt) le_rfl (fun c hck => ?_) _ hB]
    · refine hc.antichain_kids d.val _ (fun c hck B h1 h2 h3 => ?_) A hdesc
        (fun hn => by have := (hroot hn).1; simp at this) hlarge hanti
      have := hc.kid_lt hck
      exact hc.antichain_le d.val _ B h1 h2 h3
    · have := hc.kid_lt hck
      exact hc.sum_tops d.val _ (by omega) (by omega)
  · subst hallow
    simp only [if_true] at hmem
    have hB : sel.toFinset = hc.tops d.val (Function.update sizeGt n rootGt) n := by
      ext x
      rw [List.mem_toFinset, hmem, hc.mem_tops _ _ le_rfl (by omega)]
      exact ⟨fun h1 => h1.2, fun h1 => ⟨hinkeys x h1.1, h1⟩⟩
    rw [hB, hc.sum_tops _ _ le_rfl (by omega)]
    exact hc.antichain_le d.val _ A hdesc hlarge hanti

/-! ## C23 -/

/-- **C23** (partial): a selected cluster other than the top one has recorded size at most `max_cluster_size`; if the top
one is selected then `n - 1` is at most `max_cluster_size`.  Missing: the top cluster has `n` samples, and the claim is
false for it (`C23_root_off_by_one`). -/
theorem C23_max_cluster_size_partial (rows : List (CRow V V)) (h : CondTree n k rows)
    (hne : rows ≠ []) (hk : ∀ row ∈ rows, 1 < row.size ↔ n ≤ row.child) (m : V) (allow : Bool) (sel : List ℕ)
    (he : extractEom rows (some m) allow = some sel) :
    (∀ row ∈ rows, row.child ∈ sel → row.size ≤ m) ∧ (n ∈ sel → ((n - 1 : ℕ) : V) ≤ m) := by
  by_cases hs : 1 < k
  · obtain ⟨d, hkeys, hval, hex⟩ := h.extractEom_eq hne hk hs (some m) allow
    have hc := h.clTree hk
    rw [hex, Option.some.injEq] at he
    subst he
    have hsel : ∀ c ∈ eomClusters (clusterTree rows) (ScoreOps.exact V) d (sizeExceeds (clusterTree rows) (some m))
        (rootExceeds (some m) n) allow,
        Function.update (sizeExceeds (clusterTree rows) (some m)) n (rootExceeds (some m) n) c = false := by
      intro c hcs
      have h1 := ((hc.eom_mem hs _ d _ _ allow c).1 hcs).2
      have ht : ∀ r, hc.Top (ScoreOps.exact V) d.val (Function.update (sizeExceeds (clusterTree rows) (some m)) n
          (rootExceeds (some m) n)) r c →
          Function.update (sizeExceeds (clusterTree rows) (some m)) n (rootExceeds (some m) n) c = false := by
        intro r hr
        have := hr.2.1
        simp only [ClTree.take, Bool.not_eq_true', Bool.or_eq_false_iff] at this
        exact this.2
      split at h1
      · exact ht n h1
      · obtain ⟨_, r, _, h3⟩ := h1
        exact ht r h3
    refine ⟨fun row hr hcs => ?_, fun hcs => ?_⟩
    · have h1 := hsel _ hcs
      have h2 := (h.children row.child).1 (List.mem_map_of_mem hr)
      have h3 := (C21_eom_not_nested rows h hk (ScoreOps.exact V) d _ _ allow).2 _ hcs
      rw [Function.update_of_ne (by omega)] at h1
      simp only [sizeExceeds, List.any_eq_false, decide_eq_true_eq, not_and, not_lt] at h1
      exact h1 row (List.mem_filter.2 ⟨hr, decide_eq_true ((hk row hr).2 (by omega))⟩) rfl
    · have h1 := hsel _ hcs
      rw [Function.update_self, rootExceeds, decide_eq_false_iff_not, not_lt] at h1
      exact h1
  · have hc := h.clTree hk
    have hnil : clusterTree rows = [] := List.length_eq_zero_iff.1 (by have := hc.length; have := h.pos; omega)
    obtain ⟨d, hd, _⟩ := h.scoreNodes_eq hne hk
    unfold extractEom at he
    rw [hd, hnil] at he
    simp only [Option.some.injEq] at he
    subst he
    exact ⟨fun _ _ h1 => absurd h1 (by simp [eomClusters]), fun h1 => absurd h1 (by simp [eomClusters])⟩

/-! ## C24 -/

/-- **C24**, first half: without `allow_single_cluster` the top cluster is never selected, whatever the arithmetic. -/
theorem C24_root_not_selected {S L V : Type*} [One S] [LinearOrder S] (rows : List (CRow L S)) (h : CondTree n k rows)
    (hk : ∀ row ∈ rows, 1 < row.size ↔ n ≤ row.child) (o : ScoreOps V) (d : ScoreDict V) (sizeGt : ℕ → Bool)
    (rootGt : Bool) : n ∉ eomClusters (clusterTree rows) o d sizeGt rootGt false := by
  have hc := h.clTree hk
  by_cases hs : 1 < k
  · rw [hc.eom_mem hs]
    rintro ⟨_, h1⟩
    simp only [Bool.false_eq_true, if_false] at h1
    obtain ⟨_, r, h2, h3⟩ := h1
    have := hc.kid_lt h2
    have := hc.desc_le h3.1
    omega
  · rw [List.length_eq_zero_iff.1 (show (clusterTree rows).length = 0 by have := hc.length; have := h.pos; omega)]
    simp [eomClusters]

/-- **C24**, with `max_cluster_size`: a cluster without child cluster that is not larger than the limit lies in exactly one
selected cluster. -/
theorem C24_leaves_covered_max (rows : List (CRow V V)) (h : CondTree n k rows)
    (hne : rows ≠ []) (hk : ∀ row ∈ rows, 1 < row.size ↔ n ≤ row.child) (hs : 1 < k) (mx : Option V) (allow : Bool) :
    ∃ sel, extractEom rows mx allow = some sel ∧
      ∀ c, n ≤ c → c < n + k → Childless n rows c → (∀ m, mx = some m → ∀ row ∈ rows, row.child = c → row.size ≤ m) →
        ∃! s, s ∈ sel ∧ CDesc rows s c := by
  obtain ⟨d, hkeys, hval, hex⟩ := h.extractEom_eq hne hk hs mx allow
  have hc := h.clTree hk
  refine ⟨_, hex, fun c h1 h2 hl hmx => ?_⟩
  have hnn := C21_eom_not_nested rows h hk (ScoreOps.exact V) d (sizeExceeds (clusterTree rows) mx) (rootExceeds mx n) allow
  set rg := rootExceeds mx n
  have hsz : sizeExceeds (clusterTree rows) mx c = false := by
    unfold sizeExceeds
    cases mx with
    | none => rfl
    | some m =>
      simp only
      rw [List.any_eq_false]
      intro row hr
      simp only [decide_eq_true_eq, not_and, not_lt]
      intro he
      exact hmx m rfl row (List.mem_filter.1 hr).1 he
  set sizeGt := sizeExceeds (clusterTree rows) mx
  have hkids : kidsOf (clusterTree rows) c = [] := by
    rw [List.eq_nil_iff_forall_not_mem]
    intro x hx
    obtain ⟨row, h3, h4, h5⟩ := mem_kidsOf.1 hx
    obtain ⟨h6, h7⟩ := List.mem_filter.1 h3
    have := hl row h6 h4
    have := (hk row h6).1 (of_decide_eq_true h7)
    omega
  have hcn : c ≠ n := by
    rintro rfl
    have := mem_kidsOf.2 (hc.first hs)
    rw [hkids] at this; simp at this
  have hsg : Function.update sizeGt n rg c = false := by
    rw [Function.update_of_ne hcn]; exact hsz
  have htake : hc.take (ScoreOps.exact V) d.val (Function.update sizeGt n rg) c = true := by
    simp only [ClTree.take, hsg, Bool.or_false, Bool.not_eq_true', ClTree.total, hkids, List.foldl_nil,
      ScoreOps.exact, decide_eq_false_iff_not, not_lt]
    exact le_max_right _ _
  have hdown : ∀ node, CDesc (clusterTree rows) node c →
      ∃ s, hc.Top (ScoreOps.exact V) d.val (Function.update sizeGt n rg) node s ∧ CDesc (clusterTree rows) s c := by
    intro node hd
    induction hj : n + k - node using Nat.strong_induction_on generalizing node with
    | _ j ih =>
      cases ht : hc.take (ScoreOps.exact V) d.val (Function.update sizeGt n rg) node
      · rcases desc_cases hd with h3 | ⟨e, h3, h4⟩
        · subst h3; rw [htake] at ht; cases ht
        · have := hc.kid_lt h3
          obtain ⟨s, h5, h6⟩ := ih (n + k - e) (by omega) e h4 rfl
          exact ⟨s, (ClTree.Top.of_not_take ht).2 ⟨e, h3, h5⟩, h6⟩
      · exact ⟨node, (ClTree.Top.of_take ht).2 rfl, hd⟩
  have hroot := hc.desc_root h1 h2
  have hex2 : ∃ s, s ∈ eomClusters (clusterTree rows) (ScoreOps.exact V) d sizeGt rg allow ∧ CDesc rows s c := by
    have hinkeys : ∀ c, CDesc (clusterTree rows) n c → c ∈ d.keys := by
      intro c hcd
      have := hc.desc_range hcd le_rfl (by omega)
      rw [hkeys, List.mem_range'_1]; omega
    cases allow
    · obtain ⟨r, h3, h4⟩ := (desc_cases hroot).resolve_left hcn
      obtain ⟨s, h5, h6⟩ := hdown r h4
      refine ⟨s, (hc.eom_mem hs _ _ _ _ _ _).2 ⟨hinkeys s (desc_of_kid h3 h5.1), ?_⟩, (h.desc_clusterTree hk h1).1 h6⟩
      simp only [Bool.false_eq_true, if_false]
      refine ⟨?_, r, h3, h5⟩
      rw [hkeys, List.length_range']; exact hs
    · obtain ⟨s, h5, h6⟩ := hdown n hroot
      refine ⟨s, (hc.eom_mem hs _ _ _ _ _ _).2 ⟨hinkeys s h5.1, ?_⟩, (h.desc_clusterTree hk h1).1 h6⟩
      simp only [if_true]
      exact h5
  obtain ⟨s, h3, h4⟩ := hex2
  refine ⟨s, ⟨h3, h4⟩, ?_⟩
  rintro s' ⟨h5, h6⟩
  have h7 := (hnn.2 s h3)
  have h8 := (hnn.2 s' h5)
  rw [← h.desc_clusterTree hk h1] at h4 h6
  rcases hc.comparable h4 h6 with h9 | h9
  · exact (hnn.1 s h3 s' h5 ((h.desc_clusterTree hk h8.1).1 h9)).symm
  · exact hnn.1 s' h5 s h3 ((h.desc_clusterTree hk h7.1).1 h9)

/-- **C24**, second half: with at least one split and no `max_cluster_size`, every cluster without child cluster lies in
exactly one selected cluster. -/
theorem C24_leaves_covered (rows : List (CRow V V)) (h : CondTree n k rows)
    (hne : rows ≠ []) (hk : ∀ row ∈ rows, 1 < row.size ↔ n ≤ row.child) (hs : 1 < k) (allow : Bool) :
    ∃ sel, extractEom rows none allow = some sel ∧
      ∀ c, n ≤ c → c < n + k → Childless n rows c → ∃! s, s ∈ sel ∧ CDesc rows s c :=
  (C24_leaves_covered_max rows h hne hk hs none allow).imp fun _ h1 =>
    ⟨h1.1, fun c g1 g2 g3 => h1.2 c g1 g2 g3 fun m hm => by cases hm⟩

/-! ## C57 -/

/-- **C57** (partial): with `allow_single_cluster`, at least one split and no `max_cluster_size`, the top cluster is selected
(and then it alone) exactly when its positive stability is at least that of every non-nested set of other clusters.
Missing: trees without any split, for which nothing is selected (`C57_no_split_no_cluster`). -/
theorem C57_single_cluster_partial (rows : List (CRow V V)) (h : CondTree n k rows)
    (hne : rows ≠ []) (hk : ∀ row ∈ rows, 1 < row.size ↔ n ≤ row.child) (hs : 1 < k) :
    ∃ sel, extractEom rows none true = some sel ∧ (n ∈ sel ↔ sel = [n]) ∧
      (n ∈ sel ↔ ∀ A : Finset ℕ, (∀ c ∈ A, n < c ∧ c < n + k) → (∀ a ∈ A, ∀ b ∈ A, CDesc rows a b → a = b) →
        ∑ c ∈ A, max (stability rows c) 0 ≤ max (stability rows n) 0) := by
  obtain ⟨d, hkeys, hval, hex⟩ := h.extractEom_eq hne hk hs none true
  have hc := h.clTree hk
  have hnn := C21_eom_not_nested rows h hk (ScoreOps.exact V) d (sizeExceeds (clusterTree rows) (none : Option V))
    (rootExceeds (none : Option V) n) true
  have hmem := hc.eom_mem hs (ScoreOps.exact V) d (sizeExceeds (clusterTree rows) (none : Option V))
    (rootExceeds (none : Option V) n) true
  refine ⟨_, hex, ?_, ?_⟩
  · constructor
    · intro h1
      have hall : ∀ c ∈ eomClusters (clusterTree rows) (ScoreOps.exact V) d (sizeExceeds (clusterTree rows) (none : Option V))
          (rootExceeds (none : Option V) n) true, c = n := by
        intro c h2
        have h3 := hnn.2 c h2
        exact (hnn.1 n h1 c h2 ((h.desc_clusterTree hk h3.1).1 (hc.desc_root h3.1 h3.2))).symm
      have hnd : (eomClusters (clusterTree rows) (ScoreOps.exact V) d (sizeExceeds (clusterTree rows) (none : Option V))
          (rootExceeds (none : Option V) n) true).Nodup := by
        obtain ⟨row, rest, hct⟩ := hc.head_parent hs
        rw [hct]
        simp only [eomClusters]
        refine List.Nodup.sublist List.filter_sublist ?_
        rw [hkeys]
        exact List.nodup_range'
      match hl : eomClusters (clusterTree rows) (ScoreOps.exact V) d (sizeExceeds (clusterTree rows) (none : Option V))
          (rootExceeds (none : Option V) n) true, hall, hnd, h1 with
      | [a], hall, _, _ => rw [hall a (by simp)]
      | a :: b :: l, hall, hnd, _ =>
        have ha := hall a (by simp)
        have hb := hall b (by simp)
        exact absurd (ha.trans hb.symm) (by simp at hnd; exact hnd.1.1)
    · intro h1; rw [h1]; simp
  · have hsg : ∀ x, Function.update (sizeExceeds (clusterTree rows) (none : Option V)) n
        (rootExceeds (none : Option V) n) x = false := by
      intro x
      by_cases hx : x = n
      · subst hx; simp [rootExceeds]
      · rw [Function.update_of_ne hx]; rfl
    set tl := Function.update (sizeExceeds (clusterTree rows) (none : Option V)) n (rootExceeds (none : Option V) n)
    have h1 : n ∈ eomClusters (clusterTree rows) (ScoreOps.exact V) d (sizeExceeds (clusterTree rows) (none : Option V))
        (rootExceeds (none : Option V) n) true ↔ hc.total (ScoreOps.exact V) d.val tl n ≤ max (stability rows n) 0 := by
      rw [hmem n, if_pos rfl]
      have h2 : hc.take (ScoreOps.exact V) d.val tl n = true ↔
          hc.total (ScoreOps.exact V) d.val tl n ≤ max (stability rows n) 0 := by
        simp only [ClTree.take, hsg, Bool.or_false, Bool.not_eq_true', ← hval n le_rfl (by omega)]
        simp only [ScoreOps.exact, decide_eq_false_iff_not, not_lt]
      rw [← h2]
      constructor
      · intro h3; exact h3.2.2.1
      · intro h3
        refine ⟨?_, (ClTree.Top.of_take h3).2 rfl⟩
        rw [hkeys, List.mem_range'_1]; omega
    rw [h1]
    constructor
    · intro h2 A hA hanti
      refine le_trans ?_ h2
      have e1 : ∑ c ∈ A, max (stability rows c) 0 = ∑ c ∈ A, max (d.val c) 0 :=
        Finset.sum_congr rfl fun c hcA => by rw [hval c (hA c hcA).1.le (hA c hcA).2]
      rw [e1]
      refine hc.antichain_kids d.val tl (fun c hck B h1 h2 h3 => hc.antichain_le d.val _ B h1 h2 h3) A
        (fun x hx => hc.desc_root (hA x hx).1.le (hA x hx).2)
        (fun hn => absurd (hA n hn).1 (lt_irrefl _)) (fun x _ => hsg x)
        (fun x hx y hy hd => hanti x hx y hy ((h.desc_clusterTree hk (hA y hy).1.le).1 hd))
    · intro h2
      classical
      set A : Finset ℕ := (kidsOf (clusterTree rows) n).toFinset.biUnion (hc.tops d.val tl)
      have hkr : ∀ c ∈ kidsOf (clusterTree rows) n, n < c ∧ c < n + k := fun c hck => by
        have := hc.kid_lt hck; omega
      have hAm : ∀ x, x ∈ A ↔ ∃ c ∈ kidsOf (clusterTree rows) n, hc.Top (ScoreOps.exact V) d.val tl c x := by
        intro x
        simp only [A, Finset.mem_biUnion, List.mem_toFinset]
        constructor
        · rintro ⟨c, h3, h4⟩; exact ⟨c, h3, (hc.mem_tops _ _ (hkr c h3).1.le (hkr c h3).2).1 h4⟩
        · rintro ⟨c, h3, h4⟩; exact ⟨c, h3, (hc.mem_tops _ _ (hkr c h3).1.le (hkr c h3).2).2 h4⟩
      have hAr : ∀ x ∈ A, n < x ∧ x < n + k := by
        intro x hx
        obtain ⟨c, h3, h4⟩ := (hAm x).1 hx
        have := hkr c h3
        have := hc.desc_le h4.1
        have := hc.desc_range h4.1 (by omega) (by omega)
        omega
      have h3 := h2 A hAr (by
        intro a ha b hb hab
        rw [← h.desc_clusterTree hk (hAr b hb).1.le] at hab
        obtain ⟨c, h4, h5⟩ := (hAm a).1 ha
        obtain ⟨c', h6, h7⟩ := (hAm b).1 hb
        have := hc.kids_disjoint h4 h6 (h5.1.trans hab) h7.1
        subst this
        by_contra hne
        have := h7.2.2 a h5.1 hab hne
        rw [h5.2.1] at this; cases this)
      rw [← hc.sum_tops_kids d.val tl le_rfl (fun c hck => hc.sum_tops d.val _ (hkr c hck).1.le (hkr c hck).2) A hAm]
      refine le_trans (le_of_eq ?_) h3
      exact Finset.sum_congr rfl fun c hcA => by rw [hval c (hAr c hcA).1.le (hAr c hcA).2]

omit [IsStrictOrderedRing V] in
/-- **C57 fails** without a split: nothing is selected, whatever `allow_single_cluster` says. -/
theorem C57_no_split_no_cluster (rows : List (CRow V V)) (h : CondTree n 1 rows)
    (hne : rows ≠ []) (hk : ∀ row ∈ rows, 1 < row.size ↔ n ≤ row.child) (mx : Option V) (allow : Bool) :
    extractEom rows mx allow = some [] := by
  have hc := h.clTree hk
  have hnil : clusterTree rows = [] := List.length_eq_zero_iff.1 (by have := hc.length; omega)
  obtain ⟨d, hd, _⟩ := h.scoreNodes_eq hne hk
  unfold extractEom
  rw [hd, hnil]
  rfl

end

/-! ## Concrete cases and counterexamples -/

/-- Four samples, two clusters of two samples each, both leaving the top cluster at lambda 1. -/
def exSel : List (CRow ℤ ℤ) :=
  [⟨4, 5, 1, 2⟩, ⟨4, 6, 1, 2⟩, ⟨5, 0, 2, 1⟩, ⟨5, 1, 2, 1⟩, ⟨6, 2, 2, 1⟩, ⟨6, 3, 2, 1⟩]

theorem exSel_condTree : CondTree 4 3 exSel :=
  .of_check (by decide) (by decide) (by decide) (by decide) (by decide) (by decide) (by decide)

theorem exSel_kind : ∀ row ∈ exSel, 1 < row.size ↔ 4 ≤ row.child := by decide

example : leafSelection (clusterTree exSel) 4 = [5, 6] := by decide
example : NonNested exSel [5, 6] := (C20_leaf_selection exSel exSel_condTree exSel_kind).2.1
example : ∃ sel, extractLeaves exSel = some sel ∧ NonNested exSel sel :=
  (C20_extract_leaves exSel exSel_condTree exSel_kind (fun c h1 h2 => by
    have : c = 4 ∨ c = 5 ∨ c = 6 := by omega
    rcases this with rfl | rfl | rfl
    · exact ⟨⟨4, 5, 1, 2⟩, by decide, rfl⟩
    · exact ⟨⟨5, 0, 2, 1⟩, by decide, rfl⟩
    · exact ⟨⟨6, 2, 2, 1⟩, by decide, rfl⟩)).imp fun _ h => ⟨h.1, h.2.2.1⟩
example : extractEom exSel none false = some [5, 6] := by decide
/-- The competing set `{5}` of C22. -/
example : ∑ c ∈ ({5} : Finset ℕ), max (stability exSel c) 0 ≤ ([5, 6].map fun c => max (stability exSel c) 0).sum := by
  obtain ⟨sel, h1, _, h2⟩ := C22_eom_optimal_partial exSel exSel_condTree (by decide) exSel_kind (by decide) none false
  have : sel = [5, 6] := Option.some.inj (h1.symm.trans (by decide))
  subst this
  exact h2 {5} (by simp) (by simp) (by simp) (by simp)
example : ∃! s, s ∈ [4] ∧ CDesc exSel s 5 := by
  obtain ⟨sel, h1, h2⟩ := C24_leaves_covered exSel exSel_condTree (by decide) exSel_kind (by decide) true
  have : sel = [4] := Option.some.inj (h1.symm.trans (by decide))
  subst this
  exact h2 5 (by decide) (by decide) (by unfold Childless; decide)
example : 4 ∉ eomClusters (clusterTree exSel) (ScoreOps.exact ℤ) ⟨[4, 5, 6], fun _ => 1⟩ (fun _ => false) false false :=
  C24_root_not_selected exSel exSel_condTree exSel_kind _ _ _ _

/-- An arithmetic with a NaN (`none`) and an infinity, as an instance of C21. -/
example : NonNested exSel (eomClusters (clusterTree exSel)
    (⟨some 0, fun x => x.map (max 0), fun x y => x.bind fun a => y.map (a + ·), fun x y => match x, y with
      | some a, some b => decide (b < a)
      | _, _ => false⟩ : ScoreOps (Option (WithTop ℕ)))
    ⟨[4, 5, 6], fun c => if c = 5 then none else some ⊤⟩ (fun _ => false) false true) :=
  (C21_eom_not_nested exSel exSel_condTree exSel_kind _ _ _ _ _).1

/-- **C23 fails** for the top cluster: with `max_cluster_size = 3` and `allow_single_cluster` the top cluster, which has four
samples, is selected (the size recorded for it is `parent.min() - 1 = 3`). -/
theorem C23_root_off_by_one : CondTree 4 3 exSel ∧ extractEom exSel (some 3) true = some [4] ∧
    (List.range 4).all (fun x => exSel.any fun row => row.child == x) = true :=
  ⟨exSel_condTree, by decide, by decide⟩

example : (∀ row ∈ exSel, row.child ∈ [4] → row.size ≤ 3) ∧ (4 ∈ [4] → ((4 - 1 : ℕ) : ℤ) ≤ 3) :=
  C23_max_cluster_size_partial exSel exSel_condTree (by decide) exSel_kind 3 true [4] (by decide)

/-- Three samples that never split. -/
def exNoSplit : List (CRow ℤ ℤ) := [⟨3, 0, 1, 1⟩, ⟨3, 1, 2, 1⟩, ⟨3, 2, 2, 1⟩]

theorem exNoSplit_condTree : CondTree 3 1 exNoSplit :=
  .of_check (by decide) (by decide) (by decide) (by decide) (by decide) (by decide) (by decide)

example : extractEom exNoSplit none true = some [] :=
  C57_no_split_no_cluster exNoSplit exNoSplit_condTree (by decide) (by decide) none true

example : 4 ∈ [4] ↔ ∀ A : Finset ℕ, (∀ c ∈ A, 4 < c ∧ c < 7) → (∀ a ∈ A, ∀ b ∈ A, CDesc exSel a b → a = b) →
    ∑ c ∈ A, max (stability exSel c) 0 ≤ max (stability exSel 4) 0 := by
  obtain ⟨sel, h1, _, h2⟩ := C57_single_cluster_partial exSel exSel_condTree (by decide) exSel_kind (by decide)
  have : sel = [4] := Option.some.inj (h1.symm.trans (by decide))
  subst this
  exact h2

end Verif
