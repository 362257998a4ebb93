import Verif.Props.ClusterSize
import Verif.Props.LeafEom
import Verif.Props.LeafCount
import Verif.Props.TwoRuns

/-!
# C113: raising `cluster_selection_persistence` coarsens the leaf clustering
-/

namespace Verif
variable {W K α β : Type*}

theorem CondTree.desc_childless {L S : Type*} {n k : ℕ} {rows : List (CRow L S)} (h : CondTree n k rows) {c d : ℕ} (hc : Childless n rows c) (hd : n ≤ d)
    (hcd : CDesc rows c d) : c = d := by
  rcases Relation.ReflTransGen.cases_head hcd with h1 | ⟨e, ⟨row, hrow, hp, he⟩, h2⟩
  · exact h1
  · have h3 := hc row hrow hp
    rw [he] at h3
    exfalso
    rcases Relation.ReflTransGen.cases_head h2 with h4 | ⟨f, ⟨row', hrow', hp', -⟩, -⟩
    · omega
    · have := (h.parents row' hrow').1
      omega

section
variable [Field K] [LinearOrder K] [IsStrictOrderedRing K] [LinearOrder W] [OrderTop W] [Inhabited W] [Inhabited K]

/-- A leaf clustering, in terms of the condensed tree `T` before simplification: the clusters that remain, and which samples get which label. -/
structure KeptView (n : ℕ) (T : List (CRow K K)) (p : K) (r : ClusterResult W K) : Prop where
  top : n ∉ r.selected
  view : ∃ k, ∃ old : ℕ → ℕ, CondTree n k r.condensed ∧
    (∀ c, n < c → c < n + k → n < old c ∧ (∃ row ∈ T, row.child = old c) ∧ ∀ x, x < n → (CDesc r.condensed c x ↔ CDesc T (old c) x)) ∧
    (∀ row ∈ T, n < row.child → ((∃ c, n < c ∧ c < n + k ∧ old c = row.child) ↔
      p ≤ 0 ∨ ∀ row' ∈ T, n ≤ row'.child → row'.parent = row.parent → Persists n T p row')) ∧
    (∀ c, c ∈ r.selected ↔ 1 < k ∧ n ≤ c ∧ c < n + k ∧ Childless n r.condensed c) ∧
    (1 < k → ∀ c, n ≤ c → c < n + k → ∃ s ∈ r.selected, CDesc r.condensed c s) ∧
    ∀ x, x < n → ∀ i : ℕ, r.labels[x]? = some (i : ℤ) ↔ ∃ s, (r.selected.insertionSort (· ≤ ·))[i]? = some s ∧ CDesc r.condensed s x

theorem keptView {n : ℕ} (hn : 2 ≤ n) {wt : ℕ → K} {t : List (Edge W)} (ht : SpanningTree n t)
    {o : ClusterOpts K} (h1 : 1 < o.minClusterSize) (h0 : ∀ x, x < n → 0 ≤ wt x)
    (hl : ∀ x, x < n → wt x < o.minClusterSize) {lam : W → K} (hlam : Antitone lam) (hpos : ∀ d, 0 ≤ lam d)
    (hfin : ∀ e ∈ t, lam e.w ≠ 0) (hm : o.method = .leaf) (heps : o.epsilon ≤ 0) {r : ClusterResult W K} (hr : clustersFromMst lam wt o t = some r) :
    KeptView n (condenseTree (Hier.ofRows (mstToLinkage wt (lexsortMst t))) wt o.minClusterSize none lam) o.persistence r := by
  have hlen := ht.length (by omega)
  have ht' := ht.perm (lexsortMst_perm t)
  have hcl := clustered_of_mst hn ht h1 h0 hl hlam hpos hr
  have hper := hcl.split
  obtain ⟨k, hct, -, -, -, -, -, ⟨-, hmean⟩, -⟩ := hcl.tree
  have hsimp := hcl.simp
  obtain ⟨rows, k2, e0, hct2, hbin, hmono, hkind, hlamr, hne⟩ := simplified_tree hn ht h1 h0 hl hlam hpos hper
  obtain rfl : rows = r.condensed := Option.some.inj (e0.symm.trans hsimp)
  obtain rfl := hct2.k_unique hct
  obtain ⟨-, s2⟩ := result_stages heps hr
  unfold baseSelection at s2
  rw [hm, hlen] at s2
  obtain ⟨-, -, l3, l4⟩ := C20_leaf_selection r.condensed hct hkind
  rw [Option.some.inj s2] at l3 l4
  have hedge := condense_lam_edge hn ht' h0 hl lam
  obtain ⟨k0, hct0, hbin0, hmono0, hkind0, hfull0, hsort0⟩ :=
    C54_applies n hn wt _ ht' (lexsortMst_sorted t) o.minClusterSize h1 h0 hl lam hlam
  set T := condenseTree (Hier.ofRows (mstToLinkage wt (lexsortMst t))) wt o.minClusterSize none lam with hT
  have hfinT : ∀ row ∈ T, row.lam ≠ 0 := by
    intro row hrow
    obtain ⟨e, he, h⟩ := hedge row hrow
    rw [h]; exact hfin e ((lexsortMst_perm t).mem_iff.1 he)
  have htop : n ∉ r.selected := by
    intro h
    obtain ⟨hk, -, -, h4⟩ := (l3 n).1 h
    obtain ⟨first, hfirst, hfp, hfc⟩ : CStep (clusterTree r.condensed) n (n + 1) := (hct.clTree hkind).first hk
    have := h4 first (List.mem_filter.1 hfirst).1 hfp
    omega
  have hold : ∃ old : ℕ → ℕ, (∀ c, n < c → c < n + k2 → n < old c ∧ (∃ row ∈ T, row.child = old c) ∧ ∀ x, x < n → (CDesc r.condensed c x ↔ CDesc T (old c) x)) ∧
      (∀ row ∈ T, n < row.child → ((∃ c, n < c ∧ c < n + k2 ∧ old c = row.child) ↔
        o.persistence ≤ 0 ∨ ∀ row' ∈ T, n ≤ row'.child → row'.parent = row.parent → Persists n T o.persistence row')) ∧
      ∀ row ∈ r.condensed, row.child < n → row.lam ≠ 0 := by
    unfold simplifyIf at hsimp
    by_cases hp : 0 < o.persistence ∧ 0 < T.length
    · rw [if_pos hp] at hsimp
      have hk0 : 1 < k0 := by
        obtain ⟨row, hrw, hc⟩ := hper.resolve_left (not_le.2 hp.1)
        have := (hct0.children row.child).1 (List.mem_map_of_mem hrw)
        omega
      obtain ⟨out, k', e1, c1, _, _, _, _, _, e8, old, o1, o2, o3, o4, o5⟩ :=
        C54_simplify_partial o.persistence n k0 T hct0 hbin0 hmono0 hkind0 hfull0 hk0
      have : out = r.condensed := Option.some.inj (e1.symm.trans hsimp)
      subst this
      have hkk : k' = k2 := c1.k_unique hct
      subst hkk
      refine ⟨old, fun c hc hck => ?_, fun row hrow hc => ?_, fun row hrow hcn => ?_⟩
      · have h3 := o3 n c le_rfl hc hck
        rw [o1] at h3
        obtain ⟨_, h4, h5⟩ := o2 c hc.le hck
        obtain ⟨row, h6, h7⟩ := List.mem_map.1 ((hct0.children (old c)).2 (.inr ⟨h3, h4⟩))
        exact ⟨h3, ⟨row, h6, h7⟩, h5⟩
      · rw [or_iff_right (not_le.2 hp.1), ← o5 hsort0 row hrow hc.le]
        constructor
        · rintro ⟨c, c1, c2, c3⟩
          exact ⟨c, c1.le, c2, c3⟩
        · rintro ⟨c, c1, c2, c3⟩
          refine ⟨c, lt_of_le_of_ne c1 ?_, c2, c3⟩
          rintro rfl
          omega
      · obtain ⟨q, hq, _, h | ⟨q', hq', _, h⟩⟩ := e8 row hrow hcn
        · rw [h]; exact hfinT q hq
        · rw [h]; exact hfinT q' hq'
    · rw [if_neg hp, Option.some.injEq] at hsimp
      have hp0 : o.persistence ≤ 0 := by
        by_contra hn0
        obtain ⟨row, hrw, -⟩ := hper.resolve_left hn0
        exact hp ⟨not_le.1 hn0, List.length_pos_of_mem hrw⟩
      rw [← hsimp] at hct ⊢
      have hkk : k0 = k2 := hct0.k_unique hct
      subst hkk
      exact ⟨id, fun c hc hck => ⟨hc, List.mem_map.1 ((hct0.children c).2 (.inr ⟨hc, hck⟩)), fun _ _ => Iff.rfl⟩,
        fun row hrow hc => iff_of_true ⟨row.child, hc, by
          have := (hct0.children row.child).1 (List.mem_map_of_mem hrow)
          omega, rfl⟩ (.inl hp0), fun row hrow _ => hfinT row hrow⟩
  obtain ⟨old, v1, v2, v3⟩ := hold
  refine ⟨htop, k2, old, hct, v1, v2, l3, l4, fun x hx i => ?_⟩
  obtain ⟨row, hrow, rfl⟩ := List.mem_map.1 ((hct.children x).2 (.inl hx))
  rw [(hmean row hrow hx).1 htop i, and_iff_right (v3 row hrow hx)]

/-- **C113** (partial).  Cluster a spanning tree twice with the leaf method, with the same options except for a larger `cluster_selection_persistence` the second time.
Samples that share a cluster the first time get the same label the second time: that of a cluster, or noise.  Each cluster of the second run contains a whole cluster of the first.
Missing: infinite edges, `cluster_selection_epsilon`; excess of mass, for which the claim is false (`C113_eom`). -/
theorem C113_not_divided_partial (n : ℕ) (hn : 2 ≤ n) (wt : ℕ → K) (t : List (Edge W)) (ht : SpanningTree n t)
    (o : ClusterOpts K) (h1 : 1 < o.minClusterSize) (h0 : ∀ x, x < n → 0 ≤ wt x)
    (hl : ∀ x, x < n → wt x < o.minClusterSize) (lam : W → K) (hlam : Antitone lam) (hpos : ∀ d, 0 ≤ lam d)
    (hfin : ∀ e ∈ t, lam e.w ≠ 0) (hm : o.method = .leaf) (heps : o.epsilon ≤ 0) (p' : K) (hp : o.persistence ≤ p')
    {r r' : ClusterResult W K} (hr : clustersFromMst lam wt o t = some r) (hr' : clustersFromMst lam wt { o with persistence := p' } t = some r') :
    (∀ x y : ℕ, ∀ i : ℤ, 0 ≤ i → r.labels[x]? = some i → r.labels[y]? = some i → r'.labels[x]? = r'.labels[y]?) ∧
      ∀ j ∈ r'.labels, 0 ≤ j → ∃ i ∈ r.labels, 0 ≤ i ∧ ∀ x : ℕ, r.labels[x]? = some i → r'.labels[x]? = some j := by
  obtain ⟨htop, k, old, hct, v1, v2, v3, v4, v5⟩ := keptView hn ht h1 h0 hl hlam hpos hfin hm heps hr
  obtain ⟨htop', k', old', hct', v1', v2', v3', v4', v5'⟩ := keptView hn ht (o := { o with persistence := p' }) h1 h0 hl hlam hpos hfin hm heps hr'
  obtain ⟨w1, w2, w3⟩ := C75_cluster_weight_partial n hn wt t ht o h1 h0 hl lam hlam hpos hfin hr htop
  obtain ⟨w1', w2', -⟩ := C75_cluster_weight_partial n hn wt t ht { o with persistence := p' } h1 h0 hl lam hlam hpos hfin hr' htop'
  simp only at v1' v2' v3'
  set T := condenseTree (Hier.ofRows (mstToLinkage wt (lexsortMst t))) wt o.minClusterSize none lam with hT
  -- a cluster of the second run is one of the first
  have hcl : ∀ s' ∈ r'.selected, ∃ d, n < d ∧ d < n + k ∧ ∀ x, x < n → (CDesc r.condensed d x ↔ CDesc r'.condensed s' x) := by
    intro s' hs'
    obtain ⟨-, a2, a3, -⟩ := (v3' s').1 hs'
    have hsn : n < s' := lt_of_le_of_ne a2 fun h => htop' (h ▸ hs')
    obtain ⟨b1, ⟨row, hrow, hrc⟩, b3⟩ := v1' s' hsn a3
    have hq := (v2' row hrow (by omega)).1 ⟨s', hsn, a3, hrc.symm⟩
    have hq' : o.persistence ≤ 0 ∨ ∀ row' ∈ T, n ≤ row'.child → row'.parent = row.parent → Persists n T o.persistence row' := by
      rcases hq with h | h
      · exact .inl (hp.trans h)
      · refine .inr fun row' c1 c2 c3 => ?_
        obtain ⟨s, d1, d2, d3, d4⟩ := h row' c1 c2 c3
        exact ⟨s, d1, d2, d3, hp.trans d4⟩
    obtain ⟨d, d1, d2, d3⟩ := (v2 row hrow (by omega)).2 hq'
    refine ⟨d, d1, d2, fun x hx => ?_⟩
    rw [(v1 d d1 d2).2.2 x hx, b3 x hx, d3, hrc]
  have hlt : ∀ {x : ℕ} {i : ℤ}, r.labels[x]? = some i → x < n := fun {x i} h => w1 ▸ (List.getElem?_eq_some_iff.1 h).1
  have key : ∀ x y : ℕ, ∀ i j : ℤ, 0 ≤ i → 0 ≤ j → r.labels[x]? = some i → r.labels[y]? = some i → r'.labels[x]? = some j → r'.labels[y]? = some j := by
    intro x y i j hi hj hx hy hx'
    obtain ⟨i, rfl⟩ := Int.eq_ofNat_of_zero_le hi
    obtain ⟨j, rfl⟩ := Int.eq_ofNat_of_zero_le hj
    have hxn := hlt hx
    have hyn := hlt hy
    obtain ⟨s, s1, s2⟩ := (v5 x hxn i).1 hx
    obtain ⟨s0, s3, s4⟩ := (v5 y hyn i).1 hy
    obtain rfl : s0 = s := Option.some.inj (s3.symm.trans s1)
    obtain ⟨s', u1, u2⟩ := (v5' x hxn j).1 hx'
    refine (v5' y hyn j).2 ⟨s', u1, ?_⟩
    obtain ⟨d, d1, d2, d3⟩ := hcl s' ((List.perm_insertionSort _ _).mem_iff.1 (List.mem_of_getElem? u1))
    rw [← d3 y hyn]
    obtain ⟨-, -, -, hleaf⟩ := (v3 s0).1 ((List.perm_insertionSort _ _).mem_iff.1 (List.mem_of_getElem? s1))
    rcases hct.desc_comparable s2 ((d3 x hxn).2 u2) with h | h
    · rwa [← hct.desc_childless hleaf d1.le h]
    · exact h.trans s4
  have hval : ∀ x, x < n → ∃ j : ℤ, -1 ≤ j ∧ r'.labels[x]? = some j := by
    intro x hx
    have hg := List.getElem?_eq_getElem (show x < r'.labels.length by omega)
    exact ⟨_, (w2' _ (List.mem_of_getElem? hg)).1, hg⟩
  refine ⟨fun x y i hi hx hy => ?_, fun j hj hj0 => ?_⟩
  · obtain ⟨a, a1, a2⟩ := hval x (hlt hx)
    obtain ⟨b, b1, b2⟩ := hval y (hlt hy)
    by_cases ha : 0 ≤ a
    · rw [a2, key x y i a hi ha hx hy a2]
    · by_cases hb : 0 ≤ b
      · rw [b2, key y x i b hi hb hy hx b2]
      · rw [a2, b2, show a = b by omega]
  · obtain ⟨x, hx⟩ := List.mem_iff_getElem?.1 hj
    have hxn : x < n := w1' ▸ (List.getElem?_eq_some_iff.1 hx).1
    obtain ⟨j, rfl⟩ := Int.eq_ofNat_of_zero_le hj0
    obtain ⟨s', u1, u2⟩ := (v5' x hxn j).1 hx
    obtain ⟨d, d1, d2, d3⟩ := hcl s' ((List.perm_insertionSort _ _).mem_iff.1 (List.mem_of_getElem? u1))
    obtain ⟨s, hs, hds⟩ := v4 (by omega) d d1.le d2
    obtain ⟨i, hi⟩ := List.mem_iff_getElem?.1 ((List.perm_insertionSort (· ≤ ·) r.selected).mem_iff.2 hs)
    have hil : i < r.selected.length := by
      have := (List.getElem?_eq_some_iff.1 hi).1
      rwa [List.length_insertionSort] at this
    refine ⟨i, (w3 i (by omega) (by exact_mod_cast hil)).1, by omega, fun z hz => ?_⟩
    have hzn := hlt hz
    obtain ⟨s0, s3, s4⟩ := (v5 z hzn i).1 hz
    obtain rfl : s0 = s := Option.some.inj (s3.symm.trans hi)
    exact (v5' z hzn j).2 ⟨s', u1, (d3 z hzn).1 (hds.trans s4)⟩

/-- **C113** (partial), `fit`, for rows with missing values, any distances and spanning tree: raising `cluster_selection_persistence` divides no leaf cluster.
Missing: as in `C113_not_divided_partial`. -/
theorem C113_fit_partial (lam : W → K) (hlam : Antitone lam) (hpos : ∀ d, 0 ≤ lam d)
    (finite : α → Bool) (X : List α) (side : List β) (hside : side.length = X.length)
    (h2 : 2 ≤ (X.filter finite).length) (wt : β → K) (o : ClusterOpts K) (h1 : 1 < o.minClusterSize)
    (hw0 : ∀ b ∈ side, 0 ≤ wt b ∧ wt b < o.minClusterSize) (mst : List α → List β → List (Edge W))
    (hspan : SpanningTree (X.filter finite).length (mst (X.filter finite) (((X.zip side).filter fun p => finite p.1).map Prod.snd)))
    (hfin : ∀ e ∈ mst (X.filter finite) (((X.zip side).filter fun p => finite p.1).map Prod.snd), lam e.w ≠ 0)
    (outliers : List ℕ) (hout : outliers.Perm ((List.range X.length).filter fun i => !(X[i]?.map finite).getD false))
    (hm : o.method = .leaf) (heps : o.epsilon ≤ 0) (p' : K) (hp : o.persistence ≤ p')
    (r r' : FitResult W K) (hr : fitModel finite (fastHdbscan lam mst wt o) outliers X side = .ok r)
    (hr' : fitModel finite (fastHdbscan lam mst wt { o with persistence := p' }) outliers X side = .ok r') :
    (∀ x y : ℕ, ∀ i : ℤ, 0 ≤ i → r.labels[x]? = some i → r.labels[y]? = some i → r'.labels[x]? = r'.labels[y]?) ∧
      ∀ j ∈ r'.labels, 0 ≤ j → ∃ i ∈ r.labels, 0 ≤ i ∧ ∀ x : ℕ, r.labels[x]? = some i → r'.labels[x]? = some j := by
  obtain ⟨wt', r1, r1', hwt, h3, h3', hlen, hlen', hrows⟩ := fit_two_runs hlam hpos hside h2 (o' := { o with persistence := p' }) h1 rfl hw0 hspan hout hr hr'
  obtain ⟨g1, g2⟩ := C113_not_divided_partial _ h2 wt' _ hspan o h1 (fun x _ => (hwt x).1) (fun x _ => (hwt x).2) lam hlam hpos hfin hm heps p' hp h3 h3'
  have hval : ∀ z i, 0 ≤ i → r.labels[z]? = some i ∨ r'.labels[z]? = some i →
      r.labels[z]? = r1.labels[(X.take z).countP finite]? ∧ r'.labels[z]? = r1'.labels[(X.take z).countP finite]? := by
    intro z i hi hz
    have hzn : z < X.length := by
      rcases hz with h | h
      · rw [← hlen]; exact (List.getElem?_eq_some_iff.1 h).1
      · rw [← hlen']; exact (List.getElem?_eq_some_iff.1 h).1
    have hg := List.getElem?_eq_getElem hzn
    cases hf : finite X[z] with
    | false =>
      obtain ⟨q1, q2⟩ := (hrows z _ hg).1 hf
      rcases hz with h | h
      · have := q1.symm.trans h
        simp only [Option.some.injEq] at this
        omega
      · have := q2.symm.trans h
        simp only [Option.some.injEq] at this
        omega
    | true => exact (hrows z _ hg).2 hf
  refine ⟨fun x y i hi hx hy => ?_, fun j hj hj0 => ?_⟩
  · obtain ⟨a1, a2⟩ := hval x i hi (.inl hx)
    obtain ⟨b1, b2⟩ := hval y i hi (.inl hy)
    rw [a2, b2]
    exact g1 _ _ i hi (a1 ▸ hx) (b1 ▸ hy)
  · obtain ⟨x, hx⟩ := List.mem_iff_getElem?.1 hj
    obtain ⟨-, a2⟩ := hval x j hj0 (.inr hx)
    obtain ⟨i, i1, i2, i3⟩ := g2 j (List.mem_of_getElem? (a2 ▸ hx)) hj0
    refine ⟨i, ?_, i2, fun z hz => ?_⟩
    · obtain ⟨s, hs⟩ := List.mem_iff_getElem?.1 i1
      have hsn : s < (X.filter finite).length := by
        obtain ⟨k, -, -, -, -, -, -, c7, -⟩ := C63_returned _ h2 _ _ hspan o h1 (fun x _ => (hwt x).1) (fun x _ => (hwt x).2) lam hlam hpos h3
        rw [← c7.1]
        exact (List.getElem?_eq_some_iff.1 hs).1
      obtain ⟨z, q, q1, q2, q3⟩ := row_of_sample hsn
      have := ((hrows z q q1).2 q2).1
      rw [q3, hs] at this
      exact List.mem_of_getElem? this
    · obtain ⟨b1, b2⟩ := hval z i i2 (.inl hz)
      rw [b2]
      exact i3 _ (b1 ▸ hz)

end
end Verif
