import Verif.Spec.Groups
import Verif.Lemmas.Groups
import Verif.Props.RawFit
import Verif.Props.LeafEom
import Verif.Props.AnyScores
import Verif.Props.FlatDbscan

/-!
# C106: no dense group is missed
-/

namespace Verif
variable {W K L S α β V : Type*}

section
variable [LinearOrder W]

theorem sorted_take_upTo {es : List (Edge W)} (hs : es.Pairwise fun a b => a.w ≤ b.w) (τ : W) : ∃ m, es.take m = upTo τ es := by
  induction es with
  | nil => exact ⟨0, rfl⟩
  | cons e es ih =>
    rw [List.pairwise_cons] at hs
    obtain ⟨m, hm⟩ := ih hs.2
    unfold upTo at hm ⊢
    by_cases he : e.w ≤ τ
    · exact ⟨m + 1, by rw [List.take_succ_cons, hm, List.filter_cons_of_pos (by simpa using he)]⟩
    · refine ⟨0, ?_⟩
      rw [List.take_zero, List.filter_cons_of_neg (by simpa using he), eq_comm, List.filter_eq_nil_iff]
      intro a ha
      have := hs.1 a ha
      simp only [decide_eq_true_eq, not_le]
      exact lt_of_lt_of_le (not_le.1 he) this

/-- At finite distances the edges of the bridged tree connect what the graph connects. -/
theorem upTo_tree [OrderTop W] {g f b t : List (Edge W)} (hf : MinSpanningForest g f) (hb : ∀ e ∈ b, e.w = ⊤) (hp : t.Perm (f ++ b)) {τ : W} (hτ : τ ≠ ⊤)
    (x y : ℕ) : Conn (upTo τ t) x y ↔ Conn (upTo τ g) x y := by
  rw [← hf.conn_upTo]
  constructor
  · refine fun h => h.mono fun e he => ?_
    obtain ⟨h1, h2⟩ := mem_upTo.1 he
    rcases List.mem_append.1 (hp.mem_iff.1 h1) with h3 | h3
    · exact mem_upTo.2 ⟨h3, h2⟩
    · rw [hb e h3, top_le_iff] at h2
      exact absurd h2 hτ
  · refine fun h => h.mono fun e he => ?_
    obtain ⟨h1, h2⟩ := mem_upTo.1 he
    exact mem_upTo.2 ⟨hp.mem_iff.2 (List.mem_append_left _ h1), h2⟩

theorem sorted_tree_upTo [OrderTop W] {g f b t es : List (Edge W)} (hf : MinSpanningForest g f) (hb : ∀ e ∈ b, e.w = ⊤) (hp : t.Perm (f ++ b))
    (hes : es.Perm t) (hs : es.Pairwise fun a b => a.w ≤ b.w) {τ : W} (hτ : τ ≠ ⊤) :
    ∃ m, (∀ e ∈ es.take m, e.w ≤ τ) ∧ ∀ x y, Conn (es.take m) x y ↔ Conn (upTo τ g) x y := by
  obtain ⟨m, hm⟩ := sorted_take_upTo hs τ
  refine ⟨m, fun e he => ?_, fun x y => ?_⟩
  · rw [hm] at he
    exact (mem_upTo.1 he).2
  · rw [hm, ← upTo_tree hf hb (hes.trans hp) hτ]

/-- Labels of clusters that cover all childless ones: every large component of the tree is inside one, or has one inside. -/
theorem groups_labelled [AddCommMonoid S] [LinearOrder S] [IsOrderedAddMonoid S] [One S] [Inhabited W] [Inhabited S] [LinearOrder L] [Zero L]
    {n : ℕ} (hn : 2 ≤ n) {wt : ℕ → S} {mcs : S} (h0 : ∀ x, x < n → 0 ≤ wt x) (hl : ∀ x, x < n → wt x < mcs)
    {es : List (Edge W)} (ht : SpanningTree n es) (hs : es.Pairwise fun a b => a.w ≤ b.w) {lam : W → L} {T : List (CRow L S)}
    (hT : T = condenseTree (Hier.ofRows (mstToLinkage wt es)) wt mcs none lam) {k : ℕ} (hct : CondTree n k T) {sel : List ℕ} {eps : Option L} {labels : List ℤ}
    (hlab : LabelsMean n T sel eps labels) (htop : n ∉ sel) (hrange : ∀ c ∈ sel, n ≤ c ∧ c < n + k)
    (hcov : ∀ c, n ≤ c → c < n + k → Childless n T c → ∃ s ∈ sel, CDesc T s c) :
    (∀ m x, x < n → BigComp n wt mcs es m x → (∀ e ∈ es.take m, lam e.w ≠ 0) → ∃ l ∈ labels, 0 ≤ l ∧
      ((∀ y, y < n → Conn (es.take m) x y → labels[y]? = some l) ∨ ∀ y, labels[y]? = some l → Conn (es.take m) x y)) ∧
    ((∀ s ∈ sel, Childless n T s) → ∀ m x x', x < n → x' < n → BigComp n wt mcs es m x → BigComp n wt mcs es m x' →
      ∀ y z, y < n → z < n → Conn (es.take m) x y → Conn (es.take m) x' z → ∀ l : ℤ, l ≠ -1 → labels[y]? = some l → labels[z]? = some l →
        Conn (es.take m) x x') := by
  obtain ⟨k', hct', g1, g2, g3⟩ := tree_groups hn h0 hl ht hs lam
  rw [← hT] at hct' g1 g2 g3
  obtain rfl := hct'.k_unique hct
  obtain ⟨hlen, hrows⟩ := hlab
  have hrowOf : ∀ x, x < n → ∃ row ∈ T, row.child = x := fun x hx => by
    obtain ⟨row, hrow, he⟩ := List.mem_map.1 ((hct.children x).2 (.inl hx))
    exact ⟨row, hrow, he⟩
  constructor
  · intro m x hx hbig hfin
    obtain ⟨c, c1, c2, c3, ⟨y0, hy0, hy0c⟩, c4⟩ := g1 m x hx hbig
    obtain ⟨s, hsel, hsc⟩ := hcov c c1 c2 c3
    have hs' : s ∈ sel.insertionSort (· ≤ ·) := (List.mem_insertionSort _).2 hsel
    obtain ⟨i, hi⟩ := List.mem_iff_getElem?.1 hs'
    have hiff : ∀ row ∈ T, row.child < n → (labels[row.child]? = some (i : ℤ) ↔ row.lam ≠ 0 ∧ CDesc T s row.child) := by
      intro row hrow hc
      rw [(hrows row hrow hc).1 htop i, hi]
      simp
    have hfin' : ∀ row ∈ T, row.child < n → Conn (es.take m) x row.child → row.lam ≠ 0 := by
      intro row hrow hc hcon
      obtain ⟨e, he, h⟩ := g2 m x hx hbig row hrow hc hcon
      rw [h]; exact hfin e he
    rcases c4 s (hrange s hsel).1 (hrange s hsel).2 hsc with h | h
    · refine ⟨i, ?_, by omega, .inr fun y hy => ?_⟩
      · have hys : CDesc T s y0 := hsc.trans hy0c
        obtain ⟨row, hrow, rfl⟩ := hrowOf y0 hy0
        exact List.mem_of_getElem? ((hiff row hrow hy0).2 ⟨hfin' row hrow hy0 (h _ hy0 hys), hys⟩)
      · have hyn : y < n := by rw [← hlen]; exact (List.getElem?_eq_some_iff.1 hy).1
        obtain ⟨row, hrow, rfl⟩ := hrowOf y hyn
        exact h _ hyn ((hiff row hrow hyn).1 hy).2
    · have key : ∀ y, y < n → Conn (es.take m) x y → labels[y]? = some (i : ℤ) := fun y hy hc => by
        obtain ⟨row, hrow, rfl⟩ := hrowOf y hy
        exact (hiff row hrow hy).2 ⟨hfin' row hrow hy hc, h _ hy hc⟩
      exact ⟨i, List.mem_of_getElem? (key x hx (Conn.refl _ _)), by omega, .inl key⟩
  · intro hleaf m x x' hx hx' hbig hbig' y z hy hz hxy hxz l hl0 hly hlz
    by_contra hno
    obtain ⟨-, g4⟩ := g3 m x x' hx hx' hbig hbig' hno
    obtain ⟨row, hrow, rfl⟩ := hrowOf y hy
    obtain ⟨row', hrow', rfl⟩ := hrowOf z hz
    have := (hrows row hrow hy).2.2 l hly
    obtain ⟨i, rfl⟩ := Int.eq_ofNat_of_zero_le (show 0 ≤ l by omega)
    obtain ⟨_, s, hs1, hs2⟩ := ((hrows row hrow hy).1 htop i).1 hly
    obtain ⟨_, s', hs1', hs2'⟩ := ((hrows row' hrow' hz).1 htop i).1 hlz
    rw [hs1, Option.some.injEq] at hs1'
    subst hs1'
    have hsel := (List.mem_insertionSort _).1 (List.mem_of_getElem? hs1)
    exact g4 s (hrange s hsel).1 (hrange s hsel).2 (hleaf s hsel) _ _ hy hz hs2 hs2' hxy hxz

end

section
variable [Field K] [LinearOrder K] [IsStrictOrderedRing K] [LinearOrder W] [OrderTop W] [Inhabited W] [Inhabited K]

omit [IsStrictOrderedRing K] [Inhabited W] [Inhabited K] in
theorem bigPart_iff {n : ℕ} {wt : ℕ → K} {mcs : K} {g es : List (Edge W)} {τ : W} {m : ℕ} (h : ∀ x y, Conn (es.take m) x y ↔ Conn (upTo τ g) x y) (x : ℕ) :
    BigPart n wt mcs g τ x ↔ BigComp n wt mcs es m x := by
  unfold BigPart BigComp
  classical
  have e : ((Finset.range n).filter fun y => Conn (upTo τ g) x y) = (Finset.range n).filter fun y => Conn (es.take m) x y :=
    Finset.filter_congr fun y _ => (h x y).symm
  convert Iff.rfl using 3
  convert e.symm

/-- **C106** (partial), the graph.  Let `t` be a minimum spanning forest of a graph with bridges of infinite weight.  Suppose that at some finite distance two groups of samples
that weigh at least `min_cluster_size` are apart.  Then clustering the tree misses no such group, at no finite distance: each is inside one cluster, or has a whole cluster inside.
With the leaf method no cluster has samples of two such groups that are apart.  If the tree has no infinite edge there are at least two clusters.
Any arithmetic on scores, lambdas may be infinite.
Missing: `cluster_selection_epsilon` (`C106_epsilon`), a positive persistence (`C106_persistence`), `max_cluster_size` with excess of mass (`C106_max_cluster_size`); for the whole data set as
one cluster see `C106_found_partial`. -/
theorem C106_groups_partial (n : ℕ) (hn : 2 ≤ n) (wt : ℕ → K) (g f b t : List (Edge W)) (hf : MinSpanningForest g f) (hb : ∀ e ∈ b, e.w = ⊤)
    (ht : SpanningTree n t) (hp : t.Perm (f ++ b)) (o : ClusterOpts K) (h1 : 1 < o.minClusterSize) (h0 : ∀ x, x < n → 0 ≤ wt x)
    (hl : ∀ x, x < n → wt x < o.minClusterSize) (lam : W → WithTop K) (hlam : Antitone lam) (hpos : ∀ d, 0 ≤ lam d) (hzero : ∀ d, d ≠ ⊤ → lam d ≠ 0)
    (hper : o.persistence ≤ 0) (heps : o.epsilon ≤ 0) (a : StabOps V (WithTop K) K) (ops : ScoreOps V)
    (hmax : o.method = .leaf ∨ o.maxClusterSize = none ∧ ∀ x, ops.gt ops.zero (ops.pos x) = false)
    (r : ClusterResult W K (WithTop K)) (hr : clustersFromMstAny a ops lam wt o t = some r) (htop : n ∉ r.selected)
    (htwo : TwoParts n wt o.minClusterSize g) :
    PartsFound n wt o.minClusterSize g r.labels ∧ (o.method = .leaf → PartsApart n wt o.minClusterSize g r.labels) ∧
      ((∀ e ∈ t, e.w ≠ ⊤) → ∃ l ∈ r.labels, ∃ l' ∈ r.labels, 0 ≤ l ∧ l < l') := by
  have hlen := ht.length (by omega)
  have ht' := ht.perm (lexsortMst_perm t)
  have hs := lexsortMst_sorted t
  obtain ⟨T, hT⟩ : ∃ T, T = condenseTree (Hier.ofRows (mstToLinkage wt (lexsortMst t))) wt o.minClusterSize none lam := ⟨_, rfl⟩
  obtain ⟨B, k, hB, hBe, hBl, hTm, hctB, hbin, hmono, hkind, hlamr, hne, hct, hkindT, hlamT, hneT⟩ := any_tree hn ht h1 h0 hl hlam hpos hT
  -- the stages of the result
  obtain ⟨hcond, hbase⟩ : r.condensed = T ∧ baseSelectionAny a ops o n T = some r.selected := by
    have hr' := hr
    unfold clustersFromMstAny at hr'
    simp only [hlen] at hr'
    rw [← hT] at hr'
    obtain ⟨sel0, e0, hr'⟩ := Option.bind_eq_some_iff.1 hr'
    obtain ⟨sel, e1, hr'⟩ := Option.bind_eq_some_iff.1 hr'
    obtain ⟨labels, e2, hr'⟩ := Option.bind_eq_some_iff.1 hr'
    obtain ⟨str, e3, rfl⟩ := Option.map_eq_some_iff.1 hr'
    unfold epsilonIfTop at e1
    rw [if_neg (fun h => absurd h.2 (not_lt.2 heps))] at e1
    exact ⟨rfl, by rw [e0, e1]⟩
  obtain ⟨⟨k', c1, c2, c3, c4, c5, c6, c7⟩, -, -⟩ := C104_returned_partial n hn wt t ht o h1 h0 hl lam hlam hpos hper a ops r hr
  rw [hcond] at c1 c3 c7
  obtain rfl := c1.k_unique hct
  obtain ⟨k', hct', g1, g2, g3⟩ := tree_groups hn h0 hl ht' hs lam
  rw [← hT] at hct' g1 g2 g3
  obtain rfl := hct'.k_unique hct
  obtain ⟨hk, hx0⟩ : 1 < k' ∧ ∃ c, n ≤ c ∧ c < n + k' ∧ Childless n T c := by
    obtain ⟨τ, hτ, x, y, hx, hy, hbx, hby, hxy⟩ := htwo
    obtain ⟨m, _, hm⟩ := sorted_tree_upTo hf hb hp (lexsortMst_perm t) hs hτ
    have hbx := (bigPart_iff hm x).1 hbx
    have hby := (bigPart_iff hm y).1 hby
    obtain ⟨c, d1, d2, d3, -⟩ := g1 m x hx hbx
    exact ⟨(g3 m x y hx hy hbx hby fun h => hxy ((hm x y).1 h)).1, c, d1, d2, d3⟩
  have hcov : ∀ c, n ≤ c → c < n + k' → Childless n T c → ∃ s ∈ r.selected, CDesc T s c := fun c hc1 hc2 hc3 =>
    hct.baseSelectionAny_covers hneT hkindT a ops o hmax hbase hk hc1 hc2 hc3
  obtain ⟨m1, m2⟩ := groups_labelled hn h0 hl ht' hs hT hct c7 htop c4 hcov
  refine ⟨fun τ hτ x hx hbx => ?_, fun hleaf τ hτ x hx y hy hbx hby x' hx' y' hy' hxx hyy l hl0 hlx hly => ?_, fun hfin => ?_⟩
  · obtain ⟨m, hle, hm⟩ := sorted_tree_upTo hf hb hp (lexsortMst_perm t) hs hτ
    obtain ⟨l, q1, q2, q3⟩ := m1 m x hx ((bigPart_iff hm x).1 hbx) fun e he => hzero _ fun h => hτ (top_le_iff.1 (h ▸ hle e he))
    refine ⟨l, q1, q2, ?_⟩
    rcases q3 with q3 | q3
    · exact .inl fun y hy hc => q3 y hy ((hm x y).2 hc)
    · exact .inr fun y hy => (hm x y).1 (q3 y hy)
  · obtain ⟨m, hle, hm⟩ := sorted_tree_upTo hf hb hp (lexsortMst_perm t) hs hτ
    rw [← hm] at hxx hyy ⊢
    refine m2 (fun s hs => ?_) m x y hx hy ((bigPart_iff hm x).1 hbx) ((bigPart_iff hm y).1 hby) x' y' hx' hy' hxx hyy l hl0 hlx hly
    unfold baseSelectionAny at hbase
    rw [hleaf] at hbase
    obtain ⟨-, -, q3, -⟩ := C20_leaf_selection T hct hkindT
    rw [Option.some.inj hbase] at q3
    exact ((q3 s).1 hs).2.2.2
  · obtain ⟨-, -, d3⟩ := C104_clusters_partial n hn wt t ht o h1 h0 hl lam hlam hpos hper (fun e he => hzero _ (hfin e he)) a ops r hr htop
    have hlen2 : 1 < r.selected.length := by
      obtain ⟨sel0', e0', q1, q2, q3, q4, q5⟩ := hct.baseSelectionAny_sound hneT hkindT a ops o
      obtain rfl := Option.some.inj (hbase.symm.trans e0')
      obtain ⟨sel, e1, -, -, f3, f4, -⟩ := hctB.epsilon_total hkind hbin hmono o.epsilon q1 ((NonNested.mapLam_iff _).2 q2) q3 q4
        (fun hs c hc1 hc2 hc3 => by
          obtain ⟨s, p1, p2⟩ := hct.baseSelectionAny_covers hneT hkindT a ops o hmax hbase hs hc1 hc2
            (fun row hrow hp => hc3 (row.mapLam (topTo B)) (List.mem_map_of_mem hrow) hp)
          exact ⟨s, p1, (CDesc.mapLam_iff _).2 p2⟩)
      have : sel = r.selected := by
        unfold epsilonIf at e1
        rw [if_neg (fun h => absurd h.2 (not_lt.2 heps))] at e1
        exact (Option.some.inj e1).symm
      subst this
      obtain ⟨c, hc1, hc2, hc3⟩ := hx0
      obtain ⟨s, hs1, -⟩ := hcov c hc1 hc2 hc3
      rcases f4 with h | h | h
      · rw [h] at hs1; simp at hs1
      · rw [h] at htop; simp at htop
      · exact h.1
    exact ⟨0, (d3 0 le_rfl (by omega)).1, 1, (d3 1 (by omega) (by omega)).1, le_rfl, by omega⟩

end

/-! ## Rows -/

section
variable [LinearOrder W] [OrderTop W]

/-- Rows are linked when the graph of the finite rows connects them. -/
theorem linked_iff {finite : α → Bool} {reach : α → α → W} (hsym : ∀ x y, reach x y = reach y x) {X : List α} {τ : W} {i j : ℕ} {x y : α}
    (hi : X[i]? = some x) (hfx : finite x = true) (hj : X[j]? = some y) (hfy : finite y = true) :
    Linked finite reach X τ i j ↔ Conn (upTo τ (completeGraph (X.filter finite).length (rowDist reach (X.filter finite))))
      ((X.take i).countP finite) ((X.take j).countP finite) := by
  constructor
  · intro h
    clear hj hfy
    induction h with
    | refl => exact Conn.refl _ _
    | @tail b c _ hs ih =>
      obtain ⟨x', y', g1, g2, g3, g4, g5⟩ := hs
      refine ih.trans ?_
      have h3 := finite_pos g1 g3
      have h4 := finite_pos g2 g4
      by_cases he : (X.take b).countP finite = (X.take c).countP finite
      · rw [he]; exact Conn.refl _ _
      · exact Conn.edge (e := ⟨(X.take b).countP finite, (X.take c).countP finite, reach x' y'⟩) (mem_upTo.2 ⟨mem_completeGraph.2
          ⟨(List.getElem?_eq_some_iff.1 h3).1, (List.getElem?_eq_some_iff.1 h4).1, he, (rowDist_eq (dist := reach) h3 h4).symm⟩, g5⟩)
  · intro h
    have key : ∀ k, Conn (upTo τ (completeGraph (X.filter finite).length (rowDist reach (X.filter finite)))) ((X.take i).countP finite) k →
        ∀ j y, X[j]? = some y → finite y = true → (X.take j).countP finite = k → Linked finite reach X τ i j := by
      intro k hk
      induction hk with
      | refl =>
        intro j y h1 h2 h3
        rw [finite_pos_inj h1 h2 hi hfx h3]
        exact .refl
      | @tail b c _ hs ih =>
        intro j y h1 h2 h3
        obtain ⟨e, he, hends⟩ := hs
        obtain ⟨he, hw⟩ := mem_upTo.1 he
        obtain ⟨q1, q2, q3, q4⟩ := mem_completeGraph.1 he
        have hbn : b < (X.filter finite).length := by
          rcases hends with ⟨rfl, rfl⟩ | ⟨rfl, rfl⟩
          · exact q1
          · exact q2
        obtain ⟨i', g1, g2, g3⟩ := finite_row (List.getElem?_eq_getElem hbn)
        refine (ih i' _ g1 g2 g3).tail ⟨_, y, g1, h1, g2, h2, ?_⟩
        have hpj := finite_pos h1 h2
        rw [h3] at hpj
        rcases hends with ⟨rfl, rfl⟩ | ⟨rfl, rfl⟩
        · rw [rowDist_eq (List.getElem?_eq_getElem hbn) hpj] at q4
          rw [← q4]; exact hw
        · rw [rowDist_eq hpj (List.getElem?_eq_getElem hbn)] at q4
          rw [hsym, ← q4]; exact hw
    exact key _ h j y hj hfy rfl

/-- What a finite row is linked with is a finite row. -/
theorem Linked.finite {finite : α → Bool} {reach : α → α → W} {X : List α} {τ : W} {i j : ℕ} (h : Linked finite reach X τ i j) {x : α} (hi : X[i]? = some x)
    (hfx : finite x = true) : ∃ y, X[j]? = some y ∧ finite y = true := by
  rcases h.cases_tail with rfl | ⟨c, _, x', y', _, h2, _, h4, _⟩
  · exact ⟨x, hi, hfx⟩
  · exact ⟨y', h2, h4⟩

theorem bigGroup_iff [AddCommMonoid K] [LE K] {finite : α → Bool} {reach : α → α → W} (hsym : ∀ x y, reach x y = reach y x) {X : List α} {weight wtP : ℕ → K}
    (hw : ∀ j y, X[j]? = some y → finite y = true → wtP ((X.take j).countP finite) = weight j) {mcs : K} {τ : W} {i : ℕ} {x : α}
    (hi : X[i]? = some x) (hfx : finite x = true) :
    BigGroup finite reach weight mcs X τ i ↔
      BigPart (X.filter finite).length wtP mcs (completeGraph (X.filter finite).length (rowDist reach (X.filter finite))) τ ((X.take i).countP finite) := by
  classical
  unfold BigGroup BigPart
  have hsum : (∑ j ∈ (Finset.range X.length).filter fun j => Linked finite reach X τ i j, weight j) =
      ∑ k ∈ (Finset.range (X.filter finite).length).filter fun k =>
        Conn (upTo τ (completeGraph (X.filter finite).length (rowDist reach (X.filter finite)))) ((X.take i).countP finite) k, wtP k := by
    refine Finset.sum_bij (fun j _ => (X.take j).countP finite) (fun j hj => ?_) (fun j hj j' hj' he => ?_) (fun k hk => ?_) fun j hj => ?_
    · obtain ⟨_, hj⟩ := Finset.mem_filter.1 hj
      obtain ⟨y, hy, hfy⟩ := hj.finite hi hfx
      exact Finset.mem_filter.2 ⟨Finset.mem_range.2 (List.getElem?_eq_some_iff.1 (finite_pos hy hfy)).1, (linked_iff hsym hi hfx hy hfy).1 hj⟩
    · obtain ⟨y, hy, hfy⟩ := (Finset.mem_filter.1 hj).2.finite hi hfx
      obtain ⟨y', hy', hfy'⟩ := (Finset.mem_filter.1 hj').2.finite hi hfx
      exact finite_pos_inj hy hfy hy' hfy' he
    · obtain ⟨h1, h2⟩ := Finset.mem_filter.1 hk
      obtain ⟨j, g1, g2, g3⟩ := finite_row (List.getElem?_eq_getElem (Finset.mem_range.1 h1))
      refine ⟨j, Finset.mem_filter.2 ⟨Finset.mem_range.2 (List.getElem?_eq_some_iff.1 g1).1, (linked_iff hsym hi hfx g1 g2).2 ?_⟩, g3⟩
      rw [g3]; exact h2
    · obtain ⟨y, hy, hfy⟩ := (Finset.mem_filter.1 hj).2.finite hi hfx
      exact (hw j y hy hfy).symm
  constructor
  · rintro ⟨_, h⟩
    convert h.trans_eq hsum
  · intro h
    refine ⟨⟨x, hi, hfx⟩, ?_⟩
    have h' := h
    convert hsum ▸ h'

/-- From the graph of the finite rows to the rows. -/
theorem groups_of_parts [AddCommMonoid K] [LE K] {finite : α → Bool} {reach : α → α → W} (hsym : ∀ x y, reach x y = reach y x) {X : List α}
    {weight wtP : ℕ → K} (hw : ∀ j y, X[j]? = some y → finite y = true → wtP ((X.take j).countP finite) = weight j) {mcs : K} {labels labelsP : List ℤ}
    (hlen : labels.length = X.length) (hlenP : labelsP.length = (X.filter finite).length)
    (hrows : ∀ i x, X[i]? = some x → (finite x = false → labels[i]? = some (-1)) ∧
      (finite x = true → labels[i]? = labelsP[(X.take i).countP finite]?)) :
    (TwoGroups finite reach weight mcs X → TwoParts (X.filter finite).length wtP mcs (completeGraph (X.filter finite).length (rowDist reach (X.filter finite)))) ∧
    (PartsFound (X.filter finite).length wtP mcs (completeGraph (X.filter finite).length (rowDist reach (X.filter finite))) labelsP →
      GroupsFound finite reach weight mcs X labels) ∧
    (PartsApart (X.filter finite).length wtP mcs (completeGraph (X.filter finite).length (rowDist reach (X.filter finite))) labelsP →
      GroupsApart finite reach weight mcs X labels) ∧
    ∀ l ∈ labelsP, l ∈ labels := by
  have hmem : ∀ l ∈ labelsP, l ∈ labels := fun l hl => by
    obtain ⟨k, hk⟩ := List.mem_iff_getElem?.1 hl
    have hkn : k < (X.filter finite).length := by rw [← hlenP]; exact (List.getElem?_eq_some_iff.1 hk).1
    obtain ⟨i, g1, g2, g3⟩ := finite_row (List.getElem?_eq_getElem hkn)
    refine List.mem_of_getElem? (i := i) ?_
    rw [(hrows i _ g1).2 g2, g3]; exact hk
  have hpos : ∀ {i x}, X[i]? = some x → finite x = true → (X.take i).countP finite < (X.filter finite).length := fun h1 h2 =>
    (List.getElem?_eq_some_iff.1 (finite_pos h1 h2)).1
  refine ⟨?_, fun h τ hτ i hbig => ?_, fun h τ hτ i j hbi hbj i' j' hii hjj l hl0 hli hlj => ?_, hmem⟩
  · rintro ⟨τ, hτ, i, j, hbi, hbj, hno⟩
    obtain ⟨⟨x, hx, hfx⟩, _⟩ := id hbi
    obtain ⟨⟨y, hy, hfy⟩, _⟩ := id hbj
    exact ⟨τ, hτ, _, _, hpos hx hfx, hpos hy hfy, (bigGroup_iff hsym hw hx hfx).1 hbi, (bigGroup_iff hsym hw hy hfy).1 hbj,
      fun hc => hno ((linked_iff hsym hx hfx hy hfy).2 hc)⟩
  · obtain ⟨⟨x, hx, hfx⟩, _⟩ := id hbig
    obtain ⟨l, h1, h2, h3⟩ := h τ hτ _ (hpos hx hfx) ((bigGroup_iff hsym hw hx hfx).1 hbig)
    refine ⟨l, hmem l h1, h2, ?_⟩
    rcases h3 with h3 | h3
    · refine .inl fun j hj => ?_
      obtain ⟨y, hy, hfy⟩ := hj.finite hx hfx
      rw [(hrows j y hy).2 hfy]
      exact h3 _ (hpos hy hfy) ((linked_iff hsym hx hfx hy hfy).1 hj)
    · refine .inr fun j hj => ?_
      have hjn : j < X.length := by rw [← hlen]; exact (List.getElem?_eq_some_iff.1 hj).1
      have hy := List.getElem?_eq_getElem hjn
      cases hfy : finite X[j] with
      | false =>
        rw [(hrows j _ hy).1 hfy, Option.some.injEq] at hj
        omega
      | true =>
        rw [(hrows j _ hy).2 hfy] at hj
        exact (linked_iff hsym hx hfx hy hfy).2 (h3 _ hj)
  · obtain ⟨⟨x, hx, hfx⟩, _⟩ := id hbi
    obtain ⟨⟨y, hy, hfy⟩, _⟩ := id hbj
    obtain ⟨x', hx', hfx'⟩ := hii.finite hx hfx
    obtain ⟨y', hy', hfy'⟩ := hjj.finite hy hfy
    rw [(hrows _ _ hx').2 hfx'] at hli
    rw [(hrows _ _ hy').2 hfy'] at hlj
    exact (linked_iff hsym hx hfx hy hfy).2 (h τ hτ _ (hpos hx hfx) _ (hpos hy hfy) ((bigGroup_iff hsym hw hx hfx).1 hbi) ((bigGroup_iff hsym hw hy hfy).1 hbj)
      _ (hpos hx' hfx') _ (hpos hy' hfy') ((linked_iff hsym hx hfx hx' hfx').1 hii) ((linked_iff hsym hy hfy hy' hfy').1 hjj) l hl0 hli hlj)

end

section
universe u
variable {K' : Type u} [Field K'] [LinearOrder K'] [IsStrictOrderedRing K'] [LinearOrder W] [OrderTop W] [Inhabited W] [Inhabited K']

/-- **C106** (partial), the graph, with exact arithmetic on finite lambdas. -/
theorem C106_exact_partial (n : ℕ) (hn : 2 ≤ n) (wt : ℕ → K') (g f b t : List (Edge W)) (hf : MinSpanningForest g f) (hb : ∀ e ∈ b, e.w = ⊤)
    (ht : SpanningTree n t) (hp : t.Perm (f ++ b)) (o : ClusterOpts K') (h1 : 1 < o.minClusterSize) (h0 : ∀ x, x < n → 0 ≤ wt x)
    (hl : ∀ x, x < n → wt x < o.minClusterSize) (lam : W → K') (hlam : Antitone lam) (hpos : ∀ d, 0 ≤ lam d) (hzero : ∀ d, d ≠ ⊤ → lam d ≠ 0)
    (hper : o.persistence ≤ 0) (heps : o.epsilon ≤ 0) (hmax : o.method = .leaf ∨ o.maxClusterSize = none)
    (r : ClusterResult W K') (hr : clustersFromMst lam wt o t = some r) (htop : n ∉ r.selected) (htwo : TwoParts n wt o.minClusterSize g) :
    PartsFound n wt o.minClusterSize g r.labels ∧ (o.method = .leaf → PartsApart n wt o.minClusterSize g r.labels) ∧
      ((∀ e ∈ t, e.w ≠ ⊤) → ∃ l ∈ r.labels, ∃ l' ∈ r.labels, 0 ≤ l ∧ l < l') := by
  have he := C104_exact n hn wt t ht lam o hper
  rw [hr, Option.map_some] at he
  obtain ⟨r', hr', he⟩ := Option.map_eq_some_iff.1 he
  simp only [Prod.mk.injEq] at he
  obtain ⟨e1, -, -, -, e2, -⟩ := he
  rw [← e1]
  rw [← e2] at htop
  refine C106_groups_partial n hn wt g f b t hf hb ht hp o h1 h0 hl (fun d => (lam d : WithTop K')) (fun _ _ h => WithTop.coe_le_coe.2 (hlam h))
    (fun d => WithTop.coe_le_coe.2 (hpos d)) (fun d hd h => hzero d hd (WithTop.coe_eq_zero.1 h)) hper heps (StabOps.exact K') (ScoreOps.exact K')
    (hmax.imp_right fun h => ⟨h, fun x => ?_⟩) r' hr' htop htwo
  simp [ScoreOps.exact]

/-- `fit` misses no group if the clustering of the finite rows does not. -/
theorem fit_groups_with {finite : α → Bool} {reach : α → α → W} (hsym : ∀ x y, reach x y = reach y x) {X : List α} {side : List β} (hside : side.length = X.length)
    (h2 : 2 ≤ (X.filter finite).length) {wt : β → K'} {mcs : K'}
    {outliers : List ℕ} (hout : outliers.Perm ((List.range X.length).filter fun i => !(X[i]?.map finite).getD false))
    {cluster : List α → List β → Option (ClusterResult W K')} {p q : Prop}
    (hcl : ∀ r1, cluster (X.filter finite) (((X.zip side).filter fun p => finite p.1).map Prod.snd) = some r1 → r1.labels.length = (X.filter finite).length ∧
      (TwoParts (X.filter finite).length (fun i => ((((X.zip side).filter fun p => finite p.1).map Prod.snd)[i]?.map wt).getD 1) mcs
        (completeGraph (X.filter finite).length (rowDist reach (X.filter finite))) →
       PartsFound (X.filter finite).length (fun i => ((((X.zip side).filter fun p => finite p.1).map Prod.snd)[i]?.map wt).getD 1) mcs
        (completeGraph (X.filter finite).length (rowDist reach (X.filter finite))) r1.labels ∧
       (p → PartsApart (X.filter finite).length (fun i => ((((X.zip side).filter fun p => finite p.1).map Prod.snd)[i]?.map wt).getD 1) mcs
        (completeGraph (X.filter finite).length (rowDist reach (X.filter finite))) r1.labels) ∧
       (q → ∃ l ∈ r1.labels, ∃ l' ∈ r1.labels, 0 ≤ l ∧ l < l')))
    {r : FitResult W K'} (hr : fitModel finite (fastWith cluster) outliers X side = .ok r)
    (htwo : TwoGroups finite reach (fun i => (side[i]?.map wt).getD 1) mcs X) :
    GroupsFound finite reach (fun i => (side[i]?.map wt).getD 1) mcs X r.labels ∧
      (p → GroupsApart finite reach (fun i => (side[i]?.map wt).getD 1) mcs X r.labels) ∧
      (q → ∃ l ∈ r.labels, ∃ l' ∈ r.labels, 0 ≤ l ∧ l < l') := by
  have hcore : ∀ r0, fastWith cluster (X.filter finite) (((X.zip side).filter fun p => finite p.1).map Prod.snd) = .ok r0 →
      ∃ r1, cluster (X.filter finite) (((X.zip side).filter fun p => finite p.1).map Prod.snd) = some r1 ∧
        r0 = ⟨r1.labels, (List.range (X.filter finite).length).map r1.strengths, r1.linkage, r1.condensed⟩ := by
    intro r0 hr0
    unfold fastWith at hr0
    rw [if_neg (not_lt.2 h2)] at hr0
    cases hc : cluster (X.filter finite) (((X.zip side).filter fun p => finite p.1).map Prod.snd) with
    | none => rw [hc] at hr0; cases hr0
    | some r1 =>
      rw [hc] at hr0
      exact ⟨r1, rfl, (Except.ok.inj hr0).symm⟩
  obtain ⟨r0, hr0, hlen0, hlen1, -, hrows⟩ := nonfinite_rows hside (fun r0 h => by
    obtain ⟨r1, h3, rfl⟩ := hcore r0 h
    exact ⟨(hcl r1 h3).1, by simp⟩) hout hr
  obtain ⟨r1, hr1, rfl⟩ := hcore r0 hr0
  obtain ⟨q1, q2, q3, q4⟩ := groups_of_parts (weight := fun i => (side[i]?.map wt).getD 1) (mcs := mcs)
    (wtP := fun i => ((((X.zip side).filter fun p => finite p.1).map Prod.snd)[i]?.map wt).getD 1) hsym (fun j y hy hfy => by
      beta_reduce
      rw [finite_side hside hy hfy]) hlen1 hlen0 fun i x hx => ⟨fun h => ((hrows i x hx).1 h).1, fun h => ((hrows i x hx).2 h).1⟩
  obtain ⟨f1, f2, f3⟩ := (hcl r1 hr1).2 (q1 htwo)
  refine ⟨q2 f1, fun h => q3 (f2 h), fun h => ?_⟩
  obtain ⟨l, hl, l', hl', h3⟩ := f3 h
  exact ⟨l, q4 l hl, l', q4 l' hl', h3⟩

/-- **C106** (partial), `fit`: for any way to measure distances and build the spanning tree, sample weights, infinite lambdas and every arithmetic on scores, if the
spanning tree is a minimum spanning tree of symmetric distances `reach` between the finite rows.  Suppose that at some finite distance two groups of rows that weigh at
least `min_cluster_size` are apart.  Then the labels miss no such group: each is inside one cluster, or has a whole cluster inside; with the leaf method no cluster has rows of two
such groups that are apart; if no edge is infinite there are at least two clusters.
Missing: `cluster_selection_epsilon` (`C106_epsilon`), a positive persistence (`C106_persistence`), `max_cluster_size` (`C106_max_cluster_size`);
for `allow_single_cluster` with excess of mass see `C106_fit_found_partial`. -/
theorem C106_fit_partial (lam : W → WithTop K') (hlam : Antitone lam) (hpos : ∀ d, 0 ≤ lam d) (hzero : ∀ d, d ≠ ⊤ → lam d ≠ 0)
    (a : StabOps V (WithTop K') K') (ops : ScoreOps V)
    (finite : α → Bool) (reach : α → α → W) (hsym : ∀ x y, reach x y = reach y x) (X : List α) (side : List β) (hside : side.length = X.length)
    (h2 : 2 ≤ (X.filter finite).length) (wt : β → K') (o : ClusterOpts K') (h1 : 1 < o.minClusterSize)
    (hw0 : ∀ b ∈ side, 0 ≤ wt b ∧ wt b < o.minClusterSize) (mst : List α → List β → List (Edge W)) (t : List (Edge W))
    (hmst : mst (X.filter finite) (((X.zip side).filter fun p => finite p.1).map Prod.snd) = t)
    (hspan : SpanningTree (X.filter finite).length t)
    (hmin : MinSpanningForest (completeGraph (X.filter finite).length (rowDist reach (X.filter finite))) t)
    (hper : o.persistence ≤ 0) (heps : o.epsilon ≤ 0)
    (hopt : o.method = .leaf ∨ o.allowSingle = false ∧ o.maxClusterSize = none ∧ ∀ x, ops.gt ops.zero (ops.pos x) = false)
    (outliers : List ℕ) (hout : outliers.Perm ((List.range X.length).filter fun i => !(X[i]?.map finite).getD false))
    (r : FitResult W K' (WithTop K')) (hr : fitModel finite (fastHdbscanAny a ops lam mst wt o) outliers X side = .ok r)
    (htwo : TwoGroups finite reach (fun i => (side[i]?.map wt).getD 1) o.minClusterSize X) :
    GroupsFound finite reach (fun i => (side[i]?.map wt).getD 1) o.minClusterSize X r.labels ∧
      (o.method = .leaf → GroupsApart finite reach (fun i => (side[i]?.map wt).getD 1) o.minClusterSize X r.labels) ∧
      ((∀ e ∈ t, e.w ≠ ⊤) → ∃ l ∈ r.labels, ∃ l' ∈ r.labels, 0 ≤ l ∧ l < l') := by
  obtain ⟨sideP, hsP⟩ : ∃ s, s = ((X.zip side).filter fun p => finite p.1).map Prod.snd := ⟨_, rfl⟩
  have hside' : ∀ b ∈ sideP, b ∈ side := by
    intro b hb
    rw [hsP] at hb
    obtain ⟨q, hq, rfl⟩ := List.mem_map.1 hb
    exact (List.of_mem_zip (show (q.1, q.2) ∈ _ from (List.mem_filter.1 hq).1)).2
  have hwt : ∀ i : ℕ, 0 ≤ (sideP[i]?.map wt).getD 1 ∧ (sideP[i]?.map wt).getD 1 < o.minClusterSize := by
    intro i
    cases hi : sideP[i]? with
    | none => exact ⟨zero_le_one, h1⟩
    | some b => exact hw0 b (hside' b (List.mem_of_getElem? hi))
  refine fit_groups_with hsym hside h2 hout (fun r1 h3 => ?_) (fitModel_mapTop (one_pos : (0 : K') < 1) hr) htwo
  beta_reduce at h3
  rw [← hsP] at h3 hmst ⊢
  rw [hmst] at h3
  obtain ⟨r2, h3b, rfl⟩ := Option.map_eq_some_iff.1 h3
  obtain ⟨⟨k, -, -, -, -, -, -, c7⟩, -, ctop⟩ := C104_returned_partial _ h2 _ t hspan o h1 (fun x _ => (hwt x).1) (fun x _ => (hwt x).2) lam hlam hpos hper a ops r2 h3b
  refine ⟨c7.1, fun htw => ?_⟩
  refine C106_groups_partial _ h2 _ _ t [] t hmin (by simp) hspan (by simp) o h1 (fun x _ => (hwt x).1) (fun x _ => (hwt x).2) lam hlam hpos hzero hper heps a ops
    (hopt.imp_right fun h => h.2) r2 h3b (fun htop => ?_) htw
  rcases ctop htop with h | h
  · rcases hopt with h' | h'
    · exact h.1 h'
    · rw [h'.1] at h; exact absurd h.2 (by simp)
  · exact absurd h (not_lt.2 heps)

end

section
variable [Field K] [LinearOrder K] [IsStrictOrderedRing K] [LinearOrder W] [OrderTop W] [Inhabited W] [Inhabited K]

/-- **C106** with **C97** (partial), `algorithm='kruskal'` without `knn_k`: for every data set with at least two finite rows and every symmetric distance, `fit` with
`min_cluster_size` at least 2 and default selection options, either method, returns a sound clustering; and if at some finite distance two groups of at least
`min_cluster_size` rows are apart then the clustering misses no such group, and with the leaf method keeps them apart.
Missing: as in C97 and `C106_fit_partial`. -/
theorem C106_fit_kruskal_partial [Zero W] (lam : W → K) (hlam : Antitone lam) (hpos : ∀ d, 0 ≤ lam d) (hzero : ∀ d, lam d = 0 ↔ d = ⊤)
    (finite : α → Bool) (dist : α → α → W) (hsym : ∀ x y, dist x y = dist y x) (ms mcs : ℕ) (hmcs : 2 ≤ mcs) (X : List α)
    (h2 : 2 ≤ (X.filter finite).length)
    (outliers : List ℕ) (hout : outliers.Perm ((List.range X.length).filter fun i => !(X[i]?.map finite).getD false))
    (o : ClusterOpts K) (ho : o.minClusterSize = mcs) (hsingle : o.allowSingle = false) (hmx : o.maxClusterSize = none) (heps : o.epsilon ≤ 0)
    (hper : o.persistence ≤ 0) :
    ∃ r, fitModel finite (fastHdbscan lam (kruskalRows dist ms) (fun _ => 1) o) outliers X (X.map fun _ => ()) = .ok r ∧
      SoundClustering finite dist ms mcs X r.labels r.strengths ∧
      (TwoGroups finite (rowReach dist (X.filter finite) ms) (fun _ => 1) o.minClusterSize X →
        GroupsFound finite (rowReach dist (X.filter finite) ms) (fun _ => 1) o.minClusterSize X r.labels ∧
        (o.method = .leaf → GroupsApart finite (rowReach dist (X.filter finite) ms) (fun _ => 1) o.minClusterSize X r.labels) ∧
        ((∀ x ∈ X, ∀ y ∈ X, rowReach dist (X.filter finite) ms x y ≠ ⊤) → ∃ l ∈ r.labels, ∃ l' ∈ r.labels, 0 ≤ l ∧ l < l')) := by
  obtain ⟨r, hr, hsound⟩ := C97_fit_kruskal_partial lam hlam hpos hzero finite dist hsym ms mcs hmcs X h2 outliers hout o ho hsingle hmx heps hper
  refine ⟨r, hr, hsound, fun htwo => ?_⟩
  have hone : (fun i : ℕ => ((X.map fun _ => ())[i]?.map fun _ : Unit => (1 : K)).getD 1) = fun _ => 1 := by
    funext i
    cases (X.map fun _ => ())[i]? <;> rfl
  have hmK : (1 : K) < o.minClusterSize := by rw [ho]; exact_mod_cast hmcs
  obtain ⟨h3, h4⟩ := kruskalRows_tree dist hsym ms (X.filter finite) h2 (((X.zip (X.map fun _ => ())).filter fun p => finite p.1).map Prod.snd)
  have key := fit_groups_with (wt := fun _ : Unit => (1 : K)) (mcs := o.minClusterSize) (p := o.method = .leaf)
    (q := ∀ x ∈ X, ∀ y ∈ X, rowReach dist (X.filter finite) ms x y ≠ ⊤) (rowReach_comm hsym (X.filter finite) ms)
    (X := X) (side := X.map fun _ => ()) (by simp) h2 hout (fun r1 h5 => ?_) hr (by rw [hone]; exact htwo)
  · rw [hone] at key; exact key
  · beta_reduce at h5
    obtain ⟨k, -, -, -, -, -, -, c7, -⟩ := C63_returned _ h2 _ _ h3 o hmK (fun x _ => by
      cases hx : (((X.zip (X.map fun _ => ())).filter fun p => finite p.1).map Prod.snd)[x]? <;> exact zero_le_one) (fun x _ => by
      cases hx : (((X.zip (X.map fun _ => ())).filter fun p => finite p.1).map Prod.snd)[x]? <;> exact hmK) lam hlam hpos h5
    refine ⟨c7.1, fun htw => ?_⟩
    have hun : (fun i : ℕ => ((((X.zip (X.map fun _ => ())).filter fun p => finite p.1).map Prod.snd)[i]?.map fun _ : Unit => (1 : K)).getD 1) = fun _ => 1 := by
      funext i
      cases (((X.zip (X.map fun _ => ())).filter fun p => finite p.1).map Prod.snd)[i]? <;> rfl
    rw [hun] at h5 htw ⊢
    have htop := (C96_no_epsilon _ h2 (fun _ => 1) _ h3 o hmK (fun _ _ => zero_le_one) (fun _ _ => hmK) lam hlam hpos (.inl hper)
      (.inr fun rows _ m hm => by rw [hmx] at hm; simp at hm) (.inr hsingle) heps h5).1
    obtain ⟨f1, f2, f3⟩ := C106_exact_partial _ h2 _ _ _ [] _ h4 (by simp) h3 (by simp) o hmK (fun _ _ => zero_le_one) (fun _ _ => hmK) lam hlam hpos
      (fun d hd h => hd ((hzero d).1 h)) hper heps (.inr hmx) r1 h5 htop htw
    refine ⟨f1, f2, fun hq => f3 fun e he => ?_⟩
    obtain ⟨hu, hv, _, hw⟩ := mem_completeGraph.1 (h4.forest.sub.subset he)
    rw [rowDist_eq (List.getElem?_eq_getElem hu) (List.getElem?_eq_getElem hv)] at hw
    rw [hw]
    exact hq _ (List.mem_filter.1 (List.getElem_mem hu)).1 _ (List.mem_filter.1 (List.getElem_mem hv)).1

end
end Verif
