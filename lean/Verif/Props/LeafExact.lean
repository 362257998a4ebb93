import Verif.Spec.LeafExact
import Verif.Props.Coarsen

/-!
# C115: what the leaf clusters are
-/

namespace Verif
variable {W K : Type*}

section
variable [Field K] [LinearOrder K] [IsStrictOrderedRing K] [LinearOrder W] [Inhabited W] [Inhabited K]

/-- The two nodes merged by an edge have the samples of the two parts it joins. -/
theorem edge_kids {n : ℕ} (hn : 2 ≤ n) {wt : ℕ → K} {es : List (Edge W)} (ht : SpanningTree n es) (hs : es.Pairwise fun a b => a.w ≤ b.w) {j : ℕ} {e : Edge W}
    (he : es[j]? = some e) : ∃ a b, a ≠ b ∧ (Hier.ofRows (mstToLinkage wt es)).IsKid (n + j) a ∧ (Hier.ofRows (mstToLinkage wt es)).IsKid (n + j) b ∧
      (∀ c, (Hier.ofRows (mstToLinkage wt es)).IsKid (n + j) c → c = a ∨ c = b) ∧
      (∀ z, z < n → ((Hier.ofRows (mstToLinkage wt es)).Sub a z ↔ Conn (es.take j) e.u z)) ∧
      ∀ z, z < n → ((Hier.ofRows (mstToLinkage wt es)).Sub b z ↔ Conn (es.take j) e.v z) := by
  obtain ⟨hden, hd, -, hnode⟩ := C12_linkage_is_dendrogram n (by omega) wt es ht hs
  have hHn := hden.hier_n
  have hlen := ht.length (by omega)
  have hjl := (List.getElem?_eq_some_iff.1 he).1
  have hg := (List.getElem?_eq_some_iff.1 he).2
  have htake : es.take (j + 1) = es.take j ++ [e] := by rw [← List.take_append_getElem hjl, hg]
  have hmem : e ∈ es.take (j + 1) := by rw [htake]; simp
  have heu := (ht.inRange e (List.mem_of_getElem? he)).1
  have hev := (ht.inRange e (List.mem_of_getElem? he)).2
  have hcomp : ∀ a, (Hier.ofRows (mstToLinkage wt es)).IsKid (n + j) a → ∀ x, x < n → (Hier.ofRows (mstToLinkage wt es)).Sub a x → ∀ y, y < n →
      ((Hier.ofRows (mstToLinkage wt es)).Sub a y ↔ Conn (es.take j) x y) := by
    intro a hk x hx hax y hy
    have := link_component wt (by rw [hlen]; exact ht.inRange) ht.acyclic (j := j) (a := a) (x := x) (y := y) (by rw [hlen]; exact hk)
      (by rw [hlen]; exact (below_iff_sub hHn).2 ⟨hx, hax⟩) (by rw [hlen]; exact hy)
    rw [hlen, below_iff_sub hHn, and_iff_right hy] at this
    exact this.symm
  have hkid : ∀ x, x < n → Conn (es.take (j + 1)) x e.u → ∃ a, (Hier.ofRows (mstToLinkage wt es)).IsKid (n + j) a ∧ (Hier.ofRows (mstToLinkage wt es)).Sub a x := by
    intro x hx hc
    have := ((below_iff_sub hHn).1 ((hnode j e he x hx).2 hc)).2
    rcases this.cases_head with h | h
    · omega
    · exact h
  obtain ⟨a, ha, hau⟩ := hkid e.u heu (Conn.refl _ _)
  obtain ⟨b, hb, hbv⟩ := hkid e.v hev (Conn.edge hmem).symm
  have hne : ¬ Conn (es.take j) e.u e.v := by
    have := ht.acyclic.of_subperm (List.take_sublist (j + 1) es).subperm
    rw [htake] at this
    exact (Acyclic.snoc_iff.1 this).2
  have hab : a ≠ b := by
    rintro rfl
    exact hne ((hcomp a ha _ heu hau _ hev).1 hbv)
  refine ⟨a, b, hab, ha, hb, fun c hc => ?_, fun z hz => hcomp a ha _ heu hau z hz, fun z hz => hcomp b hb _ hev hbv z hz⟩
  have h1 := ha.2.2
  have h2 := hb.2.2
  have h3 := hc.2.2
  omega

omit [IsStrictOrderedRing K] in
theorem count_heavy {n : ℕ} {wt : ℕ → K} {es : List (Edge W)} (hden : Dendrogram n wt (mstToLinkage wt es)) {θ : K} {a m x : ℕ}
    (ha : a ≤ (Hier.ofRows (mstToLinkage wt es)).root) (h : ∀ z, z < n → ((Hier.ofRows (mstToLinkage wt es)).Sub a z ↔ Conn (es.take m) x z)) :
    θ ≤ (Hier.ofRows (mstToLinkage wt es)).count wt a ↔ HeavyPart n wt θ (es.take m) x := by
  classical
  unfold HeavyPart
  rw [hden.count_eq ha]
  refine iff_of_eq (congrArg (θ ≤ ·) ?_)
  refine Finset.sum_congr (Finset.ext fun z => ?_) fun _ _ => rfl
  simp only [Finset.mem_filter, Finset.mem_range]
  exact and_congr_right fun hz => h z hz

/-- Large merges of the linkage table are edges joining two heavy parts. -/
theorem split_iff_join {n : ℕ} (hn : 2 ≤ n) {wt : ℕ → K} {es : List (Edge W)} (ht : SpanningTree n es) (hs : es.Pairwise fun a b => a.w ≤ b.w) {θ : K} {j : ℕ} :
    j ∈ (Hier.ofRows (mstToLinkage wt es)).splitRows wt θ ↔ HeavyJoin n wt θ es j := by
  obtain ⟨hden, hd, -, -⟩ := C12_linkage_is_dendrogram n (by omega) wt es ht hs
  have hrl : (mstToLinkage wt es).length = es.length := by
    have := congrArg List.length hd; simpa using this
  have hm : (Hier.ofRows (mstToLinkage wt es)).m = es.length := hrl
  have hHn := hden.hier_n
  have hre := (Hier.ofRows (mstToLinkage wt es)).root_eq
  rw [mem_splitRows]
  by_cases hj : j < es.length
  swap
  · refine ⟨fun h => absurd h.1 (by omega), ?_⟩
    rintro ⟨e, he, -⟩
    exact absurd (List.getElem?_eq_some_iff.1 he).1 hj
  obtain ⟨a, b, hab, ha, hb, hall, h1, h2⟩ := edge_kids hn (wt := wt) ht hs (List.getElem?_eq_getElem hj)
  have ka := ha.lt hden.valid
  have kb := hb.lt hden.valid
  have g1 := count_heavy hden (θ := θ) (by omega) h1
  have g2 := count_heavy hden (θ := θ) (by omega) h2
  have e : n + j - (Hier.ofRows (mstToLinkage wt es)).n = j := by omega
  have p1 := ha.2.2
  have p2 := hb.2.2
  rw [e] at p1 p2
  constructor
  · rintro ⟨-, q1, q2⟩
    refine ⟨_, List.getElem?_eq_getElem hj, g1.1 ?_, g2.1 ?_⟩
    · rcases p1 with rfl | rfl
      · exact q1
      · exact q2
    · rcases p2 with rfl | rfl
      · exact q1
      · exact q2
  · rintro ⟨e', he', q1, q2⟩
    obtain rfl := Option.some.inj ((List.getElem?_eq_getElem hj).symm.trans he')
    have q1 := g1.2 q1
    have q2 := g2.2 q2
    rcases p1 with rfl | rfl <;> rcases p2 with rfl | rfl
    · exact absurd rfl hab
    · exact ⟨by omega, q1, q2⟩
    · exact ⟨by omega, q2, q1⟩
    · exact absurd rfl hab

/-- The leaf nodes below a large merge are the leaf parts. -/
theorem leafNode_iff {n : ℕ} (hn : 2 ≤ n) {wt : ℕ → K} {es : List (Edge W)} (ht : SpanningTree n es) (hs : es.Pairwise fun a b => a.w ≤ b.w) {θ : K} (S : Set ℕ) :
    LeafPart n wt θ es S ↔ (Hier.ofRows (mstToLinkage wt es)).splitRows wt θ ≠ ∅ ∧ ∃ v, (Hier.ofRows (mstToLinkage wt es)).LeafNode wt θ v ∧
      ∀ z, z ∈ S ↔ z < n ∧ (Hier.ofRows (mstToLinkage wt es)).Sub v z := by
  obtain ⟨hden, hd, -, hnode⟩ := C12_linkage_is_dendrogram n (by omega) wt es ht hs
  have hrl : (mstToLinkage wt es).length = es.length := by
    have := congrArg List.length hd; simpa using this
  have hm : (Hier.ofRows (mstToLinkage wt es)).m = es.length := hrl
  have hHn := hden.hier_n
  have hre := (Hier.ofRows (mstToLinkage wt es)).root_eq
  have hval := hden.valid
  have hrange : ∀ {g : List (Edge W)}, (∀ e ∈ g, e ∈ es) → ∀ {x z}, x < n → Conn g x z → z < n := by
    intro g hg x z hx hc
    rcases hc.inRange (fun e he => ht.inRange e (hg e he)) with h | h
    · exact h ▸ hx
    · exact h.2
  -- samples at the ends of an edge below a node
  have hbelow : ∀ {i : ℕ} {e' : Edge W}, es[i]? = some e' → (Hier.ofRows (mstToLinkage wt es)).Sub (n + i) e'.u := by
    intro i e' he'
    exact ((below_iff_sub hHn).1 ((hnode i e' he' e'.u (ht.inRange e' (List.mem_of_getElem? he')).1).2 (Conn.refl _ _))).2
  constructor
  · rintro ⟨j, e, he, hj, hS, hno⟩
    have hjs := (split_iff_join hn (wt := wt) (θ := θ) ht hs).2 hj
    obtain ⟨a, b, hab, ha, hb, hall, h1, h2⟩ := edge_kids hn (wt := wt) ht hs he
    have hend := ht.inRange e (List.mem_of_getElem? he)
    obtain ⟨v, hv, hvS⟩ : ∃ v, (Hier.ofRows (mstToLinkage wt es)).IsKid (n + j) v ∧ ∀ z, z ∈ S ↔ z < n ∧ (Hier.ofRows (mstToLinkage wt es)).Sub v z := by
      rcases hS with rfl | rfl
      · refine ⟨a, ha, fun z => ⟨fun hz => ?_, fun hz => (h1 z hz.1).1 hz.2⟩⟩
        have := hrange (fun _ => List.mem_of_mem_take) hend.1 hz
        exact ⟨this, (h1 z this).2 hz⟩
      · refine ⟨b, hb, fun z => ⟨fun hz => ?_, fun hz => (h2 z hz.1).1 hz.2⟩⟩
        have := hrange (fun _ => List.mem_of_mem_take) hend.2 hz
        exact ⟨this, (h2 z this).2 hz⟩
    refine ⟨fun h => by rw [h] at hjs; simp at hjs, v, ⟨.inr ⟨j, hjs, by rw [hHn]; exact hv⟩, fun i hi hsub => ?_⟩, hvS⟩
    have hij : i < j := by
      have h3 := hsub.le hval
      have h4 := hv.lt hval
      omega
    obtain ⟨e', he', -, -⟩ := (split_iff_join hn (wt := wt) (θ := θ) ht hs).1 hi
    refine hno i e' hij he' ((hvS _).2 ⟨(ht.inRange e' (List.mem_of_getElem? he')).1, hsub.trans ?_⟩) ((split_iff_join hn ht hs).1 hi)
    rw [hHn]
    exact hbelow he'
  · rintro ⟨hne, v, ⟨hv, hvno⟩, hvS⟩
    obtain ⟨j, hj, hk⟩ : ∃ j ∈ (Hier.ofRows (mstToLinkage wt es)).splitRows wt θ, (Hier.ofRows (mstToLinkage wt es)).IsKid (n + j) v := by
      rcases hv with rfl | ⟨i, hi, hk⟩
      · obtain ⟨i, hi⟩ := Finset.nonempty_iff_ne_empty.2 hne
        have := (mem_splitRows.1 hi).1
        exact absurd (Hier.sub_root hval (by omega)) (hvno i hi)
      · exact ⟨i, hi, by rw [← hHn]; exact hk⟩
    have hjoin := (split_iff_join hn (wt := wt) (θ := θ) ht hs).1 hj
    obtain ⟨e, he, -, -⟩ := id hjoin
    obtain ⟨a, b, hab, ha, hb, hall, h1, h2⟩ := edge_kids hn (wt := wt) ht hs he
    have hend := ht.inRange e (List.mem_of_getElem? he)
    refine ⟨j, e, he, hjoin, ?_, fun i e' hij he' hmem hi => ?_⟩
    · rcases hall v hk with rfl | rfl
      · left
        ext z
        rw [hvS z]
        exact ⟨fun hz => (h1 z hz.1).1 hz.2, fun hz => ⟨hrange (fun _ => List.mem_of_mem_take) hend.1 hz,
          (h1 z (hrange (fun _ => List.mem_of_mem_take) hend.1 hz)).2 hz⟩⟩
      · right
        ext z
        rw [hvS z]
        exact ⟨fun hz => (h2 z hz.1).1 hz.2, fun hz => ⟨hrange (fun _ => List.mem_of_mem_take) hend.2 hz,
          (h2 z (hrange (fun _ => List.mem_of_mem_take) hend.2 hz)).2 hz⟩⟩
    · have his := (split_iff_join hn (wt := wt) (θ := θ) ht hs).2 hi
      refine hvno i his ?_
      rw [hHn]
      rcases ((hvS _).1 hmem).2.comparable hval (hbelow he') with h | h
      · exact h
      · rcases h.cases_tail with h3 | ⟨w, h3, h4⟩
        · rw [h3]; exact Hier.Sub.refl _
        · have := h4.unique hval hk
          have := h3.le hval
          omega

omit [IsStrictOrderedRing K] [LinearOrder W] [Inhabited W] [Inhabited K] in
theorem heavy_congr {n : ℕ} {wt : ℕ → K} {θ : K} {g g' : List (Edge W)} {x : ℕ} (h : ∀ y, Conn g x y ↔ Conn g' x y) : HeavyPart n wt θ g x ↔ HeavyPart n wt θ g' x := by
  classical
  unfold HeavyPart
  refine iff_of_eq (congrArg (θ ≤ ·) (Finset.sum_congr (Finset.ext fun z => ?_) fun _ _ => rfl))
  simp only [Finset.mem_filter, h z]

omit [LinearOrder W] [Inhabited W] [Inhabited K] in
theorem heavy_mono {n : ℕ} {wt : ℕ → K} (h0 : ∀ x, x < n → 0 ≤ wt x) {θ : K} {g g' : List (Edge W)} {x y : ℕ} (h : ∀ e ∈ g, e ∈ g') (hxy : Conn g' x y)
    (hx : HeavyPart n wt θ g x) : HeavyPart n wt θ g' y := by
  classical
  unfold HeavyPart at hx ⊢
  refine hx.trans (Finset.sum_le_sum_of_subset_of_nonneg (fun z hz => ?_) fun z hz _ => h0 z (Finset.mem_range.1 (Finset.mem_filter.1 hz).1))
  rw [Finset.mem_filter] at hz ⊢
  exact ⟨hz.1, hxy.symm.trans (hz.2.mono h)⟩

variable [OrderTop W]

/-- **C115** (partial).  The leaf method, without epsilon and persistence, on any spanning tree: the clusters are exactly the leaf parts, restricted to samples whose part of the
edges of positive lambda is heavy.  So without infinite edges they are the leaf parts (`C115_leaf_sets_partial`).
Missing: epsilon and persistence. -/
theorem C115_leaf_exact_partial (n : ℕ) (hn : 2 ≤ n) (wt : ℕ → K) (t : List (Edge W)) (ht : SpanningTree n t)
    (o : ClusterOpts K) (h1 : 1 < o.minClusterSize) (h0 : ∀ x, x < n → 0 ≤ wt x)
    (hl : ∀ x, x < n → wt x < o.minClusterSize) (lam : W → K) (hlam : Antitone lam) (hpos : ∀ d, 0 ≤ lam d)
    (hleaf : o.method = .leaf) (hper : o.persistence ≤ 0) (heps : o.epsilon ≤ 0) (r : ClusterResult W K) (hr : clustersFromMst lam wt o t = some r) :
    (∀ l ∈ r.labels, 0 ≤ l → ∃ S, LeafPart n wt o.minClusterSize (lexsortMst t) S ∧
      ∀ z : ℕ, r.labels[z]? = some l ↔ z ∈ S ∧ HeavyPart n wt o.minClusterSize (t.filter fun e => decide (lam e.w ≠ 0)) z) ∧
    ∀ S, LeafPart n wt o.minClusterSize (lexsortMst t) S → ∃ l : ℤ, 0 ≤ l ∧
      ∀ z : ℕ, r.labels[z]? = some l ↔ z ∈ S ∧ HeavyPart n wt o.minClusterSize (t.filter fun e => decide (lam e.w ≠ 0)) z := by
  obtain ⟨m0, hm0⟩ := positive_prefix (lexsortMst_sorted t) hlam hpos
  obtain ⟨v1, v2⟩ := leaf_view hn ht h1 h0 hl hlam hpos hleaf hper heps hr hm0
  have ht' := ht.perm (lexsortMst_perm t)
  have hs := lexsortMst_sorted t
  have hmem : ∀ e, e ∈ (lexsortMst t).take m0 ↔ e ∈ t.filter fun e => decide (lam e.w ≠ 0) := by
    intro e
    rw [List.mem_filter, decide_eq_true_eq, ← (lexsortMst_perm t).mem_iff, List.mem_take_iff_getElem]
    constructor
    · rintro ⟨i, hi, rfl⟩
      exact ⟨List.getElem_mem _, (hm0 i (by omega)).2 (by omega)⟩
    · rintro ⟨he, hne⟩
      obtain ⟨i, hi, rfl⟩ := List.mem_iff_getElem.1 he
      exact ⟨i, by have := (hm0 i hi).1 hne; omega, rfl⟩
  have hheavy : ∀ z, BigComp n wt o.minClusterSize (lexsortMst t) m0 z ↔ HeavyPart n wt o.minClusterSize (t.filter fun e => decide (lam e.w ≠ 0)) z := by
    intro z
    have hconn : ∀ y, Conn ((lexsortMst t).take m0) z y ↔ Conn (t.filter fun e => decide (lam e.w ≠ 0)) z y := fun y =>
      ⟨fun h => h.mono fun e he => (hmem e).1 he, fun h => h.mono fun e he => (hmem e).2 he⟩
    exact heavy_congr hconn
  refine ⟨fun l hm hl0 => ?_, fun S hS => ?_⟩
  · obtain ⟨hne, v, hv, hz⟩ := v1 l hm hl0
    refine ⟨{z | z < n ∧ (Hier.ofRows (mstToLinkage wt (lexsortMst t))).Sub v z}, (leafNode_iff hn ht' hs _).2 ⟨hne, v, hv, fun z => Iff.rfl⟩, fun z => ?_⟩
    rw [hz z, hheavy z]
    exact and_assoc.symm
  · obtain ⟨hne, v, hv, hz⟩ := (leafNode_iff hn ht' hs S).1 hS
    obtain ⟨l, hl0, hl⟩ := v2 hne v hv
    refine ⟨l, hl0, fun z => ?_⟩
    rw [hl z, hheavy z, hz z]
    exact and_assoc.symm

/-- **C115** (partial), without infinite edges: the sets of samples of the leaf clusters are exactly the leaf parts.
Missing: epsilon and persistence. -/
theorem C115_leaf_sets_partial (n : ℕ) (hn : 2 ≤ n) (wt : ℕ → K) (t : List (Edge W)) (ht : SpanningTree n t)
    (o : ClusterOpts K) (h1 : 1 < o.minClusterSize) (h0 : ∀ x, x < n → 0 ≤ wt x)
    (hl : ∀ x, x < n → wt x < o.minClusterSize) (lam : W → K) (hlam : Antitone lam) (hpos : ∀ d, 0 ≤ lam d) (hfin : ∀ e ∈ t, lam e.w ≠ 0)
    (hleaf : o.method = .leaf) (hper : o.persistence ≤ 0) (heps : o.epsilon ≤ 0) (r : ClusterResult W K) (hr : clustersFromMst lam wt o t = some r) (S : Set ℕ) :
    (∃ l ∈ r.labels, 0 ≤ l ∧ S = {z | r.labels[z]? = some l}) ↔ LeafPart n wt o.minClusterSize (lexsortMst t) S := by
  obtain ⟨c1, c2⟩ := C115_leaf_exact_partial n hn wt t ht o h1 h0 hl lam hlam hpos hleaf hper heps r hr
  have hfil : (t.filter fun e => decide (lam e.w ≠ 0)) = t := List.filter_eq_self.2 fun e he => decide_eq_true (hfin e he)
  rw [hfil] at c1 c2
  have hheavy : ∀ S, LeafPart n wt o.minClusterSize (lexsortMst t) S → (∃ z, z ∈ S) ∧ ∀ z ∈ S, HeavyPart n wt o.minClusterSize t z := by
    rintro S ⟨j, e, he, ⟨e', he', a1, a2⟩, hS, -⟩
    obtain rfl := Option.some.inj (he.symm.trans he')
    have hsub : ∀ e ∈ (lexsortMst t).take j, e ∈ t := fun e he => (lexsortMst_perm t).mem_iff.1 (List.mem_of_mem_take he)
    rcases hS with rfl | rfl
    · exact ⟨⟨e.u, Conn.refl _ _⟩, fun z hz => heavy_mono h0 hsub (Conn.mono hsub hz) a1⟩
    · exact ⟨⟨e.v, Conn.refl _ _⟩, fun z hz => heavy_mono h0 hsub (Conn.mono hsub hz) a2⟩
  constructor
  · rintro ⟨l, hm, hl0, rfl⟩
    obtain ⟨S, hS, hz⟩ := c1 l hm hl0
    have : {z : ℕ | r.labels[z]? = some l} = S := by
      ext z
      exact (hz z).trans (and_iff_left_of_imp ((hheavy S hS).2 z))
    rwa [this]
  · intro hS
    obtain ⟨l, hl0, hz⟩ := c2 S hS
    obtain ⟨⟨x, hx⟩, hall⟩ := hheavy S hS
    refine ⟨l, List.mem_of_getElem? ((hz x).2 ⟨hx, hall x hx⟩), hl0, ?_⟩
    ext z
    exact ((hz z).trans (and_iff_left_of_imp (hall z))).symm

/-! ## In terms of distances -/

omit [Field K] [LinearOrder K] [IsStrictOrderedRing K] [Inhabited K] [Inhabited W] [OrderTop W] in
/-- Before an edge whose weight no other edge has come exactly the shorter ones. -/
theorem sorted_below {es : List (Edge W)} (hs : es.Pairwise fun a b => a.w ≤ b.w) {j : ℕ} {e : Edge W} (he : es[j]? = some e)
    (hu : ∀ i e', es[i]? = some e' → e'.w = e.w → i = j) (e' : Edge W) : e' ∈ es.take j ↔ e' ∈ below e.w es := by
  obtain ⟨hj, rfl⟩ := List.getElem?_eq_some_iff.1 he
  rw [mem_below, List.mem_take_iff_getElem]
  constructor
  · rintro ⟨i, hi, rfl⟩
    refine ⟨List.getElem_mem _, lt_of_le_of_ne (List.pairwise_iff_getElem.1 hs i j (by omega) hj (by omega)) fun heq => ?_⟩
    have := hu i _ (List.getElem?_eq_getElem (by omega)) heq
    omega
  · rintro ⟨hm, hlt⟩
    obtain ⟨i, hi, rfl⟩ := List.mem_iff_getElem.1 hm
    refine ⟨i, ?_, rfl⟩
    by_contra hge
    rcases Nat.lt_or_ge j i with h | h
    · exact absurd (List.pairwise_iff_getElem.1 hs j i hj hi h) (not_le.2 hlt)
    · obtain rfl : i = j := by omega
      exact lt_irrefl _ hlt

omit [OrderTop W] [Inhabited W] [Inhabited K] in
/-- If no edge that joins two heavy parts has the weight of another edge, the leaf parts are the leaf groups of the graph. -/
theorem leafPart_iff_group {n : ℕ} {wt : ℕ → K} (h0 : ∀ x, x < n → 0 ≤ wt x) {θ : K} {g t es : List (Edge W)} (hf : MinSpanningForest g t) (ht : SpanningTree n es)
    (hp : es.Perm t) (hs : es.Pairwise fun a b => a.w ≤ b.w)
    (hu : UntiedJoins n wt θ es) (S : Set ℕ) : LeafPart n wt θ es S ↔ LeafGroup n wt θ g S := by
  have hbel : ∀ τ x y, Conn (below τ g) x y ↔ Conn (below τ es) x y := by
    intro τ x y
    rw [← hf.conn_below]
    exact ⟨fun h => h.mono fun e he => by rw [mem_below] at he ⊢; exact ⟨hp.mem_iff.2 he.1, he.2⟩,
      fun h => h.mono fun e he => by rw [mem_below] at he ⊢; exact ⟨hp.mem_iff.1 he.1, he.2⟩⟩
  have hup : ∀ τ x y, Conn (upTo τ g) x y ↔ Conn (upTo τ es) x y := by
    intro τ x y
    rw [← hf.conn_upTo]
    exact ⟨fun h => h.mono fun e he => by rw [mem_upTo] at he ⊢; exact ⟨hp.mem_iff.2 he.1, he.2⟩,
      fun h => h.mono fun e he => by rw [mem_upTo] at he ⊢; exact ⟨hp.mem_iff.1 he.1, he.2⟩⟩
  have htk : ∀ {j : ℕ} {e : Edge W}, es[j]? = some e → HeavyJoin n wt θ es j → ∀ x y, Conn (es.take j) x y ↔ Conn (below e.w g) x y := by
    intro j e he hj x y
    rw [hbel]
    exact Conn.congr (sorted_below hs he (hu j e he hj))
  have hcut : ∀ {j : ℕ} {e : Edge W}, es[j]? = some e → ¬ Conn (es.take j) e.u e.v := by
    intro j e he
    obtain ⟨hj, hg⟩ := List.getElem?_eq_some_iff.1 he
    have := ht.acyclic.of_subperm (List.take_sublist (j + 1) es).subperm
    rw [← List.take_append_getElem hj, hg] at this
    exact (Acyclic.snoc_iff.1 this).2
  have hstep : ∀ {j : ℕ} {e : Edge W}, es[j]? = some e → ∀ x y, Conn (es.take (j + 1)) x y → ¬ Conn (es.take j) x y →
      Conn (es.take j) x e.u ∧ Conn (es.take j) e.v y ∨ Conn (es.take j) x e.v ∧ Conn (es.take j) e.u y := by
    intro j e he x y h1 h2
    obtain ⟨hj, hg⟩ := List.getElem?_eq_some_iff.1 he
    rw [← List.take_append_getElem hj, hg, Conn.snoc_iff] at h1
    exact h1.resolve_left h2
  have htake : ∀ {i j : ℕ}, i ≤ j → ∀ e ∈ es.take i, e ∈ es.take j := fun h e he => (List.take_sublist_take_left h).subset he
  -- the edge that joins two samples
  have hfirst : ∀ {a b m j : ℕ}, Conn (es.take j) a b → ¬ Conn (es.take m) a b → ∃ i e, m ≤ i ∧ i < j ∧ es[i]? = some e ∧
      (Conn (es.take i) a e.u ∧ Conn (es.take i) e.v b ∨ Conn (es.take i) a e.v ∧ Conn (es.take i) e.u b) := by
    intro a b m j hj hm
    classical
    have hex : ∃ k, Conn (es.take k) a b := ⟨j, hj⟩
    have hk := Nat.find_spec hex
    have hmin := fun k => Nat.find_min hex (m := k)
    have hle := Nat.find_min' hex hj
    generalize Nat.find hex = k at hk hmin hle
    have hmk : m < k := by
      by_contra h
      exact hm (hk.mono (htake (by omega)))
    obtain ⟨i, rfl⟩ : ∃ i, k = i + 1 := ⟨k - 1, by omega⟩
    have hno := hmin i (by omega)
    have hil : i < es.length := by
      by_contra h
      rw [List.take_of_length_le (by omega)] at hk hno
      exact hno hk
    exact ⟨i, es[i], by omega, by omega, List.getElem?_eq_getElem hil, hstep (List.getElem?_eq_getElem hil) a b hk hno⟩
  have hprefix : ∀ τ, ∃ m, ∀ i (hi : i < es.length), es[i].w < τ ↔ i < m := by
    intro τ
    by_cases h : ∃ i, ∃ hi : i < es.length, ¬ es[i].w < τ
    · classical
      obtain ⟨hk, hk'⟩ := Nat.find_spec h
      have hmin := fun k => Nat.find_min h (m := k)
      refine ⟨Nat.find h, fun i hi => ⟨fun hlt => ?_, fun hlt => ?_⟩⟩
      · by_contra hge
        refine hk' (lt_of_le_of_lt ?_ hlt)
        rcases (not_lt.1 hge).lt_or_eq with h' | h'
        · exact List.pairwise_iff_getElem.1 hs _ i hk hi h'
        · exact le_of_eq (by congr 1; simp only [h'])
      · by_contra hno
        exact hmin i hlt ⟨hi, hno⟩
    · push Not at h
      exact ⟨es.length, fun i hi => ⟨fun _ => hi, fun _ => h i hi⟩⟩
  have hmem : ∀ {τ : W} {m : ℕ}, (∀ i (hi : i < es.length), es[i].w < τ ↔ i < m) → ∀ e, e ∈ below τ es ↔ e ∈ es.take m := by
    intro τ m hm e
    rw [mem_below, List.mem_take_iff_getElem]
    constructor
    · rintro ⟨h1, h2⟩
      obtain ⟨i, hi, rfl⟩ := List.mem_iff_getElem.1 h1
      exact ⟨i, by have := (hm i hi).1 h2; omega, rfl⟩
    · rintro ⟨i, hi, rfl⟩
      exact ⟨List.getElem_mem _, (hm i (by omega)).2 (by omega)⟩
  constructor
  · rintro ⟨j, e, he, hjoin, hS, hno⟩
    have htk := htk he hjoin
    obtain ⟨e', he', a1, a2⟩ := hjoin
    obtain rfl := Option.some.inj (he.symm.trans he')
    have hinner : ∀ τ' ≤ e.w, ∀ a ∈ S, ∀ b ∈ S, HeavyPart n wt θ (below τ' g) a → HeavyPart n wt θ (below τ' g) b → Conn (below τ' g) a b := by
      intro τ' hτ a ha b hb hha hhb
      by_contra hnc
      obtain ⟨m, hm⟩ := hprefix τ'
      have htm : ∀ x y, Conn (below τ' g) x y ↔ Conn (es.take m) x y := fun x y => (hbel τ' x y).trans (Conn.congr (hmem hm))
      have hcl : ∀ {a b}, a ∈ S → Conn (es.take j) a b → b ∈ S := by
        intro a b ha hab
        rcases hS with rfl | rfl
        · exact Conn.trans ha hab
        · exact Conn.trans ha hab
      have hab : Conn (es.take j) a b := by
        rcases hS with rfl | rfl
        · exact (Conn.symm ha).trans hb
        · exact (Conn.symm ha).trans hb
      rw [htm] at hnc
      obtain ⟨i, e', hmi, hij, hei, hends⟩ := hfirst hab hnc
      have hha := (heavy_congr (htm a)).1 hha
      have hhb := (heavy_congr (htm b)).1 hhb
      rcases hends with ⟨p, q⟩ | ⟨p, q⟩
      · exact hno i e' hij hei (hcl ha (p.mono (htake hij.le))) ⟨e', hei, heavy_mono h0 (htake hmi) p hha, heavy_mono h0 (htake hmi) q.symm hhb⟩
      · exact hno i e' hij hei (hcl hb (q.symm.mono (htake hij.le))) ⟨e', hei, heavy_mono h0 (htake hmi) q.symm hhb, heavy_mono h0 (htake hmi) p hha⟩
    have hconn : Conn (upTo e.w g) e.u e.v := by
      rw [hup]
      exact Conn.edge (by rw [mem_upTo]; exact ⟨List.mem_of_getElem? he, le_rfl⟩)
    have hnot : ¬ Conn (below e.w g) e.u e.v := fun h => hcut he ((htk _ _).2 h)
    have g1 := (heavy_congr (htk e.u)).1 a1
    have g2 := (heavy_congr (htk e.v)).1 a2
    have hend := ht.inRange e (List.mem_of_getElem? he)
    rcases hS with rfl | rfl
    · exact ⟨e.w, e.u, e.v, hend.1, hconn, hnot, g1, g2, Set.ext fun z => htk _ _, hinner⟩
    · exact ⟨e.w, e.v, e.u, hend.2, hconn.symm, fun h => hnot h.symm, g2, g1, Set.ext fun z => htk _ _, hinner⟩
  · rintro ⟨τ, x, y, hx, hc, hnc, b1, b2, rfl, hinner⟩
    obtain ⟨m, hm⟩ := hprefix τ
    obtain ⟨m', hm'⟩ := sorted_take_upTo hs τ
    rw [hup, ← hm'] at hc
    obtain ⟨i, e, hmi, him, hei, hends⟩ := hfirst hc fun h => hnc ((hbel _ _ _).2 ((Conn.congr (hmem hm)).2 h))
    obtain ⟨hil, hg⟩ := List.getElem?_eq_some_iff.1 hei
    obtain rfl : e.w = τ := by
      refine le_antisymm ?_ (not_lt.1 fun h => ?_)
      · have : e ∈ es.take m' := by rw [List.mem_take_iff_getElem]; exact ⟨i, by omega, hg⟩
        rw [hm', mem_upTo] at this
        exact this.2
      · have := (hm i hil).1 (by rw [hg]; exact h)
        omega
    have hsub : ∀ e' ∈ below e.w es, e' ∈ es.take i := fun e' he' => htake hmi e' ((hmem hm e').1 he')
    have b1' := (heavy_congr (hbel _ x)).1 b1
    have b2' := (heavy_congr (hbel _ y)).1 b2
    have hjoin : HeavyJoin n wt θ es i := by
      rcases hends with ⟨p, q⟩ | ⟨p, q⟩
      · exact ⟨e, hei, heavy_mono h0 hsub p b1', heavy_mono h0 hsub q.symm b2'⟩
      · exact ⟨e, hei, heavy_mono h0 hsub q.symm b2', heavy_mono h0 hsub p b1'⟩
    have hsame := htk hei hjoin
    have hset : ({z | Conn (below e.w g) x z} : Set ℕ) = {z | Conn (es.take i) x z} := Set.ext fun z => (hsame x z).symm
    rw [hset] at hinner ⊢
    refine ⟨i, e, hei, hjoin, ?_, fun i' e' hi' he' hmem' hjoin' => ?_⟩
    · rcases hends with ⟨p, q⟩ | ⟨p, q⟩
      · exact .inl (Set.ext fun z => ⟨fun h => p.symm.trans h, fun h => p.trans h⟩)
      · exact .inr (Set.ext fun z => ⟨fun h => p.symm.trans h, fun h => p.trans h⟩)
    · have htk' := htk he' hjoin'
      obtain ⟨e'', he'', c1, c2⟩ := hjoin'
      obtain rfl := Option.some.inj (he'.symm.trans he'')
      obtain ⟨hl', hg'⟩ := List.getElem?_eq_some_iff.1 he'
      have hle : e'.w ≤ e.w := by
        rw [← hg', ← hg]
        exact List.pairwise_iff_getElem.1 hs i' i hl' hil hi'
      have hv : Conn (es.take i) x e'.v := Conn.trans hmem' (Conn.edge (by rw [List.mem_take_iff_getElem]; exact ⟨i', by omega, hg'⟩))
      exact hcut he' ((htk' _ _).2 (hinner e'.w hle e'.u hmem' e'.v hv ((heavy_congr (htk' _)).1 c1) ((heavy_congr (htk' _)).1 c2)))

/-- **C115** (partial), in terms of distances: if no edge of the minimum spanning tree that joins two heavy parts has the weight of another edge, the leaf clusters are
exactly the leaf groups of the graph, whatever the tree.  Missing: epsilon, persistence, infinite edges and equal edges that join heavy parts. -/
theorem C115_leaf_groups_partial (n : ℕ) (hn : 2 ≤ n) (wt : ℕ → K) (g t : List (Edge W)) (hf : MinSpanningForest g t) (ht : SpanningTree n t)
    (o : ClusterOpts K) (h1 : 1 < o.minClusterSize) (h0 : ∀ x, x < n → 0 ≤ wt x)
    (hl : ∀ x, x < n → wt x < o.minClusterSize) (lam : W → K) (hlam : Antitone lam) (hpos : ∀ d, 0 ≤ lam d) (hfin : ∀ e ∈ t, lam e.w ≠ 0)
    (hd : UntiedJoins n wt o.minClusterSize (lexsortMst t))
    (hleaf : o.method = .leaf) (hper : o.persistence ≤ 0) (heps : o.epsilon ≤ 0) (r : ClusterResult W K) (hr : clustersFromMst lam wt o t = some r) (S : Set ℕ) :
    (∃ l ∈ r.labels, 0 ≤ l ∧ S = {z | r.labels[z]? = some l}) ↔ LeafGroup n wt o.minClusterSize g S := by
  rw [C115_leaf_sets_partial n hn wt t ht o h1 h0 hl lam hlam hpos hfin hleaf hper heps r hr S]
  exact leafPart_iff_group h0 hf (ht.perm (lexsortMst_perm t)) (lexsortMst_perm t) (lexsortMst_sorted t) hd S

omit [OrderTop W] [Inhabited W] [Inhabited K] [IsStrictOrderedRing K] in
/-- In particular if no two edges have equal weight. -/
theorem untied_of_nodup {n : ℕ} {wt : ℕ → K} {θ : K} {t : List (Edge W)} (hd : (t.map Edge.w).Nodup) : UntiedJoins n wt θ (lexsortMst t) := by
  intro j e he _ i e' he' hw
  have hnd := ((lexsortMst_perm t).map Edge.w).nodup_iff.2 hd
  obtain ⟨hj, hg⟩ := List.getElem?_eq_some_iff.1 he
  obtain ⟨hi, hg'⟩ := List.getElem?_eq_some_iff.1 he'
  exact (List.Nodup.getElem_inj_iff hnd (hi := by simpa using hi) (hj := by simpa using hj)).1 (by simpa [hg, hg'] using hw)

end

/-! ## Cases -/

/-- The four pairs of `exFourPairs` are its leaf parts, and there are no others. -/
example : ∃ r, clustersFromMst lamq (fun _ => 1) ⟨2, .leaf, none, false, 0, 0⟩ exFourPairs = some r ∧ r.labels = [3, 3, 2, 2, 1, 1, 0, 0] ∧
    ∀ S, (∃ l ∈ r.labels, 0 ≤ l ∧ S = {z : ℕ | r.labels[z]? = some l}) ↔ LeafPart 8 (fun _ => (1 : ℚ)) 2 (lexsortMst exFourPairs) S := by
  have e1 : (clustersFromMst lamq (fun _ => 1) ⟨2, .leaf, none, false, 0, 0⟩ exFourPairs).map ClusterResult.labels = some [3, 3, 2, 2, 1, 1, 0, 0] := by decide +kernel
  obtain ⟨r, hr, e1⟩ := Option.map_eq_some_iff.1 e1
  exact ⟨r, hr, e1, C115_leaf_sets_partial 8 (by decide) (fun _ => 1) exFourPairs exFourPairs_tree _ (by norm_num) (fun _ _ => by norm_num) (fun _ _ => by norm_num) lamq
    lamq_antitone lamq_nonneg (by decide +kernel) rfl le_rfl le_rfl r hr⟩

/-- Three pairs, all distances different. -/
def exDistinct : List (Edge (WithTop ℚ)) := [⟨0, 1, (1 : ℚ)⟩, ⟨1, 2, (5 : ℚ)⟩, ⟨2, 3, (2 : ℚ)⟩, ⟨3, 4, (9 : ℚ)⟩, ⟨4, 5, (3 : ℚ)⟩]

theorem exDistinct_tree : SpanningTree 6 exDistinct :=
  path_spanning (by unfold InRange; decide +kernel) (by decide) fun i hi => by
    have : i < 5 := by omega
    interval_cases i <;> decide +kernel

example : ∃ r, clustersFromMst lamq (fun _ => 1) ⟨2, .leaf, none, false, 0, 0⟩ exDistinct = some r ∧ r.labels = [2, 2, 1, 1, 0, 0] ∧
    LeafGroup 6 (fun _ => (1 : ℚ)) 2 exDistinct {z : ℕ | r.labels[z]? = some 1} := by
  have e1 : (clustersFromMst lamq (fun _ => 1) ⟨2, .leaf, none, false, 0, 0⟩ exDistinct).map ClusterResult.labels = some [2, 2, 1, 1, 0, 0] := by decide +kernel
  obtain ⟨r, hr, e1⟩ := Option.map_eq_some_iff.1 e1
  exact ⟨r, hr, e1, (C115_leaf_groups_partial 6 (by decide) (fun _ => 1) exDistinct exDistinct (msf_self exDistinct_tree.acyclic) exDistinct_tree _
    (by norm_num) (fun _ _ => by norm_num) (fun _ _ => by norm_num) lamq lamq_antitone lamq_nonneg (by decide +kernel) (untied_of_nodup (by decide +kernel)) rfl le_rfl le_rfl r hr _).1
    ⟨1, by rw [e1]; decide, by decide, rfl⟩⟩

end Verif
