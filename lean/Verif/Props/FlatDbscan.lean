import Verif.Props.ClusterSize
import Verif.Props.Dbscan

/-!
# C94: flat clusters and DBSCAN\*
-/

namespace Verif
variable {W K : Type*}

/-- Exactly one end of the edge has label `i`. -/
def Leaves (labels : List ℤ) (i : ℤ) (e : Edge W) : Prop := ¬ (labels[e.u]? = some i ↔ labels[e.v]? = some i)

section
variable [Field K] [LinearOrder K] [IsStrictOrderedRing K] [LinearOrder W] [OrderTop W] [Inhabited W] [Inhabited K]

omit [OrderTop W] [Inhabited W] in
/-- In a sorted tree, edges inside a component of the first edges come before edges that leave it. -/
theorem take_component {n m : ℕ} {t : List (Edge W)} (ht : SpanningTree n t) {labels : List ℤ} {i : ℤ}
    (hc : ∀ x y, labels[x]? = some i → y < n → (labels[y]? = some i ↔ Conn ((lexsortMst t).take m) x y)) :
    (∀ e ∈ t, labels[e.u]? = some i → labels[e.v]? = some i → e ∈ (lexsortMst t).take m) ∧
    (∀ e ∈ t, Leaves labels i e → e ∉ (lexsortMst t).take m) ∧
    ∀ e ∈ t, e ∉ (lexsortMst t).take m → ∀ e' ∈ (lexsortMst t).take m, e'.w ≤ e.w := by
  have hp := lexsortMst_perm t
  have ht' := ht.perm hp
  have hsort := lexsortMst_sorted t
  refine ⟨fun e he hu hv => ?_, fun e he hlv hin => ?_, fun e he hout e' hin => ?_⟩
  · by_contra hcon
    have hconn := (hc e.u e.v hu (ht.inRange e he).2).1 hv
    rw [← hp.mem_iff, ← List.take_append_drop m (lexsortMst t), List.mem_append] at he
    obtain ⟨l₁, l₂, hd⟩ := List.append_of_mem (he.resolve_left hcon)
    refine ht'.acyclic ((lexsortMst t).take m ++ l₁) e l₂ ?_ ?_
    · rw [List.append_assoc, ← hd, List.take_append_drop]
    · exact hconn.mono fun a ha => by simp [ha]
  · have hr := ht.inRange e he
    refine hlv ⟨fun h => (hc _ _ h hr.2).2 (Conn.edge hin), fun h => (hc _ _ h hr.1).2 (Conn.edge hin).symm⟩
  · rw [← hp.mem_iff, ← List.take_append_drop m (lexsortMst t), List.mem_append] at he
    have hs : ((lexsortMst t).take m ++ (lexsortMst t).drop m).Pairwise (fun a b => a.w ≤ b.w) := by
      rw [List.take_append_drop]; exact hsort
    exact (List.pairwise_append.1 hs).2.2 e' hin e (he.resolve_left hout)

/-- **C94**, first part.  In the result of clustering a spanning tree (any options, top cluster not selected, no edge infinite or no positive
persistence), no tree edge between
two samples of a cluster is longer than a tree edge that leaves the cluster. -/
theorem C94_inside_not_longer (n : ℕ) (hn : 2 ≤ n) (wt : ℕ → K) (t : List (Edge W)) (ht : SpanningTree n t)
    (o : ClusterOpts K) (h1 : 1 < o.minClusterSize) (h0 : ∀ x, x < n → 0 ≤ wt x)
    (hl : ∀ x, x < n → wt x < o.minClusterSize) (lam : W → K) (hlam : Antitone lam) (hpos : ∀ d, 0 ≤ lam d)
    (hfin : (∀ e ∈ t, lam e.w ≠ 0) ∨ o.persistence ≤ 0 ∧ ∀ d, lam d = 0 ↔ d = ⊤)
    {r : ClusterResult W K} (hr : clustersFromMst lam wt o t = some r) (htop : n ∉ r.selected)
    {i : ℤ} (hi0 : i ≠ -1) {e e' : Edge W} (he : e ∈ t) (he' : e' ∈ t) (hu : r.labels[e.u]? = some i) (hv : r.labels[e.v]? = some i)
    (hlv : Leaves r.labels i e') : e.w ≤ e'.w := by
  obtain ⟨_, _, m, _, hc⟩ := label_component hn ht h1 h0 hl hlam hpos hfin hr htop (List.mem_of_getElem? hu) hi0
  obtain ⟨k1, k2, k3⟩ := take_component ht hc
  exact k3 e' he' (k2 e' he' hlv) e (k1 e he hu hv)

/-- **C94** (partial).  A cluster all of whose inner tree edges differ in length from the tree edges that leave it is a DBSCAN\* cluster of the graph `g` that the
tree is a minimum spanning tree of (`f` a minimum spanning forest, completed by infinite edges `b`): for some finite `eps`, its samples are exactly
those joined to any one of them by edges of `g` shorter than `eps`.
Missing: ties (`C94_ties`), infinite edges together with a positive persistence, the top cluster (`C74_top_cluster_apart`). -/
theorem C94_cluster_is_dbscan_star_partial (n : ℕ) (hn : 2 ≤ n) (wt : ℕ → K) (g f b t : List (Edge W)) (hf : MinSpanningForest g f)
    (hb : ∀ e ∈ b, e.w = ⊤) (ht : SpanningTree n t) (hp : t.Perm (f ++ b))
    (o : ClusterOpts K) (h1 : 1 < o.minClusterSize) (h0 : ∀ x, x < n → 0 ≤ wt x)
    (hl : ∀ x, x < n → wt x < o.minClusterSize) (lam : W → K) (hlam : Antitone lam) (hpos : ∀ d, 0 ≤ lam d)
    (hfin : (∀ e ∈ t, lam e.w ≠ 0) ∨ o.persistence ≤ 0 ∧ ∀ d, lam d = 0 ↔ d = ⊤)
    {r : ClusterResult W K} (hr : clustersFromMst lam wt o t = some r) (htop : n ∉ r.selected)
    {i : ℤ} (hi : i ∈ r.labels) (hi0 : i ≠ -1)
    (hties : ∀ e ∈ t, r.labels[e.u]? = some i → r.labels[e.v]? = some i → ∀ e' ∈ t, Leaves r.labels i e' → e.w ≠ e'.w) :
    ∃ e' ∈ t, Leaves r.labels i e' ∧ ∀ x y, r.labels[x]? = some i → y < n →
      (r.labels[y]? = some i ↔ Conn (below e'.w g) x y) := by
  obtain ⟨hlab, hi1, m, hm, hc⟩ := label_component hn ht h1 h0 hl hlam hpos hfin hr htop hi hi0
  obtain ⟨k1, k2, k3⟩ := take_component ht hc
  have hperm := lexsortMst_perm t
  have hlt : ∀ {z}, r.labels[z]? = some i → z < n := fun h => by rw [← hlab]; exact (List.getElem?_eq_some_iff.1 h).1
  have hsub : ∀ e ∈ (lexsortMst t).take m, e ∈ t := fun e he => hperm.mem_iff.1 (List.mem_of_mem_take he)
  obtain ⟨x0, hx0⟩ := List.mem_iff_getElem?.1 hi
  -- some edge leaves the cluster
  have hex : ∃ e' ∈ t, Leaves r.labels i e' := by
    by_contra hno
    push Not at hno
    have hall : ∀ y, y < n → r.labels[y]? = some i := by
      intro y hy
      have hconn := ht.conn x0 y (hlt hx0) hy
      clear hy
      induction hconn with
      | refl => exact hx0
      | tail _ hs ih =>
        obtain ⟨e, he, ⟨rfl, rfl⟩ | ⟨rfl, rfl⟩⟩ := hs
        · exact (not_not.1 (hno e he)).1 ih
        · exact (not_not.1 (hno e he)).2 ih
    have hst : SpanningTree n ((lexsortMst t).take m) :=
      ⟨fun e he => ht.inRange e (hsub e he), (ht.perm hperm).acyclic.of_subperm (List.take_sublist _ _).subperm,
        fun a c ha hc' => (hc a c (hall a ha) hc').1 (hall c hc')⟩
    have e1 := hst.length (by omega)
    have e2 := ht.length (by omega)
    rw [List.length_take] at e1
    omega
  -- the shortest such edge
  obtain ⟨e', ⟨he', hlv⟩, hmin⟩ : ∃ e', (e' ∈ t ∧ Leaves r.labels i e') ∧ ∀ e ∈ t, Leaves r.labels i e → e'.w ≤ e.w := by
    classical
    obtain ⟨e1, h2, h3⟩ := hex
    obtain ⟨e', h4, h5⟩ := Finset.exists_min_image (t.filter fun e => decide (Leaves r.labels i e)).toFinset Edge.w
      ⟨e1, List.mem_toFinset.2 (List.mem_filter.2 ⟨h2, decide_eq_true h3⟩)⟩
    obtain ⟨h6, h7⟩ := List.mem_filter.1 (List.mem_toFinset.1 h4)
    exact ⟨e', ⟨h6, of_decide_eq_true h7⟩, fun e he hle => h5 e (List.mem_toFinset.2 (List.mem_filter.2 ⟨he, decide_eq_true hle⟩))⟩
  refine ⟨e', he', hlv, fun x y hx hy => ?_⟩
  have hg : Conn (below e'.w g) x y ↔ Conn (below e'.w t) x y := by
    rw [← hf.conn_below]
    apply Conn.congr
    intro e
    rw [mem_below, mem_below, hp.mem_iff, List.mem_append]
    constructor
    · rintro ⟨h6, h7⟩; exact ⟨Or.inl h6, h7⟩
    · rintro ⟨h6 | h6, h7⟩
      · exact ⟨h6, h7⟩
      · rw [hb e h6] at h7; exact absurd h7 (not_top_lt)
  rw [hg]
  constructor
  · intro hyi
    have hin := Conn.inside hsub (fun z => r.labels[z]? = some i) ((hc x y hx hy).1 hyi) fun z hz => by
      have hzn : z < n := by
        rcases hz.inRange (fun e he => ht.inRange e (hsub e he)) with h | h
        · exact h ▸ hlt hx
        · exact h.2
      exact (hc x z hx hzn).2 hz
    refine hin.mono fun e he => ?_
    obtain ⟨het, hd⟩ := List.mem_filter.1 he
    have hd := of_decide_eq_true hd
    rw [mem_below]
    refine ⟨het, lt_of_le_of_ne (k3 e' he' (k2 e' he' hlv) e (k1 e het hd.1 hd.2)) (hties e het hd.1 hd.2 e' he' hlv)⟩
  · intro hconn
    clear hy hg
    induction hconn with
    | refl => exact hx
    | tail _ hs ih =>
      obtain ⟨e, he, hends⟩ := hs
      rw [mem_below] at he
      have hnl : ¬ Leaves r.labels i e := fun h => absurd he.2 (not_lt.2 (hmin e he.1 h))
      rcases hends with ⟨rfl, rfl⟩ | ⟨rfl, rfl⟩
      · exact (not_not.1 hnl).1 ih
      · exact (not_not.1 hnl).2 ih

/-- **C94** (partial), for `dbscan_clustering` without sample weights.  Under the hypotheses of `C94_cluster_is_dbscan_star_partial` and no positive
persistence, for some `eps` the labels that `dbscan_clustering` computes from the single linkage tree of the result, with a minimum cluster size not above
the `min_cluster_size` of the clustering, mark exactly the samples of the cluster by one label other than noise.
Missing: as there, and sample weights, with which a cluster may have fewer samples than `min_cluster_size`. -/
theorem C94_dbscan_clustering_partial (n : ℕ) (hn : 2 ≤ n) (g f b t : List (Edge W)) (hf : MinSpanningForest g f)
    (hb : ∀ e ∈ b, e.w = ⊤) (ht : SpanningTree n t) (hp : t.Perm (f ++ b))
    (o : ClusterOpts K) (h1 : 1 < o.minClusterSize) (lam : W → K) (hlam : Antitone lam) (hpos : ∀ d, 0 ≤ lam d) (hper : o.persistence ≤ 0)
    (hfin : (∀ e ∈ t, lam e.w ≠ 0) ∨ ∀ d, lam d = 0 ↔ d = ⊤)
    {r : ClusterResult W K} (hr : clustersFromMst lam (fun _ => 1) o t = some r) (htop : n ∉ r.selected)
    {i : ℤ} (hi : i ∈ r.labels) (hi0 : i ≠ -1)
    (hties : ∀ e ∈ t, r.labels[e.u]? = some i → r.labels[e.v]? = some i → ∀ e' ∈ t, Leaves r.labels i e' → e.w ≠ e'.w)
    (ms : ℕ) (hms : (ms : K) ≤ o.minClusterSize) :
    ∃ (eps : W) (c : ℤ), c ≠ -1 ∧ ∀ x, x < n → (r.labels[x]? = some i ↔ (cutLabels r.linkage eps ms)[x]? = some c) := by
  classical
  have hlink : r.linkage = mstToLinkage (fun _ => 1) (lexsortMst t) := by
    unfold clustersFromMst at hr
    simp only at hr
    obtain ⟨rows, e1, hr⟩ := Option.bind_eq_some_iff.1 hr
    obtain ⟨sel0, _, hr⟩ := Option.bind_eq_some_iff.1 hr
    obtain ⟨sel, _, hr⟩ := Option.bind_eq_some_iff.1 hr
    obtain ⟨labels, _, hr⟩ := Option.bind_eq_some_iff.1 hr
    obtain ⟨str, _, rfl⟩ := Option.map_eq_some_iff.1 hr
    rfl
  have hfin' : (∀ e ∈ t, lam e.w ≠ 0) ∨ o.persistence ≤ 0 ∧ ∀ d, lam d = 0 ↔ d = ⊤ := hfin.imp id fun h => ⟨hper, h⟩
  obtain ⟨hlab, _⟩ := label_component hn ht h1 (fun _ _ => zero_le_one) (fun _ _ => h1) hlam hpos hfin' hr htop hi hi0
  have hw := C75_used_labels_partial n hn (fun _ => 1) t ht o h1 (fun _ _ => zero_le_one) (fun _ _ => h1) lam hlam hpos hper hr i hi0 hi
  obtain ⟨e', _, _, hc⟩ := C94_cluster_is_dbscan_star_partial n hn (fun _ => 1) g f b t hf hb ht hp o h1 (fun _ _ => zero_le_one) (fun _ _ => h1)
    lam hlam hpos hfin' hr htop hi hi0 hties
  obtain ⟨lab, hcut, hs1, hs2⟩ := C14_cut_is_dbscan_star n (by omega) (fun _ => (1 : K)) g f b t hf hb ht hp e'.w ms
  obtain ⟨x0, hx0⟩ := List.mem_iff_getElem?.1 hi
  have hx0n : x0 < n := by rw [← hlab]; exact (List.getElem?_eq_some_iff.1 hx0).1
  have hne : lab x0 ≠ -1 := by
    rw [Ne, hs2 x0 hx0n, not_lt]
    rw [Finset.sum_const, nsmul_eq_mul, mul_one] at hw
    have h5 : ms ≤ ((Finset.range n).filter fun x => r.labels[x]? = some i).card := by exact_mod_cast hms.trans hw
    refine h5.trans (Finset.card_le_card fun z hz => ?_)
    obtain ⟨hzn, hzi⟩ := Finset.mem_filter.1 hz
    exact Finset.mem_filter.2 ⟨hzn, (hc x0 z hx0 (Finset.mem_range.1 hzn)).1 hzi⟩
  refine ⟨e'.w, lab x0, hne, fun x hx => ?_⟩
  rw [hlink, hcut, List.getElem?_map, List.getElem?_range hx, Option.map_some, Option.some.injEq, hc x0 x hx0 hx, ← hs1 x0 x hx0n hx hne, eq_comm]

end

/-! ## Concrete cases and a counterexample -/

/-- A forest is a minimum spanning forest of itself. -/
theorem msf_self [LinearOrder W] {f : List (Edge W)} (h : Acyclic f) : MinSpanningForest f f :=
  minSpanningForest_of_threshold ⟨List.Subperm.refl _, h, fun _ _ => Iff.rfl⟩ fun e he => Conn.edge (List.mem_filter.2 ⟨he, by simp⟩)

/-- The hypotheses hold for the five samples in two groups, whose clusters are those of `dbscan_clustering` with `min_cluster_size` 2. -/
example : ∃ r, clustersFromMst lamq (fun _ => 1) (exOpts .eom 0) exFive = some r ∧ r.labels = [1, 1, 1, 0, 0] ∧
    ∀ i : ℤ, i = 0 ∨ i = 1 → ∃ (eps : WithTop ℚ) (c : ℤ), c ≠ -1 ∧
      ∀ x, x < 5 → (r.labels[x]? = some i ↔ (cutLabels r.linkage eps 2)[x]? = some c) := by
  have hl : (clustersFromMst lamq (fun _ => 1) (exOpts .eom 0) exFive).map (fun r => (r.labels, r.selected)) = some ([1, 1, 1, 0, 0], [6, 7]) := by
    decide +kernel
  obtain ⟨r, hr, hl⟩ := Option.map_eq_some_iff.1 hl
  obtain ⟨hlab, hsel⟩ := Prod.mk.inj hl
  refine ⟨r, hr, hlab, fun i hi => ?_⟩
  refine C94_dbscan_clustering_partial 5 (by decide) exFive exFive [] exFive (msf_self exFive_tree.acyclic) (by simp) exFive_tree (by simp)
    (exOpts .eom 0) (by decide) lamq lamq_antitone lamq_nonneg (by decide) (.inr lamq_zero) hr
    (by rw [hsel]; decide) (i := i) ?_ ?_ ?_ 2 (by decide)
  · rw [hlab]; rcases hi with rfl | rfl <;> decide
  · rcases hi with rfl | rfl <;> decide
  · rw [hlab]
    unfold Leaves
    rcases hi with rfl | rfl <;> decide +kernel

/-- They hold for the four pairs of samples at infinite distance from each other. -/
example : ∃ r, clustersFromMst lamq (fun _ => 1) (exOpts .eom 0) (finishMst (runKruskalCore 8 CLParams.none (sortEdges exPairs)) 8) = some r ∧
    r.labels = [2, 2, 3, 3, 1, 1, 0, 0] ∧ ∀ i : ℤ, 0 ≤ i → i < 4 → ∃ (eps : WithTop ℚ) (c : ℤ), c ≠ -1 ∧
      ∀ x, x < 8 → (r.labels[x]? = some i ↔ (cutLabels r.linkage eps 2)[x]? = some c) := by
  have hl : (clustersFromMst lamq (fun _ => 1) (exOpts .eom 0) (finishMst (runKruskalCore 8 CLParams.none (sortEdges exPairs)) 8)).map
      (fun r => (r.labels, decide (8 ∈ r.selected))) = some ([2, 2, 3, 3, 1, 1, 0, 0], false) := by
    decide +kernel
  obtain ⟨r, hr, hl⟩ := Option.map_eq_some_iff.1 hl
  obtain ⟨hlab, hsel⟩ := Prod.mk.inj hl
  refine ⟨r, hr, hlab, fun i hi0 hi4 => ?_⟩
  have hrange : InRange 8 exPairs := by decide
  have hinv := kruskalCore_inv (sortEdges_inRange hrange)
  obtain ⟨hmsf, _⟩ := kruskal_msf hrange
  obtain ⟨h1, b, h2, h3⟩ := C08_finish_spanning_tree 8 (by decide) (kruskalCore 8 (sortEdges exPairs)) hinv.rep hmsf.forest.acyclic
  refine C94_dbscan_clustering_partial 8 (by decide) exPairs _ b _ hmsf h3 (by rw [run_none]; exact h1) (by rw [run_none, h2])
    (exOpts .eom 0) (by decide) lamq lamq_antitone lamq_nonneg (by decide) (.inr lamq_zero) hr
    (of_decide_eq_false hsel) (i := i) ?_ (by omega) ?_ 2 (by decide)
  · rw [hlab]; interval_cases i <;> decide
  · rw [hlab]
    unfold Leaves
    interval_cases i <;> decide +kernel

/-- Two pairs of samples, `{0, 2}` and `{1, 3}`; all distances are 1. -/
def exTied : List (Edge (WithTop ℚ)) :=
  [⟨0, 2, ((1 : ℚ) : WithTop ℚ)⟩, ⟨1, 3, ((1 : ℚ) : WithTop ℚ)⟩, ⟨2, 3, ((1 : ℚ) : WithTop ℚ)⟩]

/-- **C94** fails with ties: the pairs are two clusters, but for no `eps` is the cluster of sample 1 the samples joined to it by edges shorter
than `eps`. -/
theorem C94_ties : ∃ labels : List ℤ,
    (clustersFromMst lamq (fun _ => 1) (exOpts .eom 0) exTied).map ClusterResult.labels = some labels ∧
      ¬ ∃ eps, ∀ y, y < 4 → (labels[y]? = labels[1]? ↔ Conn (below eps exTied) 1 y) := by
  refine ⟨[1, 0, 1, 0], by decide +kernel, ?_⟩
  rintro ⟨eps, h⟩
  have h3 := (h 3 (by decide)).1 (by decide)
  have h0 : ¬ Conn (below eps exTied) 1 0 := fun hc => absurd ((h 0 (by decide)).2 hc) (by decide)
  by_cases he : ((1 : ℚ) : WithTop ℚ) < eps
  · have hmem : ∀ e ∈ exTied, e ∈ below eps exTied := fun e hm => mem_below.2 ⟨hm, by
      have : e.w = ((1 : ℚ) : WithTop ℚ) := by revert e; decide +kernel
      rw [this]; exact he⟩
    refine h0 ?_
    have a1 : Conn (below eps exTied) 1 3 := h3
    have a2 : Conn (below eps exTied) 2 3 := Conn.edge (e := ⟨2, 3, ((1 : ℚ) : WithTop ℚ)⟩) (hmem _ (by simp [exTied]))
    have a3 : Conn (below eps exTied) 0 2 := Conn.edge (e := ⟨0, 2, ((1 : ℚ) : WithTop ℚ)⟩) (hmem _ (by simp [exTied]))
    exact a1.trans (a2.symm.trans a3.symm)
  · have hnil : ∀ e ∈ below eps exTied, False := fun e hm => by
      obtain ⟨h5, h6⟩ := mem_below.1 hm
      have : e.w = ((1 : ℚ) : WithTop ℚ) := by
        clear hm h6; revert e; decide +kernel
      rw [this] at h6; exact he h6
    have := conn_invariant (fun x => x) (fun e he => (hnil e he).elim) h3
    exact absurd this (by decide)

end Verif
