import Verif.Lemmas.SameTree
import Verif.Lemmas.PreTrees
import Verif.Model.Bcubed
import Verif.Model.Plscan
import Verif.Props.TreeBoruvka
import Verif.Props.Kruskal

/-!
# Property C91: which minimum spanning tree is found does not matter
-/

namespace Verif

section
variable {W S : Type*} [LinearOrder W]

theorem Dendrogram.renRow_id [AddCommMonoid S] {n : ℕ} {wt : ℕ → S} {rows : List (LRow W S)} (h : Dendrogram n wt rows) :
    rows.map (renRow n (Equiv.refl ℕ)) = rows := by
  have : ∀ row ∈ rows, renRow n (Equiv.refl ℕ) row = row := by
    intro row hr
    obtain ⟨i, hi, rfl⟩ := List.mem_iff_getElem.1 hr
    have := (h.lt i _ (List.getElem?_eq_getElem hi)).1
    have e : ∀ v, onNodes n (Equiv.refl ℕ) v = v := fun v => by unfold onNodes; split <;> rfl
    unfold renRow
    rw [e, e, max_eq_left this.le, min_eq_right this.le]
  rw [List.map_congr_left this, List.map_id']

theorem SameComponents.linkage_eq [AddCommMonoid S] {n : ℕ} {g g' : List (Edge W)} (h : SameComponents n (Equiv.refl ℕ) g g') (hn : 0 < n)
    (hg : SpanningTree n g) (hg' : SpanningTree n g') (hd : (g.map Edge.w).Nodup) (wt : ℕ → S) :
    mstToLinkage wt (lexsortMst g') = mstToLinkage wt (lexsortMst g) := by
  rw [h.linkage (f := Equiv.refl ℕ) (wt := wt) (fun _ => Iff.rfl) hn hg hg' hd (fun _ _ => rfl)]
  exact (C12_linkage_is_dendrogram n hn wt _ (hg.perm (lexsortMst_perm g)) (lexsortMst_sorted g)).1.renRow_id

theorem MinSpanningForest.same {n : ℕ} {G g g' : List (Edge W)} (h : MinSpanningForest G g) (h' : MinSpanningForest G g') :
    SameComponents n (Equiv.refl ℕ) g g' := fun t x y _ _ => by
  rw [h.conn_upTo, ← h'.conn_upTo]; rfl

end

section
variable {W K : Type*} [LinearOrder W] [Inhabited W]

/-- What `clusters_from_spanning_tree` returns, without the spanning tree itself. -/
def ClusterResult.clustering (r : ClusterResult W K) : List ℤ × (ℕ → K) × List (LRow W K) × List (CRow K K) × List ℕ :=
  (r.labels, r.strengths, r.linkage, r.condensed, r.selected)

theorem SameComponents.clusters [Field K] [LinearOrder K] [Inhabited K] {n : ℕ} (hn : 0 < n) {g g' : List (Edge W)}
    (h : SameComponents n (Equiv.refl ℕ) g g') (hg : SpanningTree n g) (hg' : SpanningTree n g') (hd : (g.map Edge.w).Nodup) (lam : W → K)
    (wt : ℕ → K) (o : ClusterOpts K) :
    (clustersFromMst lam wt o g').map ClusterResult.clustering = (clustersFromMst lam wt o g).map ClusterResult.clustering ∧
      ∀ v m lab, (clustersFromMstSS lam wt o v m lab g').map ClusterResult.clustering = (clustersFromMstSS lam wt o v m lab g).map ClusterResult.clustering := by
  have hl := h.linkage_eq hn hg hg' hd wt
  have hlen : g'.length = g.length := by
    have := hg.length hn
    have := hg'.length hn
    omega
  constructor
  · unfold clustersFromMst
    simp only [hl, hlen, Option.map_bind, Function.comp_def, Option.map_map]
    rfl
  · intro v m lab
    unfold clustersFromMstSS
    simp only [hl, hlen, Option.map_bind, Function.comp_def, Option.map_map]
    rfl

/-- C91: if no two edges of the spanning tree have the same length, it does not matter which minimum spanning tree of the graph is passed on.
The labels, the strengths, the single linkage tree, the condensed tree and the selected clusters are the same; so are those of the
semi-supervised mode. -/
theorem C91_any_tree_partial [Field K] [LinearOrder K] [Inhabited K] {n : ℕ} (hn : 0 < n) {G g g' : List (Edge W)} (hg : SpanningTree n g)
    (hg' : SpanningTree n g') (hm : MinSpanningForest G g) (hm' : MinSpanningForest G g') (hd : (g.map Edge.w).Nodup) (lam : W → K)
    (wt : ℕ → K) (o : ClusterOpts K) :
    (clustersFromMst lam wt o g').map ClusterResult.clustering = (clustersFromMst lam wt o g).map ClusterResult.clustering ∧
      ∀ v m lab, (clustersFromMstSS lam wt o v m lab g').map ClusterResult.clustering = (clustersFromMstSS lam wt o v m lab g).map ClusterResult.clustering :=
  (hm.same hm').clusters hn hg hg' hd lam wt o

/-! ### The two algorithms -/

/-- C91 for the data: any two runs of `algorithm='boruvka'` on the same samples — on different schedules, with stale reads of the shared bounds,
with or without `reproducible` — and `algorithm='kruskal'` (without `knn_k`) lead to the same clustering, if the lengths of the edges of
the spanning tree are pairwise different.  Same conditions as `C35_minimum_spanning_tree_partial`. -/
theorem C91_algorithms_partial [Field K] [LinearOrder K] [Inhabited K] [OrderTop W] [Zero W] {R : Type*} [LinearOrder R]
    {vis vis' : List W → W → Prop} (hvis : ∀ h w, vis h w → anyVis h w) (hvis' : ∀ h w, vis' h w → anyVis h w) {ar : Arith R W}
    (ha : ar.Lawful) {rt : W → W} (hrt : Monotone rt) (h0 : rt ar.zero = 0) (zero : R) (pts : ℕ → ℕ → R) (dims n leafSize leafSize' ms : ℕ)
    (hl : 1 ≤ leafSize) (hl' : 1 ≤ leafSize') (hn : 2 ≤ n) (hms : ms < n) (hbig : ms < 32768)
    (hfin : ∀ i < n, ∀ j < n, rdist ar dims (pts i) (pts j) < ⊤) (t t' : KdTree R) (ht : buildKdTree ar zero pts dims n leafSize = some t)
    (ht' : buildKdTree ar zero pts dims n leafSize' = some t') (repro repro' : Option ℕ) (edges edges' : List (Edge W)) (core core' : ℕ → W)
    (h : TreeBoruvka vis ar rt dims pts t (numNodes n leafSize) n ms repro (edges.map fun e => ⟨e.u, some e.v, e.w⟩) core)
    (h' : TreeBoruvka vis' ar rt dims pts t' (numNodes n leafSize') n ms repro' (edges'.map fun e => ⟨e.u, some e.v, e.w⟩) core')
    (hd : (edges.map Edge.w).Nodup) (lam : W → K) (wt : ℕ → K) (o : ClusterOpts K) :
    let res := (clustersFromMst lam wt o edges).map ClusterResult.clustering
    (clustersFromMst lam wt o edges').map ClusterResult.clustering = res ∧
      (clustersFromMst lam wt o (kruskalBrute n ms (fun i j => rt (rdist ar dims (pts i) (pts j))) CLParams.none)).map ClusterResult.clustering = res := by
  intro res
  have inj : ∀ {a b : List (Edge W)}, a.map (fun e => (⟨e.u, some e.v, e.w⟩ : TEdge W)) = b.map (fun e => ⟨e.u, some e.v, e.w⟩) → a = b := by
    intro a b hab
    refine List.map_injective_iff.2 (fun x y hxy => ?_) hab
    cases x; cases y
    simpa using hxy
  have key : ∀ {vis : List W → W → Prop} (_ : ∀ h w, vis h w → anyVis h w) {leafSize : ℕ} (_ : 1 ≤ leafSize) {t : KdTree R}
      (_ : buildKdTree ar zero pts dims n leafSize = some t) {repro : Option ℕ} {edges : List (Edge W)} {core : ℕ → W}
      (_ : TreeBoruvka vis ar rt dims pts t (numNodes n leafSize) n ms repro (edges.map fun e => ⟨e.u, some e.v, e.w⟩) core),
      SpanningTree n edges ∧ ∀ τ a b, Conn (upTo τ edges) a b ↔
        Conn (upTo τ (kruskalBrute n ms (fun i j => rt (rdist ar dims (pts i) (pts j))) CLParams.none)) a b := by
    intro vis hvis leafSize hl t ht repro edges core h
    obtain ⟨_, tree, e1, e2, _⟩ := C35_minimum_spanning_tree_partial hvis ha hrt zero pts dims n leafSize ms hl hn hms hbig hfin t ht repro _ core h
    obtain ⟨_, tree', e3, _, e4⟩ := C35_agrees_with_kruskal_partial hvis ha hrt h0 zero pts dims n leafSize ms hl hn hms hbig hfin t ht repro _ core h
    rw [← inj e1] at e2
    rw [← inj e3] at e4
    exact ⟨e2, e4⟩
  obtain ⟨s1, c1⟩ := key hvis hl ht h
  obtain ⟨s2, c2⟩ := key hvis' hl' ht' h'
  have s3 := (C60_brute_force n ms (by omega) (fun i j => rt (rdist ar dims (pts i) (pts j))) (fun i j => by rw [rdist_comm ha])).1
  exact ⟨(SameComponents.clusters (by omega) (fun τ x y _ _ => (c1 τ x y).trans (c2 τ x y).symm) s1 s2 hd lam wt o).1,
    (SameComponents.clusters (by omega) (fun τ x y _ _ => c1 τ x y) s1 s3 hd lam wt o).1⟩

end

/-! ### PLSCAN -/

section
variable {K : Type*} [Field K] [LinearOrder K] [IsStrictOrderedRing K]

theorem normaliseEdges_strictMono (core : List (WithTop K)) :
    ∃ f : WithTop K → WithTop K, StrictMono f ∧ ∀ edges, normaliseEdges core edges = edges.map (Edge.mapW f) := by
  have hid : ∀ edges : List (Edge (WithTop K)), edges = edges.map (Edge.mapW id) := fun edges => by
    have : (Edge.mapW id : Edge (WithTop K) → Edge (WithTop K)) = id := by funext e; cases e; rfl
    rw [this, List.map_id]
  unfold normaliseEdges
  cases (finiteCore core).min? with
  | none => exact ⟨id, strictMono_id, hid⟩
  | some mn =>
    by_cases h : mn < meanOf (finiteCore core)
    · refine ⟨WithTop.map fun x => (x - mn) / (meanOf (finiteCore core) - mn), ?_, fun edges => ?_⟩
      · apply WithTop.strictMono_map_iff.2
        intro a b hab
        have : 0 < meanOf (finiteCore core) - mn := by linarith
        exact div_lt_div_of_pos_right (by linarith) this
      · simp only [h, if_true]
        rfl
    · refine ⟨id, strictMono_id, fun edges => ?_⟩
      simp only [h, if_false]
      exact hid edges

theorem sortE_eq_lexsort {W : Type*} [LinearOrder W] {sortE : List (Edge W) → List (Edge W)}
    (hsortE : ∀ l, (sortE l).Perm l ∧ (sortE l).Pairwise fun a b => a.w ≤ b.w) {l : List (Edge W)} (hd : (l.map Edge.w).Nodup) :
    sortE l = lexsortMst l := by
  have hp := (hsortE l).1.trans (lexsortMst_perm l).symm
  refine hp.eq_of_pairwise (le := fun a b => a.w ≤ b.w) (fun a b ha hb h1 h2 => ?_) (hsortE l).2 (lexsortMst_sorted l)
  have ha' := (hsortE l).1.mem_iff.1 ha
  have hb' := (lexsortMst_perm l).mem_iff.1 hb
  exact List.inj_on_of_nodup_map hd ha' hb' (le_antisymm h1 h2)

/-- C91 for `PLSCAN`: the fitted model is the same for every minimum spanning tree of the graph, if its edges have pairwise different lengths. -/
theorem C91_plscan_partial [Inhabited K] {n : ℕ} (hn : 0 < n) {G g g' : List (Edge (WithTop K))} (hg : SpanningTree n g) (hg' : SpanningTree n g')
    (hm : MinSpanningForest G g) (hm' : MinSpanningForest G g') (hd : (g.map Edge.w).Nodup) (expInv : K → K)
    (order : (ℕ → K) → List ℕ → List ℕ) (sortLayers : List (Layer K) → List (Layer K))
    (sortE : List (Edge (WithTop K)) → List (Edge (WithTop K))) (hsortE : ∀ l, (sortE l).Perm l ∧ (sortE l).Pairwise fun a b => a.w ≤ b.w)
    (lamSearch lam : WithTop K → K) (thr : ℚ) (maxLayers baseSize : ℕ) (baseN : Option ℤ) (core : List (WithTop K)) :
    plscanFit expInv order sortLayers sortE lamSearch lam thr maxLayers baseSize baseN n core g' =
      plscanFit expInv order sortLayers sortE lamSearch lam thr maxLayers baseSize baseN n core g := by
  obtain ⟨f, hf, he⟩ := normaliseEdges_strictMono core
  have hd' : (g'.map Edge.w).Nodup := (hm.weights_perm hm').nodup_iff.1 hd
  have nd : ∀ {g : List (Edge (WithTop K))}, (g.map Edge.w).Nodup → ((g.map (Edge.mapW f)).map Edge.w).Nodup := by
    intro g hd
    have : (g.map (Edge.mapW f)).map Edge.w = (g.map Edge.w).map f := by simp [Edge.mapW, Function.comp_def]
    rw [this]
    exact hd.map hf.injective
  have key := ((hm.mapW hf.monotone).same (hm'.mapW hf.monotone)).linkage_eq hn ((spanningTree_mapW f g).2 hg) ((spanningTree_mapW f g').2 hg')
    (nd hd) (fun _ => (1 : K))
  unfold plscanFit
  rw [he, he, sortE_eq_lexsort hsortE (nd hd), sortE_eq_lexsort hsortE (nd hd'), key]

end

/-! ### Cases -/

/-- Two groups of three, `0, 2, 4` and `1, 3, 5`, and sample 6 between them; `a`, `b` and `c` are the lengths of its edges to samples 0, 4 and 1,
all other edges of the graph are longer. -/
def twoGroups (a b c : ℚ) : List (Edge ℚ) :=
  [⟨0, 2, 1⟩, ⟨2, 4, 2⟩, ⟨1, 3, 3⟩, ⟨3, 5, 4⟩, ⟨0, 6, a⟩, ⟨4, 6, b⟩, ⟨1, 6, c⟩, ⟨2, 6, 10⟩, ⟨3, 6, 10⟩, ⟨0, 1, 12⟩, ⟨2, 3, 12⟩]

/-- One of its spanning trees. -/
def groupsTree (u : ℕ) (a c : ℚ) : List (Edge ℚ) :=
  [⟨0, 2, 1⟩, ⟨2, 4, 2⟩, ⟨1, 3, 3⟩, ⟨3, 5, 4⟩, ⟨u, 6, a⟩, ⟨1, 6, c⟩]

/-- `min_cluster_size=3`. -/
def groupsOpts : ClusterOpts ℚ := ⟨3, .eom, none, false, 0, 0⟩

theorem MinSpanningForest.perm_right {W : Type*} [LinearOrder W] {g f f' : List (Edge W)} (h : MinSpanningForest g f) (hp : f.Perm f') :
    MinSpanningForest g f' := by
  refine minSpanningForest_of_threshold ⟨hp.symm.subperm.trans h.forest.sub, h.forest.acyclic.of_perm hp, fun a b => ?_⟩ fun e he => ?_
  · rw [Conn.perm hp.symm]; exact h.forest.conn a b
  · have : (upTo e.w f).Perm (upTo e.w f') := hp.filter _
    rw [Conn.perm this.symm]; exact h.threshold e he

theorem twoGroups_msf (u : ℕ) (hu : u = 0 ∨ u = 4) (c : ℚ) (hc : c = 5 ∨ c = 6) :
    SpanningTree 7 (groupsTree u 5 c) ∧ MinSpanningForest (twoGroups 5 5 c) (groupsTree u 5 c) := by
  have hconn : ∀ {g : List (Edge ℚ)} {x : ℕ}, x < 7 → (∀ y < 7, componentLabel 7 (runKruskalCore 7 CLParams.none (sortEdges g)).pred 0 =
      componentLabel 7 (runKruskalCore 7 CLParams.none (sortEdges g)).pred y) → InRange 7 g → Conn g 0 x :=
    fun hx h hr => ((C01_kruskal_spanning_forest 7 _ hr).2.2 0 _).1 (h _ hx)
  have hspan : ∀ (u : ℕ) (c : ℚ) (g : List (Edge ℚ)), InRange 7 g → (∀ e, e ∈ g ↔ e ∈ twoGroups 5 5 c) →
      (runKruskalCore 7 CLParams.none (sortEdges g)).mst.Perm (groupsTree u 5 c) →
      (∀ y < 7, componentLabel 7 (runKruskalCore 7 CLParams.none (sortEdges g)).pred 0 =
        componentLabel 7 (runKruskalCore 7 CLParams.none (sortEdges g)).pred y) →
      SpanningTree 7 (groupsTree u 5 c) ∧ MinSpanningForest (twoGroups 5 5 c) (groupsTree u 5 c) := by
    intro u c g hr hg hp hl
    have hm := ((C02_kruskal_minimum 7 g hr).2.2.1.congr_mem hg).perm_right hp
    have hr' : InRange 7 (twoGroups 5 5 c) := fun e he => hr e ((hg e).2 he)
    refine ⟨⟨hr'.subperm hm.forest.sub, hm.forest.acyclic, fun a b ha hb => ?_⟩, hm⟩
    rw [hm.forest.conn]
    have := (hconn ha hl hr).symm.trans (hconn hb hl hr)
    exact this.mono fun e he => (hg e).1 he
  rcases hu with rfl | rfl <;> rcases hc with rfl | rfl
  · exact hspan 0 5 (twoGroups 5 5 5) (by decide +kernel) (fun _ => Iff.rfl) (by decide +kernel) (by decide +kernel)
  · exact hspan 0 6 (twoGroups 5 5 6) (by decide +kernel) (fun _ => Iff.rfl) (by decide +kernel) (by decide +kernel)
  · exact hspan 4 5 (twoGroups 5 5 5).reverse (by decide +kernel) (fun _ => List.mem_reverse) (by decide +kernel) (by decide +kernel)
  · exact hspan 4 6 (twoGroups 5 5 6).reverse (by decide +kernel) (fun _ => List.mem_reverse) (by decide +kernel) (by decide +kernel)

/-- Case: sample 6 is as far from sample 0 as from sample 4, and there are two minimum spanning trees; both have six different lengths. -/
example : groupsTree 0 5 6 ≠ groupsTree 4 5 6 ∧ (clustersFromMst (fun d => 1 / d) (fun _ => 1) groupsOpts (groupsTree 4 5 6)).map ClusterResult.clustering =
      (clustersFromMst (fun d => 1 / d) (fun _ => 1) groupsOpts (groupsTree 0 5 6)).map ClusterResult.clustering ∧
    (clustersFromMst (fun d => 1 / d) (fun _ => 1) groupsOpts (groupsTree 0 5 6)).map ClusterResult.labels = some [0, 1, 0, 1, 0, 1, 0] := by
  have h0 := twoGroups_msf 0 (Or.inl rfl) 6 (Or.inr rfl)
  have h4 := twoGroups_msf 4 (Or.inr rfl) 6 (Or.inr rfl)
  exact ⟨by decide +kernel, (C91_any_tree_partial (by decide) h0.1 h4.1 h0.2 h4.2 (by decide +kernel) _ _ _).1, by decide +kernel⟩

/-- Four points on a line, gaps 1, 2 and 4. -/
def gapPts (i _ : ℕ) : ℤ := [0, 3, 1, 7].getD i 0

/-- Case: the four points have runs with and without `reproducible` as in `C91_algorithms_partial`; here the lengths are the squared distances 1, 4 and 16. -/
example : ∃ (t : KdTree ℤ) (edges edges' : List (Edge (WithTop ℤ))) (core core' : ℕ → WithTop ℤ),
    buildKdTree (roundedArith (id : ℤ → ℤ)) 0 gapPts 1 4 2 = some t ∧
    TreeBoruvka lastVis (roundedArith (id : ℤ → ℤ)) id 1 gapPts t (numNodes 4 2) 4 1 none (edges.map fun e => ⟨e.u, some e.v, e.w⟩) core ∧
    TreeBoruvka lastVis (roundedArith (id : ℤ → ℤ)) id 1 gapPts t (numNodes 4 2) 4 1 (some 2) (edges'.map fun e => ⟨e.u, some e.v, e.w⟩) core' ∧
    (edges.map Edge.w).Nodup := by
  have ha : (roundedArith (id : ℤ → ℤ)).Lawful := exactArith_lawful
  have hfin : ∀ i < 4, ∀ j < 4, rdist (roundedArith (id : ℤ → ℤ)) 1 (gapPts i) (gapPts j) < ⊤ := by decide +kernel
  obtain ⟨t, ht, _⟩ := buildKdTree_valid (roundedArith (id : ℤ → ℤ)) 0 gapPts 1 4 2 (by decide) (by decide)
  obtain ⟨e1, c1, r1⟩ := C35_gives_result ha id 0 gapPts 1 4 2 1 (by decide) (by decide) (by decide) (by decide) hfin t ht none (by simp)
  obtain ⟨e2, c2, r2⟩ := C35_gives_result ha id 0 gapPts 1 4 2 1 (by decide) (by decide) (by decide) (by decide) hfin t ht (some 2) (by simp)
  have hv : ∀ (h : List (WithTop ℤ)) w, lastVis h w → anyVis h w := fun _ _ => lastVis_anyVis
  obtain ⟨_, t1, q1, w1, _⟩ := C35_agrees_with_kruskal_partial hv ha monotone_id rfl 0 gapPts 1 4 2 1 (by decide) (by decide) (by decide) (by decide) hfin t ht
    none e1 c1 r1
  obtain ⟨_, t2, q2, w2, _⟩ := C35_agrees_with_kruskal_partial hv ha monotone_id rfl 0 gapPts 1 4 2 1 (by decide) (by decide) (by decide) (by decide) hfin t ht
    (some 2) e2 c2 r2
  rw [q1] at r1
  rw [q2] at r2
  exact ⟨t, t1, t2, c1, c2, ht, r1, r2, w1.nodup_iff.2 (by decide +kernel)⟩

/-- C91 is false without the condition.  With all three edges of sample 6 equally long, as if by its core distance, there are minimum spanning trees that put it
into either group. -/
theorem C91_ties : SpanningTree 7 (groupsTree 0 5 5) ∧ SpanningTree 7 (groupsTree 4 5 5) ∧
    MinSpanningForest (twoGroups 5 5 5) (groupsTree 0 5 5) ∧ MinSpanningForest (twoGroups 5 5 5) (groupsTree 4 5 5) ∧
    (clustersFromMst (fun d => 1 / d) (fun _ => 1) groupsOpts (groupsTree 0 5 5)).map ClusterResult.labels = some [0, 1, 0, 1, 0, 1, 0] ∧
    (clustersFromMst (fun d => 1 / d) (fun _ => 1) groupsOpts (groupsTree 4 5 5)).map ClusterResult.labels = some [1, 0, 1, 0, 1, 0, 0] := by
  have h0 := twoGroups_msf 0 (Or.inl rfl) 5 (Or.inl rfl)
  have h4 := twoGroups_msf 4 (Or.inr rfl) 5 (Or.inl rfl)
  exact ⟨h0.1, h4.1, h0.2, h4.2, by decide +kernel, by decide +kernel⟩

end Verif
