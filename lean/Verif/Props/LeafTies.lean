import Verif.Spec.LeafTies
import Verif.Props.Copies
import Verif.Props.Rename

/-!
# C91 and C92 with ties: the leaf clusters do not depend on the spanning tree nor on the order of the rows
-/

namespace Verif
variable {W K : Type*} [LinearOrder W]

/-- Finitely many edges below `τ` are all below some shorter length. -/
theorem conn_below_iff {g : List (Edge W)} {τ : W} {x y : ℕ} : Conn (below τ g) x y ↔ x = y ∨ ∃ τ' < τ, Conn (upTo τ' g) x y := by
  constructor
  · intro h
    by_cases he : below τ g = []
    · rw [he] at h
      left
      by_contra hne
      rcases Conn.inRange (n := 0) (fun e he => by simp at he) h with h | h
      · exact hne h
      · omega
    · right
      classical
      obtain ⟨m, hm, hmax⟩ := Finset.exists_max_image (below τ g).toFinset Edge.w (List.toFinset_nonempty_iff _ |>.2 he)
      exact ⟨m.w, (mem_below.1 (List.mem_toFinset.1 hm)).2, h.mono fun e he => mem_upTo.2 ⟨(mem_below.1 he).1, hmax e (List.mem_toFinset.2 he)⟩⟩
  · rintro (rfl | ⟨τ', hlt, h⟩)
    · exact Conn.refl _ _
    · exact h.mono fun e he => mem_below.2 ⟨(mem_upTo.1 he).1, lt_of_le_of_lt (mem_upTo.1 he).2 hlt⟩

theorem SameComponents.below {n : ℕ} {f : Equiv.Perm ℕ} {g g' : List (Edge W)} (h : SameComponents n f g g') (τ : W) {x y : ℕ} (hx : x < n) (hy : y < n) :
    Conn (below τ g) x y ↔ Conn (Verif.below τ g') (f x) (f y) := by
  rw [conn_below_iff, conn_below_iff, f.injective.eq_iff]
  exact or_congr Iff.rfl (exists_congr fun τ' => and_congr Iff.rfl (h τ' x y hx hy))

section
variable [Field K] [LinearOrder K] [IsStrictOrderedRing K]

omit [LinearOrder W] [LinearOrder K] [IsStrictOrderedRing K] in
theorem sum_renamed {n : ℕ} {f : Equiv.Perm ℕ} (hf : ∀ x, f x < n ↔ x < n) {wt wt' : ℕ → K} (hwt : ∀ x, x < n → wt' (f x) = wt x) {P P' : ℕ → Prop} [DecidablePred P] [DecidablePred P']
    (hP : ∀ x, x < n → (P x ↔ P' (f x))) : ∑ y ∈ (Finset.range n).filter P, wt y = ∑ y ∈ (Finset.range n).filter P', wt' y := by
  refine Finset.sum_equiv f (fun x => ?_) fun x hx => ?_
  · simp only [Finset.mem_filter, Finset.mem_range, hf]
    exact and_congr_right fun h => hP x h
  · exact (hwt x (Finset.mem_range.1 (Finset.mem_filter.1 hx).1)).symm

section
variable {n : ℕ} {f : Equiv.Perm ℕ} (hf : ∀ x, f x < n ↔ x < n) {g g' : List (Edge W)} (h : SameComponents n f g g') {wt wt' : ℕ → K}
  (hwt : ∀ x, x < n → wt' (f x) = wt x) {θ : K}
include hf h hwt

omit [IsStrictOrderedRing K] in
theorem SameComponents.heavy (τ : W) {x : ℕ} (hx : x < n) : HeavyPart n wt θ (Verif.below τ g) x ↔ HeavyPart n wt' θ (Verif.below τ g') (f x) := by
  classical
  unfold HeavyPart
  rw [sum_renamed hf hwt fun y hy => h.below τ hx hy]

omit [IsStrictOrderedRing K] in
/-- The condition on ties does not depend on names. -/
theorem SmallTies.renamed (hs : SmallTies n wt θ g) : SmallTies n wt' θ g' := by
  classical
  have hb : ∀ y, y < n → f.symm y < n := fun y hy => by rw [← hf, Equiv.apply_symm_apply]; exact hy
  have h' := h.symm hf
  intro τ
  rcases hs τ with h1 | h2
  · left
    intro u v u' v' hu hv hu' hv' hj hj'
    have e : ∀ {a b}, a < n → b < n → JoinedAt g' τ a b → JoinedAt g τ (f.symm a) (f.symm b) := fun ha hb' hj =>
      ⟨(h' τ _ _ ha hb').1 hj.1, fun hc => hj.2 ((h'.below τ ha hb').2 hc)⟩
    rcases h1 _ _ _ _ (hb u hu) (hb v hv) (hb u' hu') (hb v' hv') (e hu hv hj) (e hu' hv' hj') with ⟨p, q⟩ | ⟨p, q⟩
    · exact .inl ⟨(h'.below τ hu hu').2 p, (h'.below τ hv hv').2 q⟩
    · exact .inr ⟨(h'.below τ hu hv').2 p, (h'.below τ hv hu').2 q⟩
  · right
    intro x hx
    obtain ⟨a, ha, hc, hlt⟩ := h2 _ (hb x hx)
    refine ⟨f a, (hf a).2 ha, ?_, fun hge => hlt (hge.trans (le_of_eq ?_))⟩
    · have := (h τ _ _ (hb x hx) ha).1 hc
      rwa [Equiv.apply_symm_apply] at this
    · refine (sum_renamed hf hwt fun y hy => ?_).symm
      rw [h τ _ _ (hb x hx) hy, h.below τ ha hy, Equiv.apply_symm_apply]

omit [IsStrictOrderedRing K] in
/-- Leaf groups do not depend on names. -/
theorem LeafGroup.renamed (hr : InRange n g) (hr' : InRange n g') {S : Set ℕ} (hS : LeafGroup n wt θ g S) : LeafGroup n wt' θ g' (f '' S) := by
  obtain ⟨τ, x, y, hx, hc, hnc, b1, b2, rfl, hin⟩ := hS
  have rb : ∀ {τ z}, z ∈ {z | Conn (Verif.below τ g) x z} → z < n := fun hz => stays_inRange (fun e he => hr e (mem_below.1 he).1) hz hx
  have hy : y < n := stays_inRange (fun e he => hr e (mem_upTo.1 he).1) hc hx
  refine ⟨τ, f x, f y, (hf x).2 hx, (h τ x y hx hy).1 hc, fun hc' => hnc ((h.below τ hx hy).2 hc'), (h.heavy hf hwt τ hx).1 b1, (h.heavy hf hwt τ hy).1 b2, ?_, ?_⟩
  · ext z
    constructor
    · rintro ⟨z, hz, rfl⟩
      exact (h.below τ hx (rb hz)).1 hz
    · intro hz
      have hzn : z < n := stays_inRange (fun e he => hr' e (mem_below.1 he).1) hz ((hf x).2 hx)
      have hzn' : f.symm z < n := by rw [← hf, Equiv.apply_symm_apply]; exact hzn
      exact ⟨f.symm z, (h.below τ hx hzn').2 (by rw [Equiv.apply_symm_apply]; exact hz), Equiv.apply_symm_apply _ _⟩
  · rintro τ' hτ _ ⟨a, ha, rfl⟩ _ ⟨b, hb, rfl⟩ h1 h2
    exact (h.below τ' (rb ha) (rb hb)).1 (hin τ' hτ a ha b hb ((h.heavy hf hwt τ' (rb ha)).2 h1) ((h.heavy hf hwt τ' (rb hb)).2 h2))

end

/-- Small ties do not join two heavy parts. -/
theorem SmallTies.untied {n : ℕ} {wt : ℕ → K} (h0 : ∀ x, x < n → 0 ≤ wt x) {θ : K} {t es : List (Edge W)} (hs : SmallTies n wt θ t) (ht : SpanningTree n es)
    (hp : es.Perm t) (hsort : es.Pairwise fun a b => a.w ≤ b.w) : UntiedJoins n wt θ es := by
  classical
  have hbel : ∀ τ x y, Conn (below τ t) x y ↔ Conn (below τ es) x y := fun τ x y => Conn.congr fun e => by rw [mem_below, mem_below, hp.mem_iff]
  have hup : ∀ τ x y, Conn (upTo τ t) x y ↔ Conn (upTo τ es) x y := fun τ x y => Conn.congr fun e => by rw [mem_upTo, mem_upTo, hp.mem_iff]
  have hcut : ∀ {j : ℕ} {e : Edge W}, es[j]? = some e → ¬ Conn (es.take j) e.u e.v := by
    intro j e he
    obtain ⟨hj, hg⟩ := List.getElem?_eq_some_iff.1 he
    have := ht.acyclic.of_subperm (List.take_sublist (j + 1) es).subperm
    rw [← List.take_append_getElem hj, hg] at this
    exact (Acyclic.snoc_iff.1 this).2
  have hlow : ∀ {j : ℕ} {e : Edge W}, es[j]? = some e → ∀ e' ∈ below e.w es, e' ∈ es.take j := by
    intro j e he e' he'
    obtain ⟨hj, rfl⟩ := List.getElem?_eq_some_iff.1 he
    obtain ⟨h1, h2⟩ := mem_below.1 he'
    obtain ⟨i, hi, rfl⟩ := List.mem_iff_getElem.1 h1
    rw [List.mem_take_iff_getElem]
    refine ⟨i, ?_, rfl⟩
    by_contra hge
    have hji : j ≤ i := by omega
    rcases hji.lt_or_eq with h' | rfl
    · exact absurd h2 (not_lt.2 (List.pairwise_iff_getElem.1 hsort j i hj hi h'))
    · exact lt_irrefl _ h2
  have hhigh : ∀ {j : ℕ} {e : Edge W}, es[j]? = some e → ∀ e' ∈ es.take j, e' ∈ upTo e.w es := by
    intro j e he e' he'
    obtain ⟨hj, rfl⟩ := List.getElem?_eq_some_iff.1 he
    obtain ⟨i, hi, rfl⟩ := List.mem_take_iff_getElem.1 he'
    exact mem_upTo.2 ⟨List.getElem_mem _, List.pairwise_iff_getElem.1 hsort i j (by omega) hj (by omega)⟩
  have hjoined : ∀ {j : ℕ} {e : Edge W}, es[j]? = some e → JoinedAt t e.w e.u e.v := fun {j e} he =>
    ⟨(hup _ _ _).2 (Conn.edge (mem_upTo.2 ⟨List.mem_of_getElem? he, le_rfl⟩)), fun hc => hcut he (((hbel _ _ _).1 hc).mono (hlow he))⟩
  -- two edges of equal weight that join the same parts
  have hdouble : ∀ {i j : ℕ} {e e' : Edge W}, es[i]? = some e' → es[j]? = some e → e'.w = e.w → i < j →
      Conn (below e.w t) e.u e'.u ∧ Conn (below e.w t) e.v e'.v ∨ Conn (below e.w t) e.u e'.v ∧ Conn (below e.w t) e.v e'.u → False := by
    intro i j e e' hi hj hw hij hpq
    have hedge : Conn (es.take j) e'.u e'.v := Conn.edge (by
      obtain ⟨hil, hg⟩ := List.getElem?_eq_some_iff.1 hi
      rw [List.mem_take_iff_getElem]
      obtain ⟨hjl, -⟩ := List.getElem?_eq_some_iff.1 hj
      exact ⟨i, by omega, hg⟩)
    have hm : ∀ {x y}, Conn (below e.w t) x y → Conn (es.take j) x y := fun hc => ((hbel _ _ _).1 hc).mono (hlow hj)
    rcases hpq with ⟨p, q⟩ | ⟨p, q⟩
    · exact hcut hj ((hm p).trans (hedge.trans (hm q).symm))
    · exact hcut hj ((hm p).trans (hedge.symm.trans (hm q).symm))
  intro j e hj hjoin i e' hi hw
  have hend := ht.inRange e (List.mem_of_getElem? hj)
  have hend' := ht.inRange e' (List.mem_of_getElem? hi)
  rcases hs e.w with h1 | h2
  · have hji' := hjoined hi
    rw [hw] at hji'
    rcases lt_trichotomy i j with hlt | rfl | hgt
    · exact (hdouble hi hj hw hlt (h1 _ _ _ _ hend.1 hend.2 hend'.1 hend'.2 (hjoined hj) hji')).elim
    · rfl
    · have := h1 _ _ _ _ hend'.1 hend'.2 hend.1 hend.2 hji' (hjoined hj)
      rw [← hw] at this
      exact (hdouble hj hi hw.symm hgt this).elim
  · exfalso
    obtain ⟨a, ha, hc, hlt⟩ := h2 e.u hend.1
    obtain ⟨e2, he2, a1, a2⟩ := hjoin
    obtain rfl := Option.some.inj (hj.symm.trans he2)
    -- a heavy part that does not hold `a`
    have key : ∀ z, Conn (upTo e.w es) e.u z → HeavyPart n wt θ (es.take j) z → ¬ Conn (es.take j) z a → False := by
      intro z hz hh hza
      refine hlt (le_trans hh (Finset.sum_le_sum_of_subset_of_nonneg (fun y hy => ?_) fun y hy _ => h0 y (Finset.mem_range.1 (Finset.mem_filter.1 hy).1)))
      obtain ⟨hy1, hy2⟩ := Finset.mem_filter.1 hy
      refine Finset.mem_filter.2 ⟨hy1, (hup _ _ _).2 (hz.trans (hy2.mono (hhigh hj))), fun hay => hza (hy2.trans ?_)⟩
      exact (((hbel _ _ _).1 hay).mono (hlow hj)).symm
    by_cases hua : Conn (es.take j) e.u a
    · exact key e.v ((hup _ _ _).1 (hjoined hj).1) a2 fun hva => hcut hj (hua.trans hva.symm)
    · exact key e.u (Conn.refl _ _) a1 hua

variable [OrderTop W] [Inhabited W] [Inhabited K]

/-- **C92** (partial) with ties, for the leaf method: two spanning trees that connect the same samples at every length, up to the names of the samples, have the same
clusters up to the names of the samples, if ties are small.  Missing: epsilon, persistence, infinite edges, ties between heavy parts (`C92_ties`). -/
theorem C92_leaf_ties_partial {n : ℕ} (hn : 2 ≤ n) {f : Equiv.Perm ℕ} (hf : ∀ x, f x < n ↔ x < n) {g g' : List (Edge W)} (h : SameComponents n f g g')
    (hg : SpanningTree n g) (hg' : SpanningTree n g') (lam : W → K) (hlam : Antitone lam) (hpos : ∀ d, 0 ≤ lam d) (hfin : ∀ e ∈ g, lam e.w ≠ 0)
    (wt wt' : ℕ → K) (hwt : ∀ x, x < n → wt' (f x) = wt x) (o : ClusterOpts K) (h1 : 1 < o.minClusterSize) (h0 : ∀ x, x < n → 0 ≤ wt x)
    (hl : ∀ x, x < n → wt x < o.minClusterSize) (hties : SmallTies n wt o.minClusterSize g)
    (hleaf : o.method = .leaf) (hper : o.persistence ≤ 0) (heps : o.epsilon ≤ 0)
    {r r' : ClusterResult W K} (hr : clustersFromMst lam wt o g = some r) (hr' : clustersFromMst lam wt' o g' = some r') (x y : ℕ) :
    (∃ l, 0 ≤ l ∧ r.labels[x]? = some l ∧ r.labels[y]? = some l) ↔ ∃ l, 0 ≤ l ∧ r'.labels[f x]? = some l ∧ r'.labels[f y]? = some l := by
  have hsym : ∀ x, x < n → f.symm x < n := fun x hx => by rw [← hf, Equiv.apply_symm_apply]; exact hx
  have hf' : ∀ x, f.symm x < n ↔ x < n := fun x => by rw [← hf, Equiv.apply_symm_apply]
  have hw' : ∀ x, x < n → wt (f.symm x) = wt' x := fun x hx => by
    have := hwt _ (hsym x hx)
    rw [Equiv.apply_symm_apply] at this
    exact this.symm
  have hfin' : ∀ e ∈ g', lam e.w ≠ 0 := by
    intro e he
    have hm : e.w ∈ (lexsortMst g').map Edge.w := List.mem_map_of_mem ((lexsortMst_perm g').mem_iff.2 he)
    rw [h.weights hf (by omega) hg hg'] at hm
    obtain ⟨e', he', hw⟩ := List.mem_map.1 hm
    rw [← hw]
    exact hfin e' ((lexsortMst_perm g).mem_iff.1 he')
  have hC := C115_leaf_groups_partial n hn wt g g (msf_self hg.acyclic) hg o h1 h0 hl lam hlam hpos hfin
    (hties.untied h0 (hg.perm (lexsortMst_perm g)) (lexsortMst_perm g) (lexsortMst_sorted g)) hleaf hper heps r hr
  have h0' : ∀ x, x < n → 0 ≤ wt' x := fun x hx => by rw [← hw' x hx]; exact h0 _ (hsym x hx)
  have hl' : ∀ x, x < n → wt' x < o.minClusterSize := fun x hx => by rw [← hw' x hx]; exact hl _ (hsym x hx)
  have hC' := C115_leaf_groups_partial n hn wt' g' g' (msf_self hg'.acyclic) hg' o h1 h0' hl' lam hlam hpos hfin'
    ((hties.renamed hf h hwt).untied h0' (hg'.perm (lexsortMst_perm g')) (lexsortMst_perm g') (lexsortMst_sorted g')) hleaf hper heps r' hr'
  constructor
  · rintro ⟨l, h2, hlx, hly⟩
    obtain ⟨l', -, h3, he⟩ := (hC' _).2 (((hC _).1 ⟨l, List.mem_of_getElem? hlx, h2, rfl⟩).renamed hf h hwt hg.inRange hg'.inRange)
    exact ⟨l', h3, he.subset ⟨x, hlx, rfl⟩, he.subset ⟨y, hly, rfl⟩⟩
  · rintro ⟨l, h2, hlx, hly⟩
    obtain ⟨l', -, h3, he⟩ := (hC _).2 (((hC' _).1 ⟨l, List.mem_of_getElem? hlx, h2, rfl⟩).renamed hf' (h.symm hf) hw' hg'.inRange hg.inRange)
    exact ⟨l', h3, he.subset ⟨f x, hlx, f.symm_apply_apply x⟩, he.subset ⟨f y, hly, f.symm_apply_apply y⟩⟩

/-- **C91** (partial) with ties, for the leaf method: all minimum spanning trees of a graph give the same clusters, if the ties of the graph are small. -/
theorem C91_leaf_ties_partial {n : ℕ} (hn : 2 ≤ n) {G g g' : List (Edge W)} (hg : SpanningTree n g)
    (hg' : SpanningTree n g') (hm : MinSpanningForest G g) (hm' : MinSpanningForest G g') (lam : W → K) (hlam : Antitone lam) (hpos : ∀ d, 0 ≤ lam d)
    (hfin : ∀ e ∈ g, lam e.w ≠ 0)
    (wt : ℕ → K) (o : ClusterOpts K) (h1 : 1 < o.minClusterSize) (h0 : ∀ x, x < n → 0 ≤ wt x)
    (hl : ∀ x, x < n → wt x < o.minClusterSize) (hties : SmallTies n wt o.minClusterSize G)
    (hleaf : o.method = .leaf) (hper : o.persistence ≤ 0) (heps : o.epsilon ≤ 0)
    {r r' : ClusterResult W K} (hr : clustersFromMst lam wt o g = some r) (hr' : clustersFromMst lam wt o g' = some r') (x y : ℕ) :
    (∃ l, 0 ≤ l ∧ r.labels[x]? = some l ∧ r.labels[y]? = some l) ↔ ∃ l, 0 ≤ l ∧ r'.labels[x]? = some l ∧ r'.labels[y]? = some l :=
  C92_leaf_ties_partial hn (f := Equiv.refl ℕ) (fun _ => Iff.rfl) (hm.same hm') hg hg' lam hlam hpos hfin wt wt (fun _ _ => rfl) o h1 h0 hl
    (hties.renamed (f := Equiv.refl ℕ) (fun _ => Iff.rfl) (fun _ _ _ _ _ => (hm.conn_upTo _ _ _).symm) fun _ _ => rfl) hleaf hper heps hr hr' x y

/-- **C92** (partial) with ties, for the leaf method and `algorithm='kruskal'`: permuting the rows permutes the clusters. -/
theorem C92_leaf_rows_partial [Zero W] {n : ℕ} (hn : 2 ≤ n) (ms : ℕ) {f : Equiv.Perm ℕ} (hf : ∀ x, f x < n ↔ x < n) (D D' : ℕ → ℕ → W)
    (hD : ∀ i j, D i j = D j i) (hD' : ∀ i j, D' i j = D' j i) (h : ∀ i j, i < n → j < n → D' (f i) (f j) = D i j)
    (lam : W → K) (hlam : Antitone lam) (hpos : ∀ d, 0 ≤ lam d) (hfin : ∀ e ∈ kruskalBrute n ms D CLParams.none, lam e.w ≠ 0)
    (wt wt' : ℕ → K) (hwt : ∀ x, x < n → wt' (f x) = wt x) (o : ClusterOpts K) (h1 : 1 < o.minClusterSize) (h0 : ∀ x, x < n → 0 ≤ wt x)
    (hl : ∀ x, x < n → wt x < o.minClusterSize) (hties : SmallTies n wt o.minClusterSize (kruskalBrute n ms D CLParams.none))
    (hleaf : o.method = .leaf) (hper : o.persistence ≤ 0) (heps : o.epsilon ≤ 0)
    {r r' : ClusterResult W K} (hr : clustersFromMst lam wt o (kruskalBrute n ms D CLParams.none) = some r)
    (hr' : clustersFromMst lam wt' o (kruskalBrute n ms D' CLParams.none) = some r') (x y : ℕ) :
    (∃ l, 0 ≤ l ∧ r.labels[x]? = some l ∧ r.labels[y]? = some l) ↔ ∃ l, 0 ≤ l ∧ r'.labels[f x]? = some l ∧ r'.labels[f y]? = some l :=
  C92_leaf_ties_partial hn hf (kruskalBrute_same (by omega) hf hD hD' h) (C60_brute_force n ms (by omega) D hD).1 (C60_brute_force n ms (by omega) D' hD').1
    lam hlam hpos hfin wt wt' hwt o h1 h0 hl hties hleaf hper heps hr hr' x y

/-- **C91** (partial) with ties, for the leaf method: any run of `algorithm='boruvka'`, on any schedule, and `algorithm='kruskal'` give the same clusters, if ties are
small.  Same conditions as `C35_minimum_spanning_tree_partial`. -/
theorem C91_leaf_algorithms_partial [Zero W] {R : Type*} [LinearOrder R] {vis : List W → W → Prop} (hvis : ∀ h w, vis h w → anyVis h w)
    {ar : Arith R W} (ha : ar.Lawful) {rt : W → W} (hrt : Monotone rt) (hz : rt ar.zero = 0) (zero : R) (pts : ℕ → ℕ → R) (dims n leafSize ms : ℕ)
    (hls : 1 ≤ leafSize) (hn : 2 ≤ n) (hms : ms < n) (hbig : ms < 32768)
    (hdist : ∀ i < n, ∀ j < n, rdist ar dims (pts i) (pts j) < ⊤) (t : KdTree R) (ht : buildKdTree ar zero pts dims n leafSize = some t)
    (repro : Option ℕ) (edges : List (Edge W)) (core : ℕ → W)
    (h : TreeBoruvka vis ar rt dims pts t (numNodes n leafSize) n ms repro (edges.map fun e => ⟨e.u, some e.v, e.w⟩) core)
    (lam : W → K) (hlam : Antitone lam) (hpos : ∀ d, 0 ≤ lam d) (hfin : ∀ e ∈ edges, lam e.w ≠ 0)
    (wt : ℕ → K) (o : ClusterOpts K) (h1 : 1 < o.minClusterSize) (h0 : ∀ x, x < n → 0 ≤ wt x)
    (hl : ∀ x, x < n → wt x < o.minClusterSize) (hties : SmallTies n wt o.minClusterSize edges)
    (hleaf : o.method = .leaf) (hper : o.persistence ≤ 0) (heps : o.epsilon ≤ 0)
    {r r' : ClusterResult W K} (hr : clustersFromMst lam wt o edges = some r)
    (hr' : clustersFromMst lam wt o (kruskalBrute n ms (fun i j => rt (rdist ar dims (pts i) (pts j))) CLParams.none) = some r') (x y : ℕ) :
    (∃ l, 0 ≤ l ∧ r.labels[x]? = some l ∧ r.labels[y]? = some l) ↔ ∃ l, 0 ≤ l ∧ r'.labels[x]? = some l ∧ r'.labels[y]? = some l := by
  have inj : ∀ {a b : List (Edge W)}, a.map (fun e => (⟨e.u, some e.v, e.w⟩ : TEdge W)) = b.map (fun e => ⟨e.u, some e.v, e.w⟩) → a = b := by
    intro a b hab
    refine List.map_injective_iff.2 (fun x y hxy => ?_) hab
    cases x; cases y
    simpa using hxy
  obtain ⟨_, tree, e1, s1, _⟩ := C35_minimum_spanning_tree_partial hvis ha hrt zero pts dims n leafSize ms hls hn hms hbig hdist t ht repro _ core h
  obtain ⟨c1, tree', e2, _, k1⟩ := C35_agrees_with_kruskal_partial hvis ha hrt hz zero pts dims n leafSize ms hls hn hms hbig hdist t ht repro _ core h
  rw [← inj e1] at s1
  rw [← inj e2] at k1
  exact C92_leaf_ties_partial hn (f := Equiv.refl ℕ) (fun _ => Iff.rfl) (fun τ x y _ _ => k1 τ x y) s1
    (C60_brute_force n ms (by omega) _ fun i j => by rw [rdist_comm ha]).1 lam hlam hpos hfin wt wt (fun _ _ => rfl) o h1 h0 hl hties hleaf hper heps hr hr' x y

end
/-! ## A case -/

/-- Two groups of three samples each, with equal distances inside; `02` is one more edge of that length. -/
def exTwoTied : List (Edge (WithTop ℚ)) := [⟨0, 1, 1⟩, ⟨1, 2, 1⟩, ⟨0, 2, 1⟩, ⟨3, 4, 1⟩, ⟨4, 5, 1⟩, ⟨2, 3, 8⟩]

/-- Two of its minimum spanning trees. -/
def exTwoTiedTree (u : ℕ) : List (Edge (WithTop ℚ)) := [⟨0, 1, 1⟩, ⟨u, 2, 1⟩, ⟨3, 4, 1⟩, ⟨4, 5, 1⟩, ⟨2, 3, 8⟩]

theorem exTwoTied_msf (u : ℕ) (hu : u = 0 ∨ u = 1) : SpanningTree 6 (exTwoTiedTree u) ∧ MinSpanningForest exTwoTied (exTwoTiedTree u) := by
  have hspan : ∀ (u : ℕ) (g : List (Edge (WithTop ℚ))), InRange 6 g → (∀ e, e ∈ g ↔ e ∈ exTwoTied) →
      (runKruskalCore 6 CLParams.none (sortEdges g)).mst.Perm (exTwoTiedTree u) →
      (∀ y < 6, componentLabel 6 (runKruskalCore 6 CLParams.none (sortEdges g)).pred 0 =
        componentLabel 6 (runKruskalCore 6 CLParams.none (sortEdges g)).pred y) →
      SpanningTree 6 (exTwoTiedTree u) ∧ MinSpanningForest exTwoTied (exTwoTiedTree u) := by
    intro u g hr hg hp hl
    have hm := ((C02_kruskal_minimum 6 g hr).2.2.1.congr_mem hg).perm_right hp
    have hr' : InRange 6 exTwoTied := fun e he => hr e ((hg e).2 he)
    have hconn : ∀ {x : ℕ}, x < 6 → Conn g 0 x := fun hx => ((C01_kruskal_spanning_forest 6 _ hr).2.2 0 _).1 (hl _ hx)
    refine ⟨⟨hr'.subperm hm.forest.sub, hm.forest.acyclic, fun a b ha hb => ?_⟩, hm⟩
    rw [hm.forest.conn]
    exact ((hconn ha).symm.trans (hconn hb)).mono fun e he => (hg e).1 he
  rcases hu with rfl | rfl
  · exact hspan 0 [⟨0, 1, 1⟩, ⟨0, 2, 1⟩, ⟨1, 2, 1⟩, ⟨3, 4, 1⟩, ⟨4, 5, 1⟩, ⟨2, 3, 8⟩] (by decide +kernel) (fun e => by simp [exTwoTied]; tauto) (by decide +kernel) (by decide +kernel)
  · exact hspan 1 exTwoTied (by decide +kernel) (fun _ => Iff.rfl) (by decide +kernel) (by decide +kernel)

theorem two_classes {α : Type*} {A B a b a' b' : α} (h1 : a = A ∨ a = B) (h2 : b = A ∨ b = B) (h3 : a' = A ∨ a' = B) (h4 : b' = A ∨ b' = B) (h : a ≠ b)
    (h' : a' ≠ b') : a = a' ∧ b = b' ∨ a = b' ∧ b = a' := by
  rcases h1 with rfl | rfl <;> rcases h2 with rfl | rfl <;> rcases h3 with rfl | rfl <;> rcases h4 with rfl | rfl <;> simp_all

theorem exTwoTied_small : SmallTies 6 (fun _ => (1 : ℚ)) 3 exTwoTied := by
  classical
  have dec : ∀ {g : List (Edge (WithTop ℚ))}, InRange 6 g → ∀ x y, Conn g x y ↔
      componentLabel 6 (runKruskalCore 6 CLParams.none (sortEdges g)).pred x = componentLabel 6 (runKruskalCore 6 CLParams.none (sortEdges g)).pred y :=
    fun hr x y => ((C01_kruskal_spanning_forest 6 _ hr).2.2 x y).symm
  have hr8 : InRange 6 (below 8 exTwoTied) := by decide +kernel
  have hr1 : InRange 6 (upTo 1 exTwoTied) := by decide +kernel
  intro τ
  by_cases h1 : τ = 1
  · subst h1
    right
    intro x hx
    refine ⟨x, hx, Conn.refl _ _, not_le.2 ?_⟩
    have hc : ∀ x < 6, ((Finset.range 6).filter fun y => (componentLabel 6 (runKruskalCore 6 CLParams.none (sortEdges (upTo 1 exTwoTied))).pred x =
      componentLabel 6 (runKruskalCore 6 CLParams.none (sortEdges (upTo 1 exTwoTied))).pred y) ∧ x ≠ y).card ≤ 2 := by decide +kernel
    rw [Finset.sum_const, nsmul_eq_mul, mul_one]
    refine lt_of_le_of_lt (Nat.cast_le.2 ((Finset.card_le_card fun y hy => ?_).trans (hc x hx))) (by norm_num)
    obtain ⟨h2, h3, h4⟩ := Finset.mem_filter.1 hy
    exact Finset.mem_filter.2 ⟨h2, (dec hr1 x y).1 h3, fun e => h4 (e ▸ Conn.refl _ _)⟩
  · left
    by_cases h8 : τ = 8
    · subst h8
      have hval : ∀ x < 6, componentLabel 6 (runKruskalCore 6 CLParams.none (sortEdges (below 8 exTwoTied))).pred x =
          componentLabel 6 (runKruskalCore 6 CLParams.none (sortEdges (below 8 exTwoTied))).pred 0 ∨
          componentLabel 6 (runKruskalCore 6 CLParams.none (sortEdges (below 8 exTwoTied))).pred x =
          componentLabel 6 (runKruskalCore 6 CLParams.none (sortEdges (below 8 exTwoTied))).pred 3 := by decide +kernel
      intro u v u' v' hu hv hu' hv' hj hj'
      rw [dec hr8, dec hr8, dec hr8, dec hr8]
      exact two_classes (hval u hu) (hval v hv) (hval u' hu') (hval v' hv') (fun h => hj.2 ((dec hr8 _ _).2 h)) fun h => hj'.2 ((dec hr8 _ _).2 h)
    · intro u v u' v' _ _ _ _ hj
      refine (hj.2 (hj.1.mono fun e he => ?_)).elim
      obtain ⟨h2, h3⟩ := mem_upTo.1 he
      refine mem_below.2 ⟨h2, lt_of_le_of_ne h3 fun h => ?_⟩
      have : ∀ e ∈ exTwoTied, e.w = 1 ∨ e.w = 8 := by decide +kernel
      rcases this e h2 with h' | h'
      · exact h1 (h ▸ h')
      · exact h8 (h ▸ h')

/-- The edges inside the groups are equally long, and the two trees differ; the clusters are the same. -/
example : ∃ r r', clustersFromMst lamq (fun _ => 1) ⟨3, .leaf, none, false, 0, 0⟩ (exTwoTiedTree 0) = some r ∧
    clustersFromMst lamq (fun _ => 1) ⟨3, .leaf, none, false, 0, 0⟩ (exTwoTiedTree 1) = some r' ∧ r.labels = [1, 1, 1, 0, 0, 0] ∧
    ∀ x y : ℕ, ((∃ l, 0 ≤ l ∧ r.labels[x]? = some l ∧ r.labels[y]? = some l) ↔ ∃ l, 0 ≤ l ∧ r'.labels[x]? = some l ∧ r'.labels[y]? = some l) := by
  have e1 : (clustersFromMst lamq (fun _ => 1) ⟨3, .leaf, none, false, 0, 0⟩ (exTwoTiedTree 0)).map ClusterResult.labels = some [1, 1, 1, 0, 0, 0] := by decide +kernel
  have e2 : (clustersFromMst lamq (fun _ => 1) ⟨3, .leaf, none, false, 0, 0⟩ (exTwoTiedTree 1)).map ClusterResult.labels = some [1, 1, 1, 0, 0, 0] := by decide +kernel
  obtain ⟨r, hr, e1⟩ := Option.map_eq_some_iff.1 e1
  obtain ⟨r', hr', e2⟩ := Option.map_eq_some_iff.1 e2
  have m0 := exTwoTied_msf 0 (.inl rfl)
  have m1 := exTwoTied_msf 1 (.inr rfl)
  exact ⟨r, r', hr, hr', e1, C91_leaf_ties_partial (by decide) m0.1 m1.1 m0.2 m1.2 lamq lamq_antitone lamq_nonneg (by decide +kernel) (fun _ => 1)
    ⟨3, .leaf, none, false, 0, 0⟩ (by norm_num) (fun _ _ => zero_le_one) (fun _ _ => by norm_num) exTwoTied_small rfl le_rfl le_rfl hr hr'⟩

/-- The six samples in reverse order. -/
def reverse6 : Equiv.Perm ℕ := Function.Involutive.toPerm (fun x => if x < 6 then 5 - x else x) fun x => by
  simp only
  split_ifs <;> omega

theorem reverse6_lt (x : ℕ) : reverse6 x < 6 ↔ x < 6 := by
  change (if x < 6 then 5 - x else x) < 6 ↔ x < 6
  split_ifs <;> omega

theorem exTwoTied_kruskal : kruskalBrute 6 1 (onLine [0, 1, 2, 10, 11, 12]) CLParams.none = exTwoTiedTree 1 := by decide +kernel

/-- The same from the rows, and in reverse order. -/
example : ∃ r r', clustersFromMst lamq (fun _ => 1) ⟨3, .leaf, none, false, 0, 0⟩ (kruskalBrute 6 1 (onLine [0, 1, 2, 10, 11, 12]) CLParams.none) = some r ∧
    clustersFromMst lamq (fun _ => 1) ⟨3, .leaf, none, false, 0, 0⟩ (kruskalBrute 6 1 (onLine [12, 11, 10, 2, 1, 0]) CLParams.none) = some r' ∧
    r.labels = [1, 1, 1, 0, 0, 0] ∧
    ∀ x y : ℕ, ((∃ l, 0 ≤ l ∧ r.labels[x]? = some l ∧ r.labels[y]? = some l) ↔
      ∃ l, 0 ≤ l ∧ r'.labels[reverse6 x]? = some l ∧ r'.labels[reverse6 y]? = some l) := by
  have e1 : (clustersFromMst lamq (fun _ => 1) ⟨3, .leaf, none, false, 0, 0⟩ (exTwoTiedTree 1)).map ClusterResult.labels = some [1, 1, 1, 0, 0, 0] := by decide +kernel
  have e2 : (clustersFromMst lamq (fun _ => 1) ⟨3, .leaf, none, false, 0, 0⟩ (kruskalBrute 6 1 (onLine [12, 11, 10, 2, 1, 0]) CLParams.none)).isSome := by decide +kernel
  obtain ⟨r, hr, e1⟩ := Option.map_eq_some_iff.1 e1
  obtain ⟨r', hr'⟩ := Option.isSome_iff_exists.1 e2
  have m1 := exTwoTied_msf 1 (.inr rfl)
  have key : ∀ i < 6, ∀ j < 6, onLine [12, 11, 10, 2, 1, 0] (reverse6 i) (reverse6 j) = onLine [0, 1, 2, 10, 11, 12] i j := by decide +kernel
  rw [← exTwoTied_kruskal] at hr m1
  exact ⟨r, r', hr, hr', e1, C92_leaf_rows_partial (by decide) 1 reverse6_lt _ _ (onLine_comm _) (onLine_comm _) (fun i j hi hj => key i hi j hj)
    lamq lamq_antitone lamq_nonneg (by rw [exTwoTied_kruskal]; decide +kernel) (fun _ => 1) (fun _ => 1) (fun _ _ => rfl)
    ⟨3, .leaf, none, false, 0, 0⟩ (by norm_num) (fun _ _ => zero_le_one) (fun _ _ => by norm_num)
    (exTwoTied_small.renamed (f := Equiv.refl ℕ) (fun _ => Iff.rfl) (fun _ _ _ _ _ => (m1.2.conn_upTo _ _ _).symm) fun _ _ => rfl) rfl le_rfl le_rfl hr hr'⟩

/-- **C92** fails also for data in general position: these seven numbers have pairwise different distances, but with `min_samples=2` the fourth is equally far, in mutual
reachability, from both groups.  It is put in the group whose rows come first, for either method. -/
theorem C92_general_position :
    let p := [0, 1, 21 / 10, 6, 103 / 10, 229 / 20, 127 / 10]
    ((List.range 7).flatMap fun i => (List.range i).map fun j => onLine p i j).Nodup ∧
      (∀ i < 7, ∀ j < 7, onLine p.reverse (reverse7 i) (reverse7 j) = onLine p i j) ∧
      ∀ m ∈ [Method.eom, Method.leaf],
        (clustersFromMst lamq (fun _ => 1) ⟨3, m, none, false, 0, 0⟩ (kruskalBrute 7 2 (onLine p) CLParams.none)).map ClusterResult.labels = some [0, 0, 0, 0, 1, 1, 1] ∧
        (clustersFromMst lamq (fun _ => 1) ⟨3, m, none, false, 0, 0⟩ (kruskalBrute 7 2 (onLine p.reverse) CLParams.none)).map ClusterResult.labels =
          some [0, 0, 0, 0, 1, 1, 1] := by
  refine ⟨by decide +kernel, by decide +kernel, fun m hm => ?_⟩
  simp only [List.mem_cons, List.not_mem_nil, or_false] at hm
  rcases hm with rfl | rfl
  · exact ⟨by decide +kernel, by decide +kernel⟩
  · exact ⟨by decide +kernel, by decide +kernel⟩

end Verif
