import Verif.Spec.Local
import Verif.Props.LeafExact
import Verif.Props.GroupsCases

/-!
# C116: the leaf clusters inside a separated group do not depend on the rows outside
-/

namespace Verif
variable {W K : Type*}

section
variable [LinearOrder W]

theorem SameInside.symm {n n' : ℕ} {d d' : ℕ → ℕ → W} {wt wt' : ℕ → K} {τ : W} {A : Set ℕ} {σ : ℕ → ℕ} (h : SameInside n n' d d' wt wt' τ A σ) :
    SameInside n' n d' d wt' wt τ (σ '' A) (Function.invFunOn σ A) := by
  have hinv : ∀ x ∈ A, Function.invFunOn σ A (σ x) = x := fun x hx => h.inj.leftInvOn_invFunOn hx
  have himg : Function.invFunOn σ A '' (σ '' A) = A := h.inj.leftInvOn_invFunOn.image_image
  refine ⟨?_, ?_, ?_, ?_, ?_, ?_, ?_⟩
  · rintro _ ⟨x, hx, rfl⟩
    rw [hinv x hx]
    exact (h.range x hx).symm
  · rintro _ ⟨x, hx, rfl⟩ _ ⟨y, hy, rfl⟩ he
    rw [hinv x hx, hinv y hy] at he
    rw [he]
  · rintro _ ⟨x, hx, rfl⟩ _ ⟨y, hy, rfl⟩
    rw [hinv x hx, hinv y hy, h.dist x hx y hy]
  · rintro _ ⟨x, hx, rfl⟩
    rw [hinv x hx, h.weight x hx]
  · rintro _ ⟨x, hx, rfl⟩ _ ⟨y, hy, rfl⟩
    have : ∀ z, Relation.ReflTransGen (fun a b => b ∈ A ∧ d a b ≤ τ) x z → z ∈ A ∧ Relation.ReflTransGen (fun a b => b ∈ σ '' A ∧ d' a b ≤ τ) (σ x) (σ z) := by
      intro z hz
      induction hz with
      | refl => exact ⟨hx, .refl⟩
      | tail _ hs ih => exact ⟨hs.1, ih.2.tail ⟨⟨_, hs.1, rfl⟩, by rw [h.dist _ ih.1 _ hs.1]; exact hs.2⟩⟩
    exact (this y (h.joined x hx y hy)).2
  · rintro _ ⟨x, hx, rfl⟩
    exact h.apart' x hx
  · rintro _ ⟨x, hx, rfl⟩
    rw [himg, hinv x hx]
    exact h.apart x hx

/-- Edges of a kind that is not longer than `τ` do not lead out of the group, and join in the second data set what they join in the first. -/
theorem SameInside.conn {n n' : ℕ} {d d' : ℕ → ℕ → W} {wt wt' : ℕ → K} {τ : W} {A : Set ℕ} {σ : ℕ → ℕ} (h : SameInside n n' d d' wt wt' τ A σ)
    (p : W → Bool) (hp : ∀ w, p w = true → w ≤ τ) {x z : ℕ} (hx : x ∈ A) (hc : Conn ((completeGraph n d).filter fun e => p e.w) x z) :
    z ∈ A ∧ Conn ((completeGraph n' d').filter fun e => p e.w) (σ x) (σ z) := by
  induction hc with
  | refl => exact ⟨hx, Conn.refl _ _⟩
  | @tail b c _ hs ih =>
    obtain ⟨hb, hcb⟩ := ih
    obtain ⟨e, he, hends⟩ := hs
    obtain ⟨hm, hpe⟩ := List.mem_filter.1 he
    obtain ⟨e1, e2, e3, e4⟩ := mem_completeGraph.1 hm
    have hle := hp _ hpe
    rcases hends with ⟨rfl, rfl⟩ | ⟨rfl, rfl⟩
    · have hc : e.v ∈ A := by
        by_contra hno
        exact absurd (h.apart _ hb _ e2 hno).1 (not_lt.2 (e4 ▸ hle))
      refine ⟨hc, hcb.trans (Conn.edge (e := ⟨σ e.u, σ e.v, e.w⟩) (List.mem_filter.2 ⟨mem_completeGraph.2 ⟨(h.range _ hb).2, (h.range _ hc).2, fun he => e3 (h.inj hb hc he), ?_⟩, hpe⟩))⟩
      exact e4.trans (h.dist _ hb _ hc).symm
    · have hc : e.u ∈ A := by
        by_contra hno
        exact absurd (h.apart _ hb _ e1 hno).2 (not_lt.2 (e4 ▸ hle))
      refine ⟨hc, hcb.trans (Conn.edge (e := ⟨σ e.u, σ e.v, e.w⟩) (List.mem_filter.2 ⟨mem_completeGraph.2 ⟨(h.range _ hc).2, (h.range _ hb).2, fun he => e3 (h.inj hc hb he), ?_⟩, hpe⟩)).symm⟩
      exact e4.trans (h.dist _ hc _ hb).symm

theorem SameInside.conn_iff {n n' : ℕ} {d d' : ℕ → ℕ → W} {wt wt' : ℕ → K} {τ : W} {A : Set ℕ} {σ : ℕ → ℕ} (h : SameInside n n' d d' wt wt' τ A σ)
    (p : W → Bool) (hp : ∀ w, p w = true → w ≤ τ) {x z' : ℕ} (hx : x ∈ A) :
    Conn ((completeGraph n' d').filter fun e => p e.w) (σ x) z' ↔ ∃ z ∈ A, z' = σ z ∧ Conn ((completeGraph n d).filter fun e => p e.w) x z := by
  constructor
  · intro hc
    obtain ⟨⟨z, hz, rfl⟩, h2⟩ := h.symm.conn p hp ⟨x, hx, rfl⟩ hc
    rw [h.inj.leftInvOn_invFunOn hx, h.inj.leftInvOn_invFunOn hz] at h2
    exact ⟨z, hz, rfl, h2⟩
  · rintro ⟨z, hz, rfl, hc⟩
    exact (h.conn p hp hx hc).2

variable [AddCommMonoid K] [LE K]

theorem SameInside.heavy {n n' : ℕ} {d d' : ℕ → ℕ → W} {wt wt' : ℕ → K} {τ : W} {A : Set ℕ} {σ : ℕ → ℕ} (h : SameInside n n' d d' wt wt' τ A σ)
    (p : W → Bool) (hp : ∀ w, p w = true → w ≤ τ) {θ : K} {x : ℕ} (hx : x ∈ A) :
    HeavyPart n wt θ ((completeGraph n d).filter fun e => p e.w) x ↔ HeavyPart n' wt' θ ((completeGraph n' d').filter fun e => p e.w) (σ x) := by
  classical
  unfold HeavyPart
  refine iff_of_eq (congrArg (θ ≤ ·) (Finset.sum_nbij σ (fun z hz => ?_) (fun z hz z' hz' he => ?_) (fun z' hz' => ?_) fun z hz => ?_))
  · obtain ⟨-, hz⟩ := Finset.mem_filter.1 hz
    obtain ⟨hzA, hc⟩ := h.conn p hp hx hz
    exact Finset.mem_filter.2 ⟨Finset.mem_range.2 (h.range z hzA).2, hc⟩
  · exact h.inj (h.conn p hp hx (Finset.mem_filter.1 hz).2).1 (h.conn p hp hx (Finset.mem_filter.1 hz').2).1 he
  · obtain ⟨-, hz'⟩ := Finset.mem_filter.1 hz'
    obtain ⟨z, hz, rfl, hc⟩ := (h.conn_iff p hp hx).1 hz'
    exact ⟨z, Finset.mem_coe.2 (Finset.mem_filter.2 ⟨Finset.mem_range.2 (h.range z hz).1, hc⟩), rfl⟩
  · exact (h.weight z (h.conn p hp hx (Finset.mem_filter.1 hz).2).1).symm

theorem SameInside.leafGroup {n n' : ℕ} {d d' : ℕ → ℕ → W} {wt wt' : ℕ → K} {τ : W} {A : Set ℕ} {σ : ℕ → ℕ} (h : SameInside n n' d d' wt wt' τ A σ)
    {θ : K} {S : Set ℕ} (hS : S ⊂ A) (hg : LeafGroup n wt θ (completeGraph n d) S) : LeafGroup n' wt' θ (completeGraph n' d') (σ '' S) := by
  obtain ⟨τ0, x, y, hx, hc, hnc, b1, b2, rfl, hin⟩ := hg
  have hxA : x ∈ A := hS.1 (Conn.refl _ _)
  have hle : τ0 ≤ τ := by
    by_contra hlt
    refine hS.2 fun a ha => ?_
    have : ∀ z, Relation.ReflTransGen (fun a b => b ∈ A ∧ d a b ≤ τ) x z → z ∈ A ∧ Conn (below τ0 (completeGraph n d)) x z := by
      intro z hz
      induction hz with
      | refl => exact ⟨hxA, Conn.refl _ _⟩
      | @tail b c _ hs ih =>
        refine ⟨hs.1, ?_⟩
        by_cases hbc : b = c
        · rw [← hbc]; exact ih.2
        · exact ih.2.trans (Conn.edge (e := ⟨b, c, d b c⟩) (mem_below.2 ⟨mem_completeGraph.2 ⟨(h.range _ ih.1).1, (h.range _ hs.1).1, hbc, rfl⟩, hs.2.trans_lt (not_le.1 hlt)⟩))
    exact (this a (h.joined x hxA a ha)).2
  have hpb : ∀ τ' ≤ τ, ∀ w : W, decide (w < τ') = true → w ≤ τ := fun τ' h' w hw => (of_decide_eq_true hw).le.trans h'
  have hpu : ∀ w : W, decide (w ≤ τ0) = true → w ≤ τ := fun w hw => (of_decide_eq_true hw).trans hle
  obtain ⟨hyA, hc'⟩ := h.conn _ hpu hxA hc
  refine ⟨τ0, σ x, σ y, (h.range x hxA).2, hc', fun hno => ?_, (h.heavy _ (hpb τ0 hle) hxA).1 b1, (h.heavy _ (hpb τ0 hle) hyA).1 b2, ?_, ?_⟩
  · obtain ⟨z, hz, he, hcz⟩ := (h.conn_iff _ (hpb τ0 hle) hxA).1 hno
    rw [h.inj hyA hz he] at hnc
    exact hnc hcz
  · ext z'
    constructor
    · rintro ⟨z, hz, rfl⟩
      exact (h.conn _ (hpb τ0 hle) hxA hz).2
    · intro hz'
      obtain ⟨z, -, rfl, hcz⟩ := (h.conn_iff _ (hpb τ0 hle) hxA).1 hz'
      exact ⟨z, hcz, rfl⟩
  · rintro τ' hτ' _ ⟨a, ha, rfl⟩ _ ⟨b, hb, rfl⟩ c1 c2
    have haA := hS.1 ha
    have hbA := hS.1 hb
    have hp := hpb τ' (hτ'.trans hle)
    exact (h.conn _ hp haA (hin τ' hτ' a ha b hb ((h.heavy _ hp haA).2 c1) ((h.heavy _ hp hbA).2 c2))).2

theorem SameInside.leafGroup_iff {n n' : ℕ} {d d' : ℕ → ℕ → W} {wt wt' : ℕ → K} {τ : W} {A : Set ℕ} {σ : ℕ → ℕ} (h : SameInside n n' d d' wt wt' τ A σ)
    {θ : K} {S : Set ℕ} (hS : S ⊂ A) : LeafGroup n wt θ (completeGraph n d) S ↔ LeafGroup n' wt' θ (completeGraph n' d') (σ '' S) := by
  refine ⟨h.leafGroup hS, fun hg => ?_⟩
  have h1 : σ '' S ⊂ σ '' A := by
    refine ⟨Set.image_mono hS.1, fun hsub => hS.2 fun a ha => ?_⟩
    obtain ⟨s, hs, he⟩ := hsub ⟨a, ha, rfl⟩
    rwa [← h.inj (hS.1 hs) ha he]
  have := h.symm.leafGroup h1 hg
  rwa [(h.inj.leftInvOn_invFunOn.mono hS.1).image_image] at this

/-- A leaf group that meets the group lies inside it or contains it. -/
theorem SameInside.inside_or {n n' : ℕ} {d d' : ℕ → ℕ → W} {wt wt' : ℕ → K} {τ : W} {A : Set ℕ} {σ : ℕ → ℕ} (h : SameInside n n' d d' wt wt' τ A σ)
    {θ : K} {S : Set ℕ} (hg : LeafGroup n wt θ (completeGraph n d) S) {x : ℕ} (hx : x ∈ S) (hxA : x ∈ A) : S ⊆ A ∨ A ⊆ S := by
  obtain ⟨τ0, x0, y, -, -, -, -, -, rfl, -⟩ := hg
  by_cases hle : τ0 ≤ τ
  · exact .inl fun z hz => (h.conn (fun w => decide (w < τ0)) (fun w hw => (of_decide_eq_true hw).le.trans hle) hxA ((Conn.symm hx).trans hz)).1
  · refine .inr fun a ha => Conn.trans hx ?_
    have : ∀ z, Relation.ReflTransGen (fun a b => b ∈ A ∧ d a b ≤ τ) x z → z ∈ A ∧ Conn (below τ0 (completeGraph n d)) x z := by
      intro z hz
      induction hz with
      | refl => exact ⟨hxA, Conn.refl _ _⟩
      | @tail b c _ hs ih =>
        refine ⟨hs.1, ?_⟩
        by_cases hbc : b = c
        · rw [← hbc]; exact ih.2
        · exact ih.2.trans (Conn.edge (e := ⟨b, c, d b c⟩) (mem_below.2 ⟨mem_completeGraph.2 ⟨(h.range _ ih.1).1, (h.range _ hs.1).1, hbc, rfl⟩, hs.2.trans_lt (not_le.1 hle)⟩))
    exact (this a (h.joined x hxA a ha)).2

theorem SameInside.share {n n' : ℕ} {d d' : ℕ → ℕ → W} {wt wt' : ℕ → K} {τ : W} {A : Set ℕ} {σ : ℕ → ℕ} (h : SameInside n n' d d' wt wt' τ A σ)
    {θ : K} {lab lab' : List ℤ} (hC : ∀ S, (∃ l ∈ lab, 0 ≤ l ∧ S = {z | lab[z]? = some l}) ↔ LeafGroup n wt θ (completeGraph n d) S)
    (hC' : ∀ S, (∃ l ∈ lab', 0 ≤ l ∧ S = {z | lab'[z]? = some l}) ↔ LeafGroup n' wt' θ (completeGraph n' d') S)
    {l0 : ℤ} (hl0 : l0 ∈ lab) (hsome : {z : ℕ | lab[z]? = some l0} ⊂ A) {x y : ℕ} (hx : x ∈ A)
    (hs : ∃ l, 0 ≤ l ∧ lab[x]? = some l ∧ lab[y]? = some l) : ∃ l, 0 ≤ l ∧ lab'[σ x]? = some l ∧ lab'[σ y]? = some l := by
  obtain ⟨l, hl, hxl, hyl⟩ := hs
  have hg := (hC {z | lab[z]? = some l}).1 ⟨l, List.mem_of_getElem? hxl, hl, rfl⟩
  have hsub : {z : ℕ | lab[z]? = some l} ⊂ A := by
    rcases h.inside_or hg hxl hx with h1 | h1
    · refine ⟨h1, fun h2 => ?_⟩
      obtain ⟨z, hz⟩ := List.mem_iff_getElem?.1 hl0
      have hzl : lab[z]? = some l := h2 (hsome.1 hz)
      obtain rfl := Option.some.inj (hz.symm.trans hzl)
      exact hsome.2 h2
    · obtain ⟨z, hz⟩ := List.mem_iff_getElem?.1 hl0
      have hzl : lab[z]? = some l := h1 (hsome.1 hz)
      obtain rfl := Option.some.inj (hz.symm.trans hzl)
      exact absurd h1 hsome.2
  obtain ⟨l', -, hl', he⟩ := (hC' _).2 (h.leafGroup hsub hg)
  have key : ∀ z ∈ {z : ℕ | lab[z]? = some l}, lab'[σ z]? = some l' := fun z hz => he.subset ⟨z, hz, rfl⟩
  exact ⟨l', hl', key x hxl, key y hyl⟩

end

/-- **C116** (partial): the clusters inside a separated group are the same in every data set in which the group occurs.
Missing: epsilon and persistence, the excess of mass method, infinite edges, and equal edges that join heavy parts. -/
theorem C116_local_partial [Field K] [LinearOrder K] [IsStrictOrderedRing K] [LinearOrder W] [OrderTop W] [Inhabited W] [Inhabited K] {n n' : ℕ} (hn : 2 ≤ n) (hn' : 2 ≤ n')
    {d d' : ℕ → ℕ → W} {wt wt' : ℕ → K} {t t' : List (Edge W)} (hf : MinSpanningForest (completeGraph n d) t) (hf' : MinSpanningForest (completeGraph n' d') t')
    (ht : SpanningTree n t) (ht' : SpanningTree n' t')
    (o : ClusterOpts K) (h1 : 1 < o.minClusterSize) (h0 : ∀ x, x < n → 0 ≤ wt x ∧ wt x < o.minClusterSize) (h0' : ∀ x, x < n' → 0 ≤ wt' x ∧ wt' x < o.minClusterSize)
    (lam : W → K) (hlam : Antitone lam) (hpos : ∀ d, 0 ≤ lam d) (hfin : ∀ e ∈ t, lam e.w ≠ 0) (hfin' : ∀ e ∈ t', lam e.w ≠ 0)
    (hd : UntiedJoins n wt o.minClusterSize (lexsortMst t)) (hd' : UntiedJoins n' wt' o.minClusterSize (lexsortMst t'))
    (hleaf : o.method = .leaf) (hper : o.persistence ≤ 0) (heps : o.epsilon ≤ 0)
    {r r' : ClusterResult W K} (hr : clustersFromMst lam wt o t = some r) (hr' : clustersFromMst lam wt' o t' = some r')
    {τ : W} {A : Set ℕ} {σ : ℕ → ℕ} (h : SameInside n n' d d' wt wt' τ A σ) (S : Set ℕ) (hS : S ⊂ A) :
    (∃ l ∈ r.labels, 0 ≤ l ∧ S = {z | r.labels[z]? = some l}) ↔ ∃ l ∈ r'.labels, 0 ≤ l ∧ σ '' S = {z | r'.labels[z]? = some l} := by
  rw [C115_leaf_groups_partial n hn wt _ t hf ht o h1 (fun x hx => (h0 x hx).1) (fun x hx => (h0 x hx).2) lam hlam hpos hfin hd hleaf hper heps r hr S,
    C115_leaf_groups_partial n' hn' wt' _ t' hf' ht' o h1 (fun x hx => (h0' x hx).1) (fun x hx => (h0' x hx).2) lam hlam hpos hfin' hd' hleaf hper heps r' hr' (σ '' S)]
  exact h.leafGroup_iff hS

/-- **C116** (partial), for pairs of rows: if a cluster lies strictly inside the group, two rows of the group share a cluster in one data set exactly if they share one in the
other; taking a row twice, it is noise in one exactly if it is noise in the other. -/
theorem C116_share_partial [Field K] [LinearOrder K] [IsStrictOrderedRing K] [LinearOrder W] [OrderTop W] [Inhabited W] [Inhabited K] {n n' : ℕ} (hn : 2 ≤ n) (hn' : 2 ≤ n')
    {d d' : ℕ → ℕ → W} {wt wt' : ℕ → K} {t t' : List (Edge W)} (hf : MinSpanningForest (completeGraph n d) t) (hf' : MinSpanningForest (completeGraph n' d') t')
    (ht : SpanningTree n t) (ht' : SpanningTree n' t')
    (o : ClusterOpts K) (h1 : 1 < o.minClusterSize) (h0 : ∀ x, x < n → 0 ≤ wt x ∧ wt x < o.minClusterSize) (h0' : ∀ x, x < n' → 0 ≤ wt' x ∧ wt' x < o.minClusterSize)
    (lam : W → K) (hlam : Antitone lam) (hpos : ∀ d, 0 ≤ lam d) (hfin : ∀ e ∈ t, lam e.w ≠ 0) (hfin' : ∀ e ∈ t', lam e.w ≠ 0)
    (hd : UntiedJoins n wt o.minClusterSize (lexsortMst t)) (hd' : UntiedJoins n' wt' o.minClusterSize (lexsortMst t'))
    (hleaf : o.method = .leaf) (hper : o.persistence ≤ 0) (heps : o.epsilon ≤ 0)
    {r r' : ClusterResult W K} (hr : clustersFromMst lam wt o t = some r) (hr' : clustersFromMst lam wt' o t' = some r')
    {τ : W} {A : Set ℕ} {σ : ℕ → ℕ} (h : SameInside n n' d d' wt wt' τ A σ) (hsome : ∃ l ∈ r.labels, 0 ≤ l ∧ {z : ℕ | r.labels[z]? = some l} ⊂ A)
    (x y : ℕ) (hx : x ∈ A) (hy : y ∈ A) :
    (∃ l, 0 ≤ l ∧ r.labels[x]? = some l ∧ r.labels[y]? = some l) ↔ ∃ l, 0 ≤ l ∧ r'.labels[σ x]? = some l ∧ r'.labels[σ y]? = some l := by
  have hC := C115_leaf_groups_partial n hn wt _ t hf ht o h1 (fun x hx => (h0 x hx).1) (fun x hx => (h0 x hx).2) lam hlam hpos hfin hd hleaf hper heps r hr
  have hC' := C115_leaf_groups_partial n' hn' wt' _ t' hf' ht' o h1 (fun x hx => (h0' x hx).1) (fun x hx => (h0' x hx).2) lam hlam hpos hfin' hd' hleaf hper heps r' hr'
  obtain ⟨l0, hl0, hl0', hsub⟩ := hsome
  refine ⟨h.share hC hC' hl0 hsub hx, fun hs => ?_⟩
  obtain ⟨l1, hl1, -, he⟩ := (hC' _).2 (h.leafGroup hsub ((hC _).1 ⟨l0, hl0, hl0', rfl⟩))
  have hsub' : {z : ℕ | r'.labels[z]? = some l1} ⊂ σ '' A := by
    rw [← he]
    refine ⟨Set.image_mono hsub.1, fun hno => hsub.2 fun a ha => ?_⟩
    obtain ⟨s, hs, he⟩ := hno ⟨a, ha, rfl⟩
    rwa [← h.inj (hsub.1 hs) ha he]
  have := h.symm.share hC' hC hl1 hsub' (x := σ x) (y := σ y) ⟨x, hx, rfl⟩ hs
  rwa [h.inj.leftInvOn_invFunOn hx, h.inj.leftInvOn_invFunOn hy] at this

/-! ## A case -/

/-- Distances of points on a line. -/
def exLine (p : List ℚ) (i j : ℕ) : WithTop ℚ := ((|p.getD i 0 - p.getD j 0| : ℚ) : WithTop ℚ)

theorem exLine_comm (p : List ℚ) (i j : ℕ) : exLine p i j = exLine p j i := by
  unfold exLine
  rw [abs_sub_comm]

/-- The lengths the code uses without core distances. -/
def exReach (p : List ℚ) (n i j : ℕ) : WithTop ℚ := max (max (exLine p i j) (bruteCore n 1 (exLine p) i)) (bruteCore n 1 (exLine p) j)

/-- Four points and a pair far away. -/
def exHere : List ℚ := [0, 1, 6, 8, 100, 103]

/-- The same four points, at other places of the data, and three others. -/
def exThere : List ℚ := [500, 0, 1, 6, 8, 507, 530]

theorem exLocal : SameInside 6 7 (exReach exHere 6) (exReach exThere 7) (fun _ => (1 : ℚ)) (fun _ => (1 : ℚ)) ((5 : ℚ) : WithTop ℚ) {x | x < 4} (fun x => x + 1) := by
  have himg : ∀ y, y ∉ (fun x => x + 1) '' {x : ℕ | x < 4} → y = 0 ∨ 5 ≤ y := by
    intro y hy
    by_contra hno
    exact hy ⟨y - 1, by simp only [Set.mem_setOf_eq]; omega, by dsimp only; omega⟩
  have hstep : ∀ a, a < 3 → exReach exHere 6 a (a + 1) ≤ ((5 : ℚ) : WithTop ℚ) ∧ exReach exHere 6 (a + 1) a ≤ ((5 : ℚ) : WithTop ℚ) := by decide +kernel
  have hup : ∀ a, a < 4 → Relation.ReflTransGen (fun a b => b ∈ {x : ℕ | x < 4} ∧ exReach exHere 6 a b ≤ ((5 : ℚ) : WithTop ℚ)) 0 a := by
    intro a
    induction a with
    | zero => exact fun _ => .refl
    | succ a ih => exact fun h => (ih (by omega)).tail ⟨h, (hstep a (by omega)).1⟩
  have hdown : ∀ a, a < 4 → Relation.ReflTransGen (fun a b => b ∈ {x : ℕ | x < 4} ∧ exReach exHere 6 a b ≤ ((5 : ℚ) : WithTop ℚ)) a 0 := by
    intro a
    induction a with
    | zero => exact fun _ => .refl
    | succ a ih => exact fun h => .head ⟨by simp only [Set.mem_setOf_eq]; omega, (hstep a (by omega)).2⟩ (ih (by omega))
  have e1 : ∀ x < 4, ∀ y < 4, exReach exThere 7 (x + 1) (y + 1) = exReach exHere 6 x y := by decide +kernel
  have e2 : ∀ x < 4, ∀ y < 6, 4 ≤ y → ((5 : ℚ) : WithTop ℚ) < exReach exHere 6 x y ∧ ((5 : ℚ) : WithTop ℚ) < exReach exHere 6 y x := by decide +kernel
  have e3 : ∀ x < 4, ∀ y < 7, y = 0 ∨ 5 ≤ y → ((5 : ℚ) : WithTop ℚ) < exReach exThere 7 (x + 1) y ∧ ((5 : ℚ) : WithTop ℚ) < exReach exThere 7 y (x + 1) := by decide +kernel
  refine ⟨fun x hx => ?_, fun x _ y _ he => by simpa using he, fun x hx y hy => e1 x hx y hy, fun _ _ => rfl, fun x hx y hy => (hdown x hx).trans (hup y hy), fun x hx y hy hno => ?_, fun x hx y hy hno => ?_⟩
  · simp only [Set.mem_setOf_eq] at hx
    omega
  · exact e2 x hx y hy (not_lt.1 hno)
  · exact e3 x hx y hy (himg y hno)

example : ∃ r r', clustersFromMst lamq (fun _ => 1) ⟨2, .leaf, none, false, 0, 0⟩ (kruskalBrute 6 1 (exLine exHere) CLParams.none) = some r ∧
    clustersFromMst lamq (fun _ => 1) ⟨2, .leaf, none, false, 0, 0⟩ (kruskalBrute 7 1 (exLine exThere) CLParams.none) = some r' ∧
    r.labels = [2, 2, 1, 1, 0, 0] ∧ r'.labels = [0, 2, 2, 1, 1, 0, 0] ∧
    ∀ x y, x < 4 → y < 4 → ((∃ l, 0 ≤ l ∧ r.labels[x]? = some l ∧ r.labels[y]? = some l) ↔ ∃ l, 0 ≤ l ∧ r'.labels[x + 1]? = some l ∧ r'.labels[y + 1]? = some l) := by
  have e1 : (clustersFromMst lamq (fun _ => 1) ⟨2, .leaf, none, false, 0, 0⟩ (kruskalBrute 6 1 (exLine exHere) CLParams.none)).map ClusterResult.labels =
    some [2, 2, 1, 1, 0, 0] := by decide +kernel
  have e2 : (clustersFromMst lamq (fun _ => 1) ⟨2, .leaf, none, false, 0, 0⟩ (kruskalBrute 7 1 (exLine exThere) CLParams.none)).map ClusterResult.labels =
    some [0, 2, 2, 1, 1, 0, 0] := by decide +kernel
  obtain ⟨r, hr, e1⟩ := Option.map_eq_some_iff.1 e1
  obtain ⟨r', hr', e2⟩ := Option.map_eq_some_iff.1 e2
  obtain ⟨s1, s2⟩ := kruskalBrute_msf (n := 6) (ms := 1) (by decide) (exLine_comm exHere)
  obtain ⟨s1', s2'⟩ := kruskalBrute_msf (n := 7) (ms := 1) (by decide) (exLine_comm exThere)
  refine ⟨r, r', hr, hr', e1, e2, fun x y hx hy => ?_⟩
  refine C116_share_partial (by decide) (by decide) s2 s2' s1 s1' _ (by norm_num) (fun _ _ => by norm_num) (fun _ _ => by norm_num)
    lamq lamq_antitone lamq_nonneg (by decide +kernel) (by decide +kernel) (untied_of_nodup (by decide +kernel)) (untied_of_nodup (by decide +kernel)) rfl le_rfl le_rfl hr hr' exLocal ⟨2, by rw [e1]; decide, by decide, ?_⟩ x y hx hy
  rw [e1]
  have key : ∀ z : ℕ, ([2, 2, 1, 1, 0, 0] : List ℤ)[z]? = some 2 → z < 2 := by
    intro z hz
    have hz6 : z < 6 := (List.getElem?_eq_some_iff.1 hz).1
    interval_cases z <;> first | decide | exact absurd hz (by decide)
  refine ⟨fun z hz => ?_, fun hno => ?_⟩
  · have := key z hz
    simp only [Set.mem_setOf_eq]
    omega
  · have := key 3 (hno (by simp))
    omega

/-! ## The excess of mass method -/

/-- Two pairs, and a third one nearby. -/
def exNearby : List ℚ := [0, 3 / 2, 7 / 2, 51 / 10, 76 / 10, 86 / 10]

/-- The third pair is farther away. -/
def exAway : List ℚ := [0, 3 / 2, 7 / 2, 51 / 10, 100, 101]

theorem exLocalEom : SameInside 6 6 (exReach exNearby 6) (exReach exAway 6) (fun _ => (1 : ℚ)) (fun _ => (1 : ℚ)) ((2 : ℚ) : WithTop ℚ) {x | x < 4} (fun x => x) := by
  have hstep : ∀ a, a < 3 → exReach exNearby 6 a (a + 1) ≤ ((2 : ℚ) : WithTop ℚ) ∧ exReach exNearby 6 (a + 1) a ≤ ((2 : ℚ) : WithTop ℚ) := by decide +kernel
  have hup : ∀ a, a < 4 → Relation.ReflTransGen (fun a b => b ∈ {x : ℕ | x < 4} ∧ exReach exNearby 6 a b ≤ ((2 : ℚ) : WithTop ℚ)) 0 a := by
    intro a
    induction a with
    | zero => exact fun _ => .refl
    | succ a ih => exact fun h => (ih (by omega)).tail ⟨h, (hstep a (by omega)).1⟩
  have hdown : ∀ a, a < 4 → Relation.ReflTransGen (fun a b => b ∈ {x : ℕ | x < 4} ∧ exReach exNearby 6 a b ≤ ((2 : ℚ) : WithTop ℚ)) a 0 := by
    intro a
    induction a with
    | zero => exact fun _ => .refl
    | succ a ih => exact fun h => .head ⟨by simp only [Set.mem_setOf_eq]; omega, (hstep a (by omega)).2⟩ (ih (by omega))
  have e1 : ∀ x < 4, ∀ y < 4, exReach exAway 6 x y = exReach exNearby 6 x y := by decide +kernel
  have e2 : ∀ x < 4, ∀ y < 6, 4 ≤ y → (((2 : ℚ) : WithTop ℚ) < exReach exNearby 6 x y ∧ ((2 : ℚ) : WithTop ℚ) < exReach exNearby 6 y x) ∧
    ((2 : ℚ) : WithTop ℚ) < exReach exAway 6 x y ∧ ((2 : ℚ) : WithTop ℚ) < exReach exAway 6 y x := by decide +kernel
  refine ⟨fun x hx => ?_, fun x _ y _ he => he, fun x hx y hy => e1 x hx y hy, fun _ _ => rfl, fun x hx y hy => (hdown x hx).trans (hup y hy),
    fun x hx y hy hno => (e2 x hx y hy (not_lt.1 hno)).1, fun x hx y hy hno => (e2 x hx y hy (not_lt.1 fun h => hno ⟨y, h, rfl⟩)).2⟩
  simp only [Set.mem_setOf_eq] at hx
  omega

/-- With the excess of mass method the clusters inside a separated group do depend on the rows outside: if the third pair is moved away, the two pairs become one cluster. -/
theorem C116_eom : SameInside 6 6 (exReach exNearby 6) (exReach exAway 6) (fun _ => (1 : ℚ)) (fun _ => (1 : ℚ)) ((2 : ℚ) : WithTop ℚ) {x | x < 4} (fun x => x) ∧
    (clustersFromMst lamq (fun _ => 1) ⟨2, .eom, none, false, 0, 0⟩ (kruskalBrute 6 1 (exLine exNearby) CLParams.none)).map ClusterResult.labels = some [2, 2, 1, 1, 0, 0] ∧
    (clustersFromMst lamq (fun _ => 1) ⟨2, .eom, none, false, 0, 0⟩ (kruskalBrute 6 1 (exLine exAway) CLParams.none)).map ClusterResult.labels = some [0, 0, 0, 0, 1, 1] :=
  ⟨exLocalEom, by decide +kernel, by decide +kernel⟩

end Verif
