import Verif.Spec.Copies
import Verif.Props.Local

/-!
# C117: a sample weight counts as that many copies of the row
-/

namespace Verif
variable {W K : Type*}

section
variable [LinearOrder W] [Field K] [LinearOrder K] [IsStrictOrderedRing K] {n N : ℕ} {d d' : ℕ → ℕ → W} {wt : ℕ → K} {π : ℕ → ℕ}

/-- What joins two copies joins the rows. -/
theorem Copies.down (h : Copies n N d d' wt π) (p : W → Bool) {a b : ℕ} (hc : Conn ((completeGraph N d').filter fun e => p e.w) a b) :
    Conn ((completeGraph n d).filter fun e => p e.w) (π a) (π b) := by
  induction hc with
  | refl => exact Conn.refl _ _
  | @tail b c _ hs ih =>
    refine ih.trans ?_
    obtain ⟨e, he, hends⟩ := hs
    obtain ⟨hm, hpe⟩ := List.mem_filter.1 he
    obtain ⟨e1, e2, e3, e4⟩ := mem_completeGraph.1 hm
    have key : Conn ((completeGraph n d).filter fun e => p e.w) (π e.u) (π e.v) := by
      by_cases hπ : π e.u = π e.v
      · rw [hπ]; exact Conn.refl _ _
      · exact Conn.edge (e := ⟨π e.u, π e.v, e.w⟩) (List.mem_filter.2 ⟨mem_completeGraph.2 ⟨h.range _ e1, h.range _ e2, hπ, e4.trans (h.dist _ _ e1 e2 hπ)⟩, hpe⟩)
    rcases hends with ⟨rfl, rfl⟩ | ⟨rfl, rfl⟩
    · exact key
    · exact key.symm

/-- What joins two rows joins all their copies. -/
theorem Copies.up (h : Copies n N d d' wt π) (p : W → Bool) {x y : ℕ} (hc : Conn ((completeGraph n d).filter fun e => p e.w) x y) {a : ℕ} (ha : a < N) (hx : π a = x) :
    x = y ∨ ∀ b, b < N → π b = y → Conn ((completeGraph N d').filter fun e => p e.w) a b := by
  induction hc with
  | refl => exact .inl rfl
  | @tail z y _ hs ih =>
    refine .inr fun b hb hy => ?_
    obtain ⟨e, he, hends⟩ := hs
    obtain ⟨hm, hpe⟩ := List.mem_filter.1 he
    obtain ⟨e1, e2, e3, e4⟩ := mem_completeGraph.1 hm
    obtain ⟨c, hcN, hcz, hac⟩ : ∃ c, c < N ∧ π c = z ∧ Conn ((completeGraph N d').filter fun e => p e.w) a c := by
      rcases ih with rfl | hall
      · exact ⟨a, ha, hx, Conn.refl _ _⟩
      · have hz : z < n := by
          rcases hends with ⟨rfl, -⟩ | ⟨-, rfl⟩
          · exact e1
          · exact e2
        obtain ⟨c, hc, hcz⟩ := h.onto z hz
        exact ⟨c, hc, hcz, hall c hc hcz⟩
    refine hac.trans ?_
    have hne : ∀ {u v : ℕ}, u ≠ v → ∀ {c b : ℕ}, π c = u → π b = v → c ≠ b := fun huv c b hc hb hcb => huv (by rw [← hc, ← hb, hcb])
    rcases hends with ⟨rfl, rfl⟩ | ⟨rfl, rfl⟩
    · exact Conn.edge (e := ⟨c, b, e.w⟩) (List.mem_filter.2 ⟨mem_completeGraph.2 ⟨hcN, hb, hne e3 hcz hy, by
        rw [e4, h.dist c b hcN hb (by rw [hcz, hy]; exact e3), hcz, hy]⟩, hpe⟩)
    · exact (Conn.edge (e := ⟨b, c, e.w⟩) (List.mem_filter.2 ⟨mem_completeGraph.2 ⟨hb, hcN, hne e3 hy hcz, by
        rw [e4, h.dist b c hb hcN (by rw [hcz, hy]; exact e3), hcz, hy]⟩, hpe⟩)).symm

theorem stays_inRange {m : ℕ} {es : List (Edge W)} (hr : InRange m es) {x y : ℕ} (h : Conn es x y) (hx : x < m) : y < m := by
  rcases h.inRange hr with rfl | h
  · exact hx
  · exact h.2

theorem filter_inRange {m : ℕ} {D : ℕ → ℕ → W} (p : W → Bool) : InRange m ((completeGraph m D).filter fun e => p e.w) := fun e he => by
  obtain ⟨e1, e2, -⟩ := mem_completeGraph.1 (List.mem_filter.1 he).1
  exact ⟨e1, e2⟩

/-- A row joined with another one: all copies are joined with whatever the row is joined with. -/
theorem Copies.up_all (h : Copies n N d d' wt π) (p : W → Bool) {x y z : ℕ} (hxz : x ≠ z) (hz : Conn ((completeGraph n d).filter fun e => p e.w) x z)
    (hc : Conn ((completeGraph n d).filter fun e => p e.w) x y) {a b : ℕ} (ha : a < N) (hx : π a = x) (hb : b < N) (hy : π b = y) :
    Conn ((completeGraph N d').filter fun e => p e.w) a b := by
  rcases h.up p hc ha hx with rfl | hall
  · have hzn : z < n := stays_inRange (filter_inRange p) hz (hx ▸ h.range a ha)
    obtain ⟨c, hcN, hcz⟩ := h.onto z hzn
    have h1 := (h.up p hz ha hx).resolve_left hxz c hcN hcz
    have h2 := (h.up p hz hb hy).resolve_left hxz c hcN hcz
    exact h1.trans h2.symm
  · exact hall b hb hy

/-- A heavy row is joined with another one, since no row is heavy alone. -/
theorem heavy_other (p : W → Bool) {θ : K} (hl : ∀ x, x < n → wt x < θ) (hθ : 0 < θ) {x : ℕ} (hh : HeavyPart n wt θ ((completeGraph n d).filter fun e => p e.w) x) :
    ∃ z, x ≠ z ∧ Conn ((completeGraph n d).filter fun e => p e.w) x z := by
  classical
  by_contra hno
  push Not at hno
  unfold HeavyPart at hh
  by_cases hx : x < n
  · have : (Finset.range n).filter (fun y => Conn ((completeGraph n d).filter fun e => p e.w) x y) = {x} := by
      ext y
      rw [Finset.mem_filter, Finset.mem_range, Finset.mem_singleton]
      constructor
      · rintro ⟨-, hc⟩
        by_contra hne
        exact hno y (Ne.symm hne) hc
      · rintro rfl
        exact ⟨hx, Conn.refl _ _⟩
    rw [this, Finset.sum_singleton] at hh
    exact absurd (hl x hx) (not_lt.2 hh)
  · have : (Finset.range n).filter (fun y => Conn ((completeGraph n d).filter fun e => p e.w) x y) = ∅ := by
      refine Finset.filter_eq_empty_iff.2 fun y hy hc => ?_
      by_cases hxy : x = y
      · exact hx (hxy ▸ Finset.mem_range.1 hy)
      · exact hno y hxy hc
    rw [this, Finset.sum_empty] at hh
    exact absurd hθ (not_lt.2 hh)

theorem Copies.weight_eq (h : Copies n N d d' wt π) (s : Finset ℕ) (hs : ∀ x ∈ s, x < n) :
    ∑ x ∈ s, wt x = ∑ a ∈ (Finset.range N).filter fun a => π a ∈ s, (1 : K) := by
  classical
  rw [Finset.sum_congr rfl fun x hx => h.count x (hs x hx)]
  rw [Finset.sum_const, nsmul_eq_mul, mul_one, ← Nat.cast_sum]
  congr 1
  refine Eq.trans ?_ (Finset.card_eq_sum_card_fiberwise (f := π) (s := (Finset.range N).filter fun a => π a ∈ s) (t := s) fun a ha => ?_).symm
  swap
  · exact (Finset.mem_filter.1 (Finset.mem_coe.1 ha)).2
  refine Finset.sum_congr rfl fun x hx => ?_
  congr 1
  ext a
  simp only [Finset.mem_filter, Finset.mem_range]
  constructor
  · rintro ⟨h1, rfl⟩
    exact ⟨⟨h1, hx⟩, rfl⟩
  · rintro ⟨⟨h1, -⟩, h2⟩
    exact ⟨h1, h2⟩

/-- A copy is in a heavy part exactly if the row is. -/
theorem Copies.heavy (h : Copies n N d d' wt π) (p : W → Bool) {θ : K} (hl : ∀ x, x < n → wt x < θ) (hθ : 0 < θ) {a : ℕ} (ha : a < N) :
    HeavyPart N (fun _ => (1 : K)) θ ((completeGraph N d').filter fun e => p e.w) a ↔ HeavyPart n wt θ ((completeGraph n d).filter fun e => p e.w) (π a) := by
  classical
  by_cases hz : ∃ z, π a ≠ z ∧ Conn ((completeGraph n d).filter fun e => p e.w) (π a) z
  · obtain ⟨z, hne, hz⟩ := hz
    unfold HeavyPart
    rw [h.weight_eq _ fun x hx => Finset.mem_range.1 (Finset.mem_filter.1 hx).1]
    refine iff_of_eq (congrArg (θ ≤ ·) (Finset.sum_congr (Finset.ext fun b => ?_) fun _ _ => rfl))
    simp only [Finset.mem_filter, Finset.mem_range]
    constructor
    · rintro ⟨hb, hc⟩
      exact ⟨hb, h.range b hb, h.down p hc⟩
    · rintro ⟨hb, -, hc⟩
      exact ⟨hb, h.up_all p hne hz hc ha rfl hb rfl⟩
  · refine iff_of_false (fun hh => ?_) fun hh => hz (heavy_other p hl hθ hh)
    unfold HeavyPart at hh
    refine absurd (hh.trans ?_) (not_le.2 (hl (π a) (h.range a ha)))
    have := h.weight_eq {π a} fun x hx => by rw [Finset.mem_singleton.1 hx]; exact h.range a ha
    rw [Finset.sum_singleton] at this
    rw [this]
    refine Finset.sum_le_sum_of_subset_of_nonneg (fun b hb => ?_) fun _ _ _ => zero_le_one
    rw [Finset.mem_filter] at hb ⊢
    refine ⟨hb.1, Finset.mem_singleton.2 ?_⟩
    by_contra hne
    exact hz ⟨π b, Ne.symm hne, h.down p hb.2⟩

/-- The leaf groups of the copies are the copies of the leaf groups. -/
theorem Copies.leafGroup (h : Copies n N d d' wt π) {θ : K} (hl : ∀ x, x < n → wt x < θ) (hθ : 0 < θ) {S : Set ℕ} (hg : LeafGroup n wt θ (completeGraph n d) S) :
    LeafGroup N (fun _ => (1 : K)) θ (completeGraph N d') {a | a < N ∧ π a ∈ S} := by
  obtain ⟨τ, x, y, hx, hc, hnc, b1, b2, rfl, hin⟩ := hg
  have hy : y < n := stays_inRange (filter_inRange fun w => decide (w ≤ τ)) hc hx
  obtain ⟨a, ha, rfl⟩ := h.onto x hx
  obtain ⟨b, hb, rfl⟩ := h.onto y hy
  have hne : π a ≠ π b := fun he => hnc (he ▸ Conn.refl _ _)
  have hjoin : ∀ τ', ∀ {u v}, u < N → v < N → HeavyPart n wt θ (below τ' (completeGraph n d)) (π u) → Conn (below τ' (completeGraph n d)) (π u) (π v) →
      Conn (below τ' (completeGraph N d')) u v := by
    intro τ' u v hu hv hh hc
    obtain ⟨z, hz, hcz⟩ := heavy_other (fun w => decide (w < τ')) hl hθ hh
    exact h.up_all (fun w => decide (w < τ')) hz hcz hc hu rfl hv rfl
  refine ⟨τ, a, b, ha, (h.up (fun w => decide (w ≤ τ)) hc ha rfl).resolve_left hne b hb rfl, fun hno => hnc (h.down (fun w => decide (w < τ)) hno),
    (h.heavy (fun w => decide (w < τ)) hl hθ ha).2 b1, (h.heavy (fun w => decide (w < τ)) hl hθ hb).2 b2, ?_, ?_⟩
  · ext c
    constructor
    · rintro ⟨hcN, hcS⟩
      exact hjoin τ ha hcN b1 hcS
    · intro hac
      exact ⟨stays_inRange (filter_inRange fun w => decide (w < τ)) hac ha, h.down (fun w => decide (w < τ)) hac⟩
  · rintro τ' hτ' u ⟨hu, huS⟩ v ⟨hv, hvS⟩ c1 c2
    have c1 := (h.heavy (fun w => decide (w < τ')) hl hθ hu).1 c1
    have c2 := (h.heavy (fun w => decide (w < τ')) hl hθ hv).1 c2
    exact hjoin τ' hu hv c1 (hin τ' hτ' _ huS _ hvS c1 c2)

theorem Copies.leafGroup_inv (h : Copies n N d d' wt π) {θ : K} (hl : ∀ x, x < n → wt x < θ) (hθ : 0 < θ) {T : Set ℕ}
    (hg : LeafGroup N (fun _ => (1 : K)) θ (completeGraph N d') T) : LeafGroup n wt θ (completeGraph n d) (π '' T) := by
  obtain ⟨τ, a, b, ha, hc, hnc, b1, b2, rfl, hin⟩ := hg
  have hb : b < N := stays_inRange (filter_inRange fun w => decide (w ≤ τ)) hc ha
  have hjoin : ∀ τ', ∀ {u v}, u < N → v < N → HeavyPart n wt θ (below τ' (completeGraph n d)) (π u) → Conn (below τ' (completeGraph n d)) (π u) (π v) →
      Conn (below τ' (completeGraph N d')) u v := by
    intro τ' u v hu hv hh hc
    obtain ⟨z, hz, hcz⟩ := heavy_other (fun w => decide (w < τ')) hl hθ hh
    exact h.up_all (fun w => decide (w < τ')) hz hcz hc hu rfl hv rfl
  have b1 := (h.heavy (fun w => decide (w < τ)) hl hθ ha).1 b1
  have b2 := (h.heavy (fun w => decide (w < τ)) hl hθ hb).1 b2
  refine ⟨τ, π a, π b, h.range a ha, h.down (fun w => decide (w ≤ τ)) hc, fun hno => hnc (hjoin τ ha hb b1 hno), b1, b2, ?_, ?_⟩
  · ext z
    constructor
    · rintro ⟨c, hac, rfl⟩
      exact h.down (fun w => decide (w < τ)) hac
    · intro hz
      obtain ⟨c, hcN, rfl⟩ := h.onto z (stays_inRange (filter_inRange fun w => decide (w < τ)) hz (h.range a ha))
      exact ⟨c, hjoin τ ha hcN b1 hz, rfl⟩
  · rintro τ' hτ' _ ⟨u, hu, rfl⟩ _ ⟨v, hv, rfl⟩ c1 c2
    have huN : u < N := stays_inRange (filter_inRange fun w => decide (w < τ)) hu ha
    have hvN : v < N := stays_inRange (filter_inRange fun w => decide (w < τ)) hv ha
    exact h.down (fun w => decide (w < τ')) (hin τ' hτ' u hu v hv ((h.heavy (fun w => decide (w < τ')) hl hθ huN).2 c1) ((h.heavy (fun w => decide (w < τ')) hl hθ hvN).2 c2))

end

/-- **C117** (partial): two copies share a cluster exactly if their rows share one; taking a copy twice, it is noise exactly if the row is.
Missing: epsilon and persistence, the excess of mass method, infinite edges, equal edges that join heavy parts, rows that alone weigh `min_cluster_size`. -/
theorem C117_copies_partial [Field K] [LinearOrder K] [IsStrictOrderedRing K] [LinearOrder W] [OrderTop W] [Inhabited W] [Inhabited K] {n N : ℕ} (hn : 2 ≤ n) (hN : 2 ≤ N)
    {d d' : ℕ → ℕ → W} {wt : ℕ → K} {t t' : List (Edge W)} (hf : MinSpanningForest (completeGraph n d) t) (hf' : MinSpanningForest (completeGraph N d') t')
    (ht : SpanningTree n t) (ht' : SpanningTree N t')
    (o : ClusterOpts K) (h1 : 1 < o.minClusterSize) (h0 : ∀ x, x < n → wt x < o.minClusterSize)
    (lam : W → K) (hlam : Antitone lam) (hpos : ∀ d, 0 ≤ lam d) (hfin : ∀ e ∈ t, lam e.w ≠ 0) (hfin' : ∀ e ∈ t', lam e.w ≠ 0)
    (hd : UntiedJoins n wt o.minClusterSize (lexsortMst t)) (hd' : UntiedJoins N (fun _ => (1 : K)) o.minClusterSize (lexsortMst t'))
    (hleaf : o.method = .leaf) (hper : o.persistence ≤ 0) (heps : o.epsilon ≤ 0)
    {r r' : ClusterResult W K} (hr : clustersFromMst lam wt o t = some r) (hr' : clustersFromMst lam (fun _ => 1) o t' = some r')
    {π : ℕ → ℕ} (h : Copies n N d d' wt π) (a b : ℕ) (ha : a < N) (hb : b < N) :
    (∃ l, 0 ≤ l ∧ r.labels[π a]? = some l ∧ r.labels[π b]? = some l) ↔ ∃ l, 0 ≤ l ∧ r'.labels[a]? = some l ∧ r'.labels[b]? = some l := by
  have hw0 : ∀ x, x < n → 0 ≤ wt x := fun x hx => by rw [h.count x hx]; exact Nat.cast_nonneg _
  have hC := C115_leaf_groups_partial n hn wt _ t hf ht o h1 hw0 h0 lam hlam hpos hfin hd hleaf hper heps r hr
  have hC' := C115_leaf_groups_partial N hN (fun _ => 1) _ t' hf' ht' o h1 (fun _ _ => zero_le_one) (fun _ _ => h1) lam hlam hpos hfin' hd' hleaf hper heps r' hr'
  have hθ : 0 < o.minClusterSize := zero_lt_one.trans h1
  constructor
  · rintro ⟨l, hl, hla, hlb⟩
    obtain ⟨l', -, hl', he⟩ := (hC' _).2 (h.leafGroup h0 hθ ((hC _).1 ⟨l, List.mem_of_getElem? hla, hl, rfl⟩))
    exact ⟨l', hl', he.subset ⟨ha, hla⟩, he.subset ⟨hb, hlb⟩⟩
  · rintro ⟨l, hl, hla, hlb⟩
    obtain ⟨l', -, hl', he⟩ := (hC _).2 (h.leafGroup_inv h0 hθ ((hC' _).1 ⟨l, List.mem_of_getElem? hla, hl, rfl⟩))
    exact ⟨l', hl', he.subset ⟨a, hla, rfl⟩, he.subset ⟨b, hlb, rfl⟩⟩

/-! ## A case -/

/-- Five rows on a line; the first has weight 2. -/
def exWeighted : List ℚ := [0, 1, 6, 8, 11]

/-- The same with the first row written twice. -/
def exTwice : List ℚ := [0, 0, 1, 6, 8, 11]

/-- The weights. -/
def exWt (x : ℕ) : ℚ := if x = 0 then 2 else 1

theorem exCopies : Copies 5 6 (exReach exWeighted 5) (exReach exTwice 6) exWt fun a => a - 1 := by
  refine ⟨fun a ha => by omega, fun x hx => ⟨x + 1, by omega, by omega⟩, ?_, ?_⟩
  · decide +kernel
  · have key : ∀ a < 6, ∀ b < 6, a - 1 ≠ b - 1 → exReach exTwice 6 a b = exReach exWeighted 5 (a - 1) (b - 1) := by decide +kernel
    exact fun a b ha hb => key a ha b hb

example : ∃ r r', clustersFromMst lamq exWt ⟨3, .leaf, none, false, 0, 0⟩ (kruskalBrute 5 1 (exLine exWeighted) CLParams.none) = some r ∧
    clustersFromMst lamq (fun _ => 1) ⟨3, .leaf, none, false, 0, 0⟩ (kruskalBrute 6 1 (exLine exTwice) CLParams.none) = some r' ∧
    r.labels = [1, 1, 0, 0, 0] ∧ r'.labels = [1, 1, 1, 0, 0, 0] ∧
    ∀ a b, a < 6 → b < 6 → ((∃ l, 0 ≤ l ∧ r.labels[a - 1]? = some l ∧ r.labels[b - 1]? = some l) ↔ ∃ l, 0 ≤ l ∧ r'.labels[a]? = some l ∧ r'.labels[b]? = some l) := by
  have e1 : (clustersFromMst lamq exWt ⟨3, .leaf, none, false, 0, 0⟩ (kruskalBrute 5 1 (exLine exWeighted) CLParams.none)).map ClusterResult.labels =
    some [1, 1, 0, 0, 0] := by decide +kernel
  have e2 : (clustersFromMst lamq (fun _ => 1) ⟨3, .leaf, none, false, 0, 0⟩ (kruskalBrute 6 1 (exLine exTwice) CLParams.none)).map ClusterResult.labels =
    some [1, 1, 1, 0, 0, 0] := by decide +kernel
  obtain ⟨r, hr, e1⟩ := Option.map_eq_some_iff.1 e1
  obtain ⟨r', hr', e2⟩ := Option.map_eq_some_iff.1 e2
  obtain ⟨s1, s2⟩ := kruskalBrute_msf (n := 5) (ms := 1) (by decide) (exLine_comm exWeighted)
  obtain ⟨s1', s2'⟩ := kruskalBrute_msf (n := 6) (ms := 1) (by decide) (exLine_comm exTwice)
  exact ⟨r, r', hr, hr', e1, e2, fun a b ha hb => C117_copies_partial (by decide) (by decide) s2 s2' s1 s1' _ (by norm_num) (by decide +kernel)
    lamq lamq_antitone lamq_nonneg (by decide +kernel) (by decide +kernel) (untied_of_nodup (by decide +kernel)) (untied_of_nodup (by decide +kernel))
    rfl le_rfl le_rfl hr hr' exCopies a b ha hb⟩

/-- Four rows; the first has weight 4. -/
def exHeavyRow : List ℚ := [0, 10, 15, 19]

/-- The same with the first row written four times. -/
def exHeavyCopies : List ℚ := [0, 10, 15, 19, 0, 0, 0]

/-- A row that alone weighs `min_cluster_size` is noise, though its copies are a cluster: the condensing gives a cluster to it, in which no sample is listed. -/
theorem C117_heavy_row : Copies 4 7 (exReach exHeavyRow 4) (exReach exHeavyCopies 7) (fun x => if x = 0 then (4 : ℚ) else 1) (fun a => if a < 4 then a else 0) ∧
    (clustersFromMst lamq (fun x => if x = 0 then (4 : ℚ) else 1) ⟨3, .leaf, none, false, 0, 0⟩ (kruskalBrute 4 1 (exLine exHeavyRow) CLParams.none)).map ClusterResult.labels =
      some [-1, 0, 0, 0] ∧
    (clustersFromMst lamq (fun _ => (1 : ℚ)) ⟨3, .leaf, none, false, 0, 0⟩ (kruskalBrute 7 1 (exLine exHeavyCopies) CLParams.none)).map ClusterResult.labels =
      some [1, 0, 0, 0, 1, 1, 1] := by
  refine ⟨⟨by decide +kernel, by decide +kernel, by decide +kernel, ?_⟩, by decide +kernel, by decide +kernel⟩
  have key : ∀ a < 7, ∀ b < 7, (if a < 4 then a else 0) ≠ (if b < 4 then b else 0) →
      exReach exHeavyCopies 7 a b = exReach exHeavyRow 4 (if a < 4 then a else 0) (if b < 4 then b else 0) := by decide +kernel
  exact fun a b ha hb => key a ha b hb

/-- Three pairs; the rows 0, 3 and 4 have weight 2. -/
def exThreeWeighted : List ℚ := [0, 1, 3, 4, 8, 9]

/-- The same with these rows written twice. -/
def exThreeCopies : List ℚ := [0, 1, 3, 4, 8, 9, 0, 4, 8]

/-- The row of a copy. -/
def exThreeRow (a : ℕ) : ℕ := if a < 6 then a else if a = 6 then 0 else a - 4

/-- The weights. -/
def exThreeWt (x : ℕ) : ℚ := if x = 0 ∨ x = 3 ∨ x = 4 then 2 else 1

theorem exThree_copies : Copies 6 9 (exReach exThreeWeighted 6) (exReach exThreeCopies 9) exThreeWt exThreeRow := by
  have key : ∀ a < 9, ∀ b < 9, exThreeRow a ≠ exThreeRow b → exReach exThreeCopies 9 a b = exReach exThreeWeighted 6 (exThreeRow a) (exThreeRow b) := by decide +kernel
  exact ⟨by decide +kernel, by decide +kernel, by decide +kernel, fun a b ha hb => key a ha b hb⟩

/-- With the excess of mass method the copies give other clusters: three with copies, two with weights.  Stability adds samples as one each, whatever their weight. -/
theorem C117_eom : Copies 6 9 (exReach exThreeWeighted 6) (exReach exThreeCopies 9) exThreeWt exThreeRow ∧
    (clustersFromMst lamq exThreeWt ⟨3, .eom, none, false, 0, 0⟩ (kruskalBrute 6 1 (exLine exThreeWeighted) CLParams.none)).map ClusterResult.labels =
      some [0, 0, 0, 0, 1, 1] ∧
    (clustersFromMst lamq (fun _ => (1 : ℚ)) ⟨3, .eom, none, false, 0, 0⟩ (kruskalBrute 9 1 (exLine exThreeCopies) CLParams.none)).map ClusterResult.labels =
      some [2, 2, 1, 1, 0, 0, 2, 1, 0] :=
  ⟨exThree_copies, by decide +kernel, by decide +kernel⟩

end Verif
