import Verif.Props.KnnKruskal
import Verif.Lemmas.KnnRows
import Verif.Props.TreeBoruvka

/-!
# C80: how the spanning tree from nearest neighbours relates to the exact one
-/

namespace Verif
variable {R W : Type*} [LinearOrder R] [LinearOrder W] [OrderTop W] [Zero W]

theorem mem_knnLists {rt : W → W} {raw : ℕ → List (W × Option ℕ)} {i j : ℕ} {d : W} :
    (some j, d) ∈ knnLists (fun i => (raw i).map fun p => (rt p.1, p.2)) i ↔ ∃ x, (x, some j) ∈ (raw i).tail ∧ d = rt x := by
  unfold knnLists
  rw [← List.map_tail, List.map_map, List.mem_map]
  constructor
  · rintro ⟨⟨x, o⟩, hx, he⟩
    simp only [Function.comp, Prod.mk.injEq] at he
    exact ⟨x, he.1 ▸ hx, he.2.symm⟩
  · rintro ⟨x, hx, rfl⟩
    exact ⟨_, hx, rfl⟩

/-- The run on valid input: the rows, and the result in terms of them. -/
theorem kruskalMstKnn_rows {ar : Arith R W} (ha : ar.Lawful) {rt : W → W} (hrt : Monotone rt) (htop : rt ⊤ = ⊤) {pts : ℕ → ℕ → R}
    {dims n nNodes ms knnK : ℕ} {t : KdTree R} (ht : t.Valid pts dims n nNodes) (hk : knnQueryK ms knnK ≤ 32768) (cl : CLParams) :
    ∃ (raw : ℕ → List (W × Option ℕ)) (r : MstResult W), kruskalMstKnn ar rt dims pts t nNodes n ms knnK cl = some r ∧
      (∀ i < n, treeQuery ar id dims pts t nNodes (knnQueryK ms knnK) (pts i) = some (raw i)) ∧
      (∀ i < n, PadRow n (knnQueryK ms knnK) (fun q => rdist ar dims (pts i) (pts q)) (raw i)) ∧
      (∀ i < n, r.core i = bruteCore n ms (fun i j => rt (rdist ar dims (pts i) (pts j))) i) ∧
      r.edges = kruskalKnn n (knnLists fun i => (raw i).map fun p => (rt p.1, p.2)) r.core cl ∧
      r.neighbors = fun i => (((raw i).map Prod.snd).drop 1).take (max ms 1) := by
  have h0 : 0 < knnQueryK ms knnK := by unfold knnQueryK; split <;> omega
  choose rows hq hp using fun i => padRow_of_query ha dims pts ht hk h0 (pts i)
  obtain ⟨raw, hr, he⟩ := queryRows_eq (n := n) fun i _ => hq i
  refine ⟨raw, ⟨_, _, _⟩, by unfold kruskalMstKnn; rw [hr]; rfl, fun i hi => by rw [he i hi]; exact hq i,
    fun i hi => by rw [he i hi]; exact hp i, fun i hi => ?_, rfl, ?_⟩
  · show knnCore ms (fun i => (raw i).map fun p => (rt p.1, p.2)) i = _
    unfold knnCore
    dsimp only
    rw [he i hi]
    unfold bruteCore
    by_cases h1 : 1 < ms
    · rw [if_pos h1, if_neg (by omega)]
      have := (hp i).sorted_entry hrt htop (m := ms) (by unfold knnQueryK; rw [if_pos h1]; omega)
      rw [List.getElem?_map, Option.map_map]
      refine Eq.trans this ?_
      split
      · rfl
      · rename_i h
        rw [List.getD_eq_getElem?_getD, List.getElem?_eq_none (by rw [List.length_insertionSort]; simp; omega)]
        rfl
    · rw [if_neg h1, if_pos (by omega)]
  · funext i
    dsimp only
    rw [← List.map_tail, ← List.map_take, List.map_map, List.map_take, ← List.drop_one, List.map_drop]
    congr 1
    split <;> omega

theorem count_others {n i : ℕ} {p : ℕ → Bool} :
    ((List.range n).filter p).length ≤ ((List.range n).filter fun q => decide (q ≠ i) && p q).length + 1 := by
  have : ((List.range n).filter p).Subperm (i :: (List.range n).filter fun q => decide (q ≠ i) && p q) := by
    refine List.subperm_of_subset (List.nodup_range.filter _) fun q hq => ?_
    rw [List.mem_filter] at hq
    by_cases h : q = i
    · rw [h]; simp
    · exact List.mem_cons_of_mem _ (List.mem_filter.2 ⟨hq.1, by simp [h, hq.2]⟩)
  simpa using this.length_le

/-- The other samples within distance `τ` of sample `i`. -/
def othersWithin (n : ℕ) (D : ℕ → ℕ → W) (τ : W) (i : ℕ) : List ℕ := (List.range n).filter fun q => decide (q ≠ i) && decide (D i q ≤ τ)

section
variable {ar : Arith R W} {rt : W → W} {pts : ℕ → ℕ → R} {dims n nNodes k : ℕ} {t : KdTree R} {raw : ℕ → List (W × Option ℕ)}

theorem knnEdge_complete (hp : ∀ i < n, PadRow n k (fun q => rdist ar dims (pts i) (pts q)) (raw i)) {core : ℕ → W} {e : Edge W}
    (he : KnnEdge n (knnLists fun i => (raw i).map fun p => (rt p.1, p.2)) core e) :
    e ∈ completeGraph n fun i j => max (max (core i) (core j)) (rt (rdist ar dims (pts i) (pts j))) := by
  obtain ⟨h1, h2, ⟨d, hd, hw⟩, _⟩ := he
  obtain ⟨x, hx, rfl⟩ := mem_knnLists.1 hd
  rcases (hp _ h1).entry (List.mem_of_mem_tail hx) with h | ⟨q, hq, h⟩
  · cases h
  · simp only [Prod.mk.injEq, Option.some.injEq] at h
    obtain ⟨rfl, rfl⟩ := h
    exact mem_completeGraph.2 ⟨h1, hq, h2, hw⟩

/-- If all samples within the distance of `j` from `i` are in the row of `i`, the edge is there from one side or the other. -/
theorem knnEdge_of_count (ha : ar.Lawful) (hrt : Monotone rt) (htop : rt ⊤ = ⊤)
    (hq : ∀ i < n, treeQuery ar id dims pts t nNodes k (pts i) = some (raw i))
    (hp : ∀ i < n, PadRow n k (fun q => rdist ar dims (pts i) (pts q)) (raw i))
    (hdup : ∀ i < n, ∀ j < n, rdist ar dims (pts i) (pts j) ≤ rdist ar dims (pts i) (pts i) → ∀ c < dims, pts i c = pts j c)
    {core : ℕ → W} {i j : ℕ} (hi : i < n) (hj : j < n) (hij : i ≠ j) {τ : W} (hτ : τ < ⊤)
    (hc : (othersWithin n (fun i j => rt (rdist ar dims (pts i) (pts j))) τ i).length + 1 ≤ k)
    (hw : max (max (core i) (core j)) (rt (rdist ar dims (pts i) (pts j))) ≤ τ) :
    ∃ e, KnnEdge n (knnLists fun i => (raw i).map fun p => (rt p.1, p.2)) core e ∧ e.w ≤ τ ∧ ((e.u = i ∧ e.v = j) ∨ (e.u = j ∧ e.v = i)) := by
  have hcount : ((List.range n).filter fun q => decide (rt (rdist ar dims (pts i) (pts q)) ≤ τ)).length ≤ k :=
    (count_others (i := i)).trans hc
  have hd : rt (rdist ar dims (pts i) (pts j)) ≤ τ := (le_max_right _ _).trans hw
  have hmj := (hp i hi).mem_of_count hrt htop hτ hcount hj hd
  have hmi := (hp i hi).mem_of_count hrt htop hτ hcount hi ((hrt (rdist_self_le ha dims (pts i) (pts j))).trans hd)
  obtain ⟨x, l, hl⟩ : ∃ x l, raw i = x :: l := by
    cases h : raw i with
    | nil => rw [h] at hmj; simp at hmj
    | cons x l => exact ⟨x, l, rfl⟩
  by_cases htail : (rdist ar dims (pts i) (pts j), some j) ∈ l
  · exact ⟨⟨i, j, _⟩, ⟨hi, hij, ⟨_, mem_knnLists.2 ⟨_, by rw [hl]; exact htail, rfl⟩, rfl⟩, hw.trans_lt hτ⟩, hw, Or.inl ⟨rfl, rfl⟩⟩
  · rw [hl] at hmj hmi
    have hx : (rdist ar dims (pts i) (pts j), some j) = x := (List.mem_cons.1 hmj).resolve_right htail
    subst hx
    have hmi' : (rdist ar dims (pts i) (pts i), some i) ∈ l := (List.mem_cons.1 hmi).resolve_left fun h => hij (by
      simpa using congrArg Prod.snd h)
    have hle : rdist ar dims (pts i) (pts j) ≤ rdist ar dims (pts i) (pts i) := by
      have := (hp i hi).sorted
      rw [hl] at this
      exact (List.pairwise_cons.1 this).1 _ hmi'
    have hsame := hdup i hi j hj hle
    have hrow : raw j = raw i := by
      have := hq i hi
      rw [treeQuery_congr ar id pts t nNodes k hsame, hq j hj] at this
      exact Option.some.inj this
    have heq : rdist ar dims (pts i) (pts i) = rdist ar dims (pts j) (pts i) := rdist_congr ar hsame _
    refine ⟨⟨j, i, max (max (core j) (core i)) (rt (rdist ar dims (pts j) (pts i)))⟩, ⟨hj, hij.symm, ⟨_, mem_knnLists.2 ⟨rdist ar dims (pts i) (pts i), ?_, rfl⟩, ?_⟩, ?_⟩, ?_,
      Or.inr ⟨rfl, rfl⟩⟩
    · rw [hrow, hl]; exact hmi'
    · rw [heq]
    · refine lt_of_le_of_lt ?_ hτ
      rw [max_comm (core j), rdist_comm ha]; exact hw
    · show max (max (core j) (core i)) (rt (rdist ar dims (pts j) (pts i))) ≤ τ
      rw [max_comm (core j), rdist_comm ha]; exact hw

end

omit [Zero W] in
/-- A forest with bridges that connects what a complete graph connects below `+inf` is a minimum spanning tree of it. -/
theorem BridgedForest.complete {n : ℕ} {weight : ℕ → ℕ → W} {g tree : List (Edge W)} (h : BridgedForest n g tree)
    (hsub : ∀ e ∈ g, e ∈ completeGraph n weight) (hth : ∀ i < n, ∀ j < n, i ≠ j → weight i j < ⊤ → Conn (upTo (weight i j) g) i j) :
    MinSpanningForest (completeGraph n weight) tree := by
  obtain ⟨f, br, h1, h2, h3, h4, h5⟩ := h.parts
  have hmem : ∀ e ∈ tree, e ∈ completeGraph n weight := fun e he => by
    have hin := he
    rw [h1] at he
    rcases List.mem_append.1 he with he | he
    · exact hsub e (h2.forest.sub.subset he)
    · obtain ⟨r1, r2⟩ := h.spans.inRange e hin
      obtain ⟨b1, b2, hb⟩ := List.append_of_mem he
      have hac := h.spans.acyclic (f ++ b1) e b2 (by rw [h1, hb]; simp)
      have hne : e.u ≠ e.v := fun heq => hac (by rw [heq]; exact Conn.refl _ _)
      refine mem_completeGraph.2 ⟨r1, r2, hne, ?_⟩
      rw [h4 e he]
      by_contra hw
      refine hac (((h2.conn_upTo _ _ _).2 (hth e.u r1 e.v r2 hne (lt_top_iff_ne_top.2 (Ne.symm hw)))).mono fun x hx => ?_)
      simp [(mem_upTo.1 hx).1]
  refine minSpanningForest_of_threshold ⟨List.subperm_of_subset h.spans.acyclic.nodup hmem, h.spans.acyclic, fun a b => ⟨Conn.mono hmem, ?_⟩⟩ ?_
  · refine Conn.of_forall fun e he => ?_
    obtain ⟨r1, r2, _⟩ := mem_completeGraph.1 he
    exact h.spans.conn _ _ r1 r2
  · intro e he
    obtain ⟨r1, r2, r3, r4⟩ := mem_completeGraph.1 he
    by_cases hw : e.w < ⊤
    · rw [h.conn_upTo hw, r4]
      exact hth _ r1 _ r2 r3 (r4 ▸ hw)
    · refine (h.spans.conn _ _ r1 r2).mono fun x hx => mem_upTo.2 ⟨hx, ?_⟩
      rw [not_lt, top_le_iff] at hw
      rw [hw]; exact le_top

/-- The graph of neighbours of a run, compared with the complete graph. -/
theorem kruskalMstKnn_graph {ar : Arith R W} (ha : ar.Lawful) {rt : W → W} (hrt : Monotone rt) (htop : rt ⊤ = ⊤) (zero : R) (pts : ℕ → ℕ → R)
    (dims n leafSize ms knnK : ℕ) (hl : 1 ≤ leafSize) (hn : 0 < n) (t : KdTree R) (ht : buildKdTree ar zero pts dims n leafSize = some t)
    {K : ℕ} (hKe : K = if 1 < ms then max knnK ms else knnK) (hK : K < 32768) {D : ℕ → ℕ → W} (hD : D = fun i j => rt (rdist ar dims (pts i) (pts j)))
    {core : ℕ → W} (hcd : core = fun i => if ms ≤ 1 then 0 else (((List.range n).map (D i)).insertionSort (· ≤ ·)).getD ms ⊤) :
    ∃ r g, kruskalMstKnn ar rt dims pts t (numNodes n leafSize) n ms knnK CLParams.none = some r ∧ BridgedForest n g r.edges ∧
      (∀ i < n, r.core i = core i) ∧ (∀ e ∈ g, e ∈ completeGraph n fun i j => max (max (core i) (core j)) (D i j)) ∧
      ((∀ i < n, ∀ j < n, rdist ar dims (pts i) (pts j) ≤ rdist ar dims (pts i) (pts i) → ∀ c < dims, pts i c = pts j c) → ∀ τ < ⊤,
        ∀ i < n, ∀ j < n, i ≠ j → max (max (core i) (core j)) (D i j) ≤ τ →
          (othersWithin n D τ i).length ≤ K ∨ (othersWithin n D τ j).length ≤ K → Conn (upTo τ g) i j) := by
  obtain ⟨t', e, hv⟩ := buildKdTree_valid ar zero pts dims n leafSize hn hl
  rw [ht] at e; cases e
  have hkq : knnQueryK ms knnK = K + 1 := by unfold knnQueryK; rw [hKe]; split <;> rfl
  obtain ⟨raw, r, hr, hq, hp, hc, hedges, _⟩ := kruskalMstKnn_rows ha hrt htop hv (by rw [hkq]; omega) CLParams.none
  subst hD
  have hcore : ∀ i < n, r.core i = core i := fun i hi => by
    rw [hc i hi, hcd]
    unfold bruteCore
    show _ = if ms ≤ 1 then 0 else _
    by_cases h1 : ms ≤ 1
    · rw [if_pos h1, if_pos h1]
    · rw [if_neg h1, if_neg h1]
      by_cases h2 : ms < n
      · rw [if_pos h2]
      · rw [if_neg h2, List.getD_eq_getElem?_getD, List.getElem?_eq_none (by rw [List.length_insertionSort]; simp; omega)]
        rfl
  have hrange : ∀ i < n, ∀ j d, (some j, d) ∈ knnLists (fun i => (raw i).map fun p => (rt p.1, p.2)) i → j < n := fun i hi j d hd => by
    obtain ⟨x, hx, _⟩ := mem_knnLists.1 hd
    rcases (hp i hi).entry (List.mem_of_mem_tail hx) with h | ⟨q, hq, h⟩
    · cases h
    · simp only [Prod.mk.injEq, Option.some.injEq] at h
      rw [h.2]; exact hq
  obtain ⟨hb, hconn⟩ := C79_knn_kruskal n hn _ r.core hrange _ fun e => mem_knnEdges
  rw [← hedges] at hb hconn
  refine ⟨r, _, hr, hb, hcore, fun e he => ?_, fun hdup τ hτ i hi j hj hij hw hcount => ?_⟩
  · obtain ⟨h1, h2, h3, h4⟩ := mem_completeGraph.1 (knnEdge_complete hp (mem_knnEdges.1 he))
    exact mem_completeGraph.2 ⟨h1, h2, h3, by rw [h4, hcore _ h1, hcore _ h2]⟩
  · rw [← hcore _ hi, ← hcore _ hj] at hw
    have key : ∃ e', KnnEdge n (knnLists fun i => (raw i).map fun p => (rt p.1, p.2)) r.core e' ∧ e'.w ≤ τ ∧
        ((e'.u = i ∧ e'.v = j) ∨ (e'.u = j ∧ e'.v = i)) := by
      rcases hcount with h | h
      · exact knnEdge_of_count ha hrt htop hq hp hdup hi hj hij hτ (by rw [hkq]; exact Nat.succ_le_succ h) hw
      · obtain ⟨e', x1, x2, x3⟩ := knnEdge_of_count (core := r.core) ha hrt htop hq hp hdup hj hi (Ne.symm hij) hτ
          (by rw [hkq]; exact Nat.succ_le_succ h) (by rw [max_comm (r.core _), rdist_comm ha]; exact hw)
        exact ⟨e', x1, x2, x3.symm⟩
    obtain ⟨e', x1, x2, x3⟩ := key
    have hce : Conn (upTo τ (knnEdges n (knnLists fun i => (raw i).map fun p => (rt p.1, p.2)) r.core)) e'.u e'.v :=
      Conn.edge (mem_upTo.2 ⟨mem_knnEdges.2 x1, x2⟩)
    rcases x3 with ⟨y1, y2⟩ | ⟨y1, y2⟩
    · rw [y1, y2] at hce; exact hce
    · rw [y1, y2] at hce; exact hce.symm

/-- **C80.** `algorithm='kruskal'` with `knn_k`, on data.  It returns a spanning tree, and core distances that do not depend on `knn_k`: they are the exact
ones.  What the tree connects at a threshold is also connected in the complete graph of mutual reachability distances.  The converse holds at every threshold
`τ` such that of any two samples within `τ` of one another at least one has at most `max(knn_k, min_samples)` other samples within `τ` (`knn_k`, if
`min_samples ≤ 1`).  The converse assumes that samples at distance 0 have the same coordinates. -/
theorem C80_knn_clusters {ar : Arith R W} (ha : ar.Lawful) {rt : W → W} (hrt : Monotone rt) (htop : rt ⊤ = ⊤) (zero : R) (pts : ℕ → ℕ → R)
    (dims n leafSize ms knnK : ℕ) (hl : 1 ≤ leafSize) (hn : 0 < n) (t : KdTree R) (ht : buildKdTree ar zero pts dims n leafSize = some t) :
    let K := if 1 < ms then max knnK ms else knnK
    let D := fun i j => rt (rdist ar dims (pts i) (pts j))
    let core := fun i => if ms ≤ 1 then 0 else (((List.range n).map (D i)).insertionSort (· ≤ ·)).getD ms ⊤
    let G := completeGraph n fun i j => max (max (core i) (core j)) (D i j)
    K < 32768 → ∃ r, kruskalMstKnn ar rt dims pts t (numNodes n leafSize) n ms knnK CLParams.none = some r ∧ SpanningTree n r.edges ∧
      (∀ i < n, r.core i = core i) ∧ (∀ τ < ⊤, ∀ a b, Conn (upTo τ r.edges) a b → Conn (upTo τ G) a b) ∧
      ((∀ i < n, ∀ j < n, rdist ar dims (pts i) (pts j) ≤ rdist ar dims (pts i) (pts i) → ∀ c < dims, pts i c = pts j c) → ∀ τ < ⊤,
        (∀ i < n, ∀ j < n, i ≠ j → D i j ≤ τ → (othersWithin n D τ i).length ≤ K ∨ (othersWithin n D τ j).length ≤ K) →
        ∀ a b, Conn (upTo τ r.edges) a b ↔ Conn (upTo τ G) a b) := by
  intro K D core G hK
  obtain ⟨r, g, hr, hb, hcore, hsub, hcount⟩ := kruskalMstKnn_graph ha hrt htop zero pts dims n leafSize ms knnK hl hn t ht (K := K) rfl hK (D := D) rfl
    (core := core) rfl
  have hle : ∀ τ < ⊤, ∀ a b, Conn (upTo τ r.edges) a b → Conn (upTo τ G) a b := fun τ hτ a b h => by
    refine ((hb.conn_upTo hτ a b).1 h).mono fun e he => ?_
    obtain ⟨h1, h2⟩ := mem_upTo.1 he
    exact mem_upTo.2 ⟨hsub e h1, h2⟩
  refine ⟨r, hr, hb.spans, hcore, hle, fun hdup τ hτ hc a b => ⟨hle τ hτ a b, fun h => (hb.conn_upTo hτ a b).2 ?_⟩⟩
  refine Conn.of_forall (fun e he => ?_) h
  obtain ⟨he, hw⟩ := mem_upTo.1 he
  obtain ⟨h1, h2, h3, h4⟩ := mem_completeGraph.1 he
  rw [h4] at hw
  exact hcount hdup τ hτ _ h1 _ h2 h3 hw (hc _ h1 _ h2 h3 ((le_max_right _ _).trans hw))

/-- C80: with `knn_k ≥ n - 1` (or `min_samples ≥ n - 1`) the tree is a minimum spanning tree of the complete graph, as without `knn_k`. -/
theorem C80_all_neighbours {ar : Arith R W} (ha : ar.Lawful) {rt : W → W} (hrt : Monotone rt) (htop : rt ⊤ = ⊤) (zero : R) (pts : ℕ → ℕ → R)
    (dims n leafSize ms knnK : ℕ) (hl : 1 ≤ leafSize) (hn : 0 < n) (t : KdTree R) (ht : buildKdTree ar zero pts dims n leafSize = some t)
    (hdup : ∀ i < n, ∀ j < n, rdist ar dims (pts i) (pts j) ≤ rdist ar dims (pts i) (pts i) → ∀ c < dims, pts i c = pts j c)
    (hall : n ≤ (if 1 < ms then max knnK ms else knnK) + 1) (hK : (if 1 < ms then max knnK ms else knnK) < 32768) :
    let D := fun i j => rt (rdist ar dims (pts i) (pts j))
    let core := fun i => if ms ≤ 1 then 0 else (((List.range n).map (D i)).insertionSort (· ≤ ·)).getD ms ⊤
    ∃ r, kruskalMstKnn ar rt dims pts t (numNodes n leafSize) n ms knnK CLParams.none = some r ∧ SpanningTree n r.edges ∧
      MinSpanningForest (completeGraph n fun i j => max (max (core i) (core j)) (D i j)) r.edges ∧
      (weights r.edges).Perm (weights (kruskalBrute n ms D CLParams.none)) := by
  intro D core
  obtain ⟨r, g, hr, hb, hcore, hsub, hcount⟩ := kruskalMstKnn_graph ha hrt htop zero pts dims n leafSize ms knnK hl hn t ht rfl hK (D := D) rfl
    (core := core) rfl
  have hm := hb.complete hsub fun i hi j hj hij hw => by
    refine hcount hdup _ hw i hi j hj hij le_rfl (Or.inl ?_)
    have : (othersWithin n D (max (max (core i) (core j)) (D i j)) i).Subperm ((List.range n).erase i) := by
      refine List.subperm_of_subset (List.nodup_range.filter _) fun q hq => ?_
      have hq' := List.mem_filter.1 hq
      rw [List.nodup_range.mem_erase_iff]
      exact ⟨by simpa using (Bool.and_eq_true_iff.1 hq'.2).1, hq'.1⟩
    have hlen := this.length_le
    rw [List.length_erase_of_mem (List.mem_range.2 hi), List.length_range] at hlen
    omega
  refine ⟨r, hr, hb.spans, hm, ?_⟩
  obtain ⟨_, hk⟩ := C60_brute_force n ms hn D fun i j => by show rt _ = rt _; rw [rdist_comm ha]
  have : (fun i j => max (max (D i j) (core i)) (core j)) = fun i j => max (max (core i) (core j)) (D i j) := by
    funext i j; rw [max_assoc, max_comm]
  refine hm.weights_perm ?_
  rw [← this]
  exact hk

/-! ## Cases -/

/-- Points on a line. -/
def knnLine (l : List ℤ) (i _ : ℕ) : ℤ := l.getD i 0

/-- The run on points on a line, exact arithmetic, `leafsize=40`, squared distances. -/
def knnLineRun (l : List ℤ) (ms knnK : ℕ) : Option (MstResult (WithTop ℤ)) :=
  (buildKdTree (roundedArith (id : ℤ → ℤ)) 0 (knnLine l) 1 l.length 40).bind fun t =>
    kruskalMstKnn (roundedArith (id : ℤ → ℤ)) id 1 (knnLine l) t (numNodes l.length 40) l.length ms knnK CLParams.none

/-- Case: the six points, `min_samples=3` and three neighbours: all gaps but one are found. -/
example : ((knnLineRun [7, 6, 21, 9, 13, 15] 3 0).map fun r => (weights r.edges, (List.range 6).map r.core)) =
    some ([36, 36, 36, 49, 144].map fun x : ℤ => (x : WithTop ℤ), [36, 49, 144, 16, 36, 36].map fun x : ℤ => (x : WithTop ℤ)) := by decide +kernel

/-- Two pairs, one neighbour: every sample has at most one other within squared distance 4, so the tree is right up to there; the pairs, 9 and 10 apart, are
only joined by an infinite edge. -/
theorem C80_small_k : ((knnLineRun [0, 1, 10, 12] 1 1).map fun r => r.edges.map fun e => (e.u, e.v, e.w)) =
      some [(0, 1, 1), (2, 3, 4), (0, 2, ⊤)] ∧
    (∀ i < 4, (othersWithin 4 (fun i j => rdist (roundedArith (id : ℤ → ℤ)) 1 (knnLine [0, 1, 10, 12] i) (knnLine [0, 1, 10, 12] j)) 4 i).length ≤ 1) ∧
    rdist (roundedArith (id : ℤ → ℤ)) 1 (knnLine [0, 1, 10, 12] 1) (knnLine [0, 1, 10, 12] 2) = 81 := by decide +kernel

/-- The first entry of a row is dropped as if it were the sample itself.  With two equal samples it can be the other one: one of the two samples is then its
own neighbour in the result.  The tree is not affected. -/
theorem C80_own_neighbour : (knnLineRun [3, 3] 1 1).map (fun r => (r.neighbors 0, r.neighbors 1)) = some ([some 1], [some 1]) ∧
    (knnLineRun [3, 3] 1 1).map (fun r => r.edges.map fun e => (e.u, e.v, e.w)) = some [(0, 1, 0)] := by decide +kernel

end Verif
