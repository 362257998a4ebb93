import Verif.Lemmas.TreeInit
import Verif.Lemmas.PreTrees

/-!
# The tree-based Borůvka routine
-/

namespace Verif
variable {R W : Type*} [LinearOrder R] [LinearOrder W] [OrderTop W]

omit [OrderTop W] in
theorem rdist_nonneg {ar : Arith R W} (ha : ar.Lawful) (dims : ℕ) (x y : ℕ → R) : ar.zero ≤ rdist ar dims x y := by
  unfold rdist
  have key : ∀ (l : List ℕ) (r : W), ar.zero ≤ r → ar.zero ≤ l.foldl (fun r i => ar.add r (ar.sq (ar.diff (x i) (y i)))) r := by
    intro l
    induction l with
    | nil => intro r h; exact h
    | cons a l ih =>
      intro r h
      rw [List.foldl_cons]
      refine ih _ (ha.add_nonneg _ _ h ?_)
      rcases le_total (x a) (y a) with hl | hl
      · rw [ha.sq_symm]; exact ha.sq_nonneg _ (ha.diff_nonneg _ _ hl)
      · exact ha.sq_nonneg _ (ha.diff_nonneg _ _ hl)
  exact key _ _ le_rfl

omit [OrderTop W] in
/-- No point is nearer than the point itself. -/
theorem rdist_self_le {ar : Arith R W} (ha : ar.Lawful) (dims : ℕ) (x y : ℕ → R) : rdist ar dims x x ≤ rdist ar dims x y := by
  unfold rdist
  have key : ∀ (l : List ℕ) (r r' : W), ar.zero ≤ r → r ≤ r' → l.foldl (fun r i => ar.add r (ar.sq (ar.diff (x i) (x i)))) r ≤
      l.foldl (fun r i => ar.add r (ar.sq (ar.diff (x i) (y i)))) r' := by
    intro l
    induction l with
    | nil => intro r r' _ h; exact h
    | cons a l ih =>
      intro r r' h0 h
      rw [List.foldl_cons, List.foldl_cons]
      have h1 : ar.zero ≤ ar.diff (x a) (x a) := ha.diff_nonneg _ _ le_rfl
      have h2 : ar.sq (ar.diff (x a) (x a)) ≤ ar.sq (ar.diff (x a) (y a)) := by
        rcases le_total (x a) (y a) with hl | hl
        · rw [ha.sq_symm (x a) (y a)]
          exact ha.sq_mono _ _ h1 (ha.diff_mono _ _ _ le_rfl hl).1
        · exact ha.sq_mono _ _ h1 (ha.diff_mono _ _ _ hl le_rfl).2
      exact ih _ _ (ha.add_nonneg _ _ h0 (ha.sq_nonneg _ h1)) (ha.add_mono _ _ _ _ h0 h (ha.sq_nonneg _ h1) h2)
  exact key _ _ _ le_rfl le_rfl

/-- Facts about the rows that the first round starts from. -/
theorem init_good {ar : Arith R W} (ha : ar.Lawful) (dims : ℕ) (pts : ℕ → ℕ → R) {n ms : ℕ} (hn : 2 ≤ n)
    {rows : ℕ → List (W × Option ℕ)}
    (hrows : ∀ i < n, KnnRow n (treeK ms) (fun q => rdist ar dims (pts i) (pts q)) (rows i)) {i : ℕ} (hi : i < n) {e : TEdge W}
    (he : initRow n (treeCore ar.zero ms rows) i (rows i).tail = some e) :
    e.u = i ∧ ∃ v < n, e.v = some v ∧ (i ≠ v → e.w = mreach ar dims pts (treeCore ar.zero ms rows) i v ∧
      ∀ j < n, j ≠ i → e.w ≤ mreach ar dims pts (treeCore ar.zero ms rows) i j ∧ e.w ≤ mreach ar dims pts (treeCore ar.zero ms rows) j i) := by
  obtain ⟨p, hp, hc, rfl⟩ := initRow_some he
  obtain ⟨v, hv, hpv⟩ := (hrows i hi).entry (List.mem_of_mem_tail hp)
  subst hpv
  refine ⟨rfl, v, hv, rfl, fun hne => ?_⟩
  simp only [Option.getD_some] at hc ⊢
  set core := treeCore ar.zero ms rows with hcore
  suffices hmain : max (core i) (rdist ar dims (pts i) (pts v)) = mreach ar dims pts core i v ∧
      ∀ j < n, j ≠ i → max (core i) (rdist ar dims (pts i) (pts v)) ≤ mreach ar dims pts core i j by
    exact ⟨hmain.1, fun j hj hji => ⟨hmain.2 j hj hji, by rw [mreach_comm ha]; exact hmain.2 j hj hji⟩⟩
  constructor
  · unfold mreach
    rw [max_comm (rdist ar dims (pts i) (pts v)), max_eq_left (hc.trans (le_max_left _ _))]
  · intro j hj hji
    by_cases hms : 1 < ms
    · -- the distance is at most the core distance
      have hlen : (rows i).length = ms + 1 := by rw [(hrows i hi).length]; unfold treeK; rw [if_pos hms]
      obtain ⟨y, hy⟩ : ∃ y, (rows i).getLast? = some y := by
        cases h : (rows i).getLast? with
        | some y => exact ⟨y, rfl⟩
        | none => rw [List.getLast?_eq_none_iff] at h; rw [h] at hlen; simp at hlen
      have hci : core i = y.1 := by
        rw [hcore]; unfold treeCore; rw [if_pos hms, hy]; rfl
      have hle := (hrows i hi).le_last (List.mem_of_mem_tail hp) hy
      simp only at hle
      rw [max_eq_left (by rw [hci]; exact hle)]
      exact (le_max_right _ _).trans (le_max_left _ _)
    · -- the second of two entries is the nearest other point
      have hk : treeK ms = 2 := by unfold treeK; rw [if_neg hms]
      have hz : core = fun _ => ar.zero := by funext x; rw [hcore]; unfold treeCore; rw [if_neg hms]
      rw [hz]
      simp only
      rw [max_eq_right (rdist_nonneg ha dims _ _)]
      refine le_trans ?_ ((le_max_left _ _).trans (le_max_left _ _))
      have hr := hrows i hi
      obtain ⟨a, b, hab⟩ : ∃ a b, rows i = [a, b] := by
        have := hr.length
        rw [hk] at this
        exact List.length_eq_two.1 this
      rw [hab] at hp
      simp only [List.tail_cons, List.mem_singleton] at hp
      obtain ⟨rest, h1, h2⟩ := hr.real
      rw [hab] at h1 h2
      have hmem : ∀ q < n, (rdist ar dims (pts i) (pts q), some q) = a ∨ (rdist ar dims (pts i) (pts q), some q) = b ∨
          (rdist ar dims (pts i) (pts q), some q) ∈ rest := by
        intro q hq
        have : (rdist ar dims (pts i) (pts q), some q) ∈ [a, b] ++ rest :=
          h1.mem_iff.2 (List.mem_map.2 ⟨q, List.mem_range.2 hq, rfl⟩)
        simpa [or_assoc] using this
      have hrest : ∀ q, (rdist ar dims (pts i) (pts q), some q) ∈ rest → rdist ar dims (pts i) (pts v) ≤ rdist ar dims (pts i) (pts q) := by
        intro q hq
        have := h2 b (by simp) _ hq
        rw [← hp] at this
        exact this
      rcases hmem j hj with h | h | h
      · -- then the point itself is among the rest
        have : (rdist ar dims (pts i) (pts i), some i) ∈ rest := by
          rcases hmem i hi with h' | h' | h'
          · rw [← h] at h'
            simp only [Prod.mk.injEq, Option.some.injEq] at h'
            exact absurd h'.2.symm hji
          · rw [← hp] at h'
            simp only [Prod.mk.injEq, Option.some.injEq] at h'
            exact absurd h'.2 hne
          · exact h'
        exact (hrest i this).trans (rdist_self_le ha dims _ _)
      · rw [← hp] at h
        simp only [Prod.mk.injEq] at h
        rw [← h.1]
      · exact hrest j h

omit [LinearOrder R] [LinearOrder W] [OrderTop W] in
/-- The rows of the result, as edges. -/
theorem TEdge.eq_of_ends {n : ℕ} {es : List (TEdge W)} (h : ∀ e ∈ es, ∃ v, e.v = some v) :
    es = (es.map (TEdge.toEdge n)).map fun e => ⟨e.u, some e.v, e.w⟩ := by
  rw [List.map_map]
  conv_lhs => rw [← List.map_id es]
  refine List.map_congr_left fun e he => ?_
  obtain ⟨v, hv⟩ := h e he
  simp only [id, Function.comp, TEdge.toEdge, hv, Option.getD_some]
  rw [← hv]

theorem treeCore_finite {ar : Arith R W} (ha : ar.Lawful) {dims : ℕ} {pts : ℕ → ℕ → R} {n ms : ℕ} {rows : ℕ → List (W × Option ℕ)}
    (hknn : ∀ i < n, KnnRow n (treeK ms) (fun q => rdist ar dims (pts i) (pts q)) (rows i))
    (hfin : ∀ i < n, ∀ j < n, rdist ar dims (pts i) (pts j) < ⊤) :
    ∀ i < n, ∀ j < n, i ≠ j → mreach ar dims pts (treeCore ar.zero ms rows) i j < ⊤ := by
  have hcfin : ∀ i < n, treeCore ar.zero ms rows i < ⊤ := by
    intro i hi
    unfold treeCore
    split
    · cases hl : (rows i).getLast? with
      | none =>
        have := (hknn i hi).length
        rw [List.getLast?_eq_none_iff.1 hl, List.length_nil] at this
        unfold treeK at this
        split at this <;> omega
      | some y =>
        obtain ⟨q, hq, rfl⟩ := (hknn i hi).entry (List.mem_of_getLast? hl)
        exact hfin i hi q hq
    · exact (rdist_nonneg ha dims (pts i) (pts i)).trans_lt (hfin i hi i hi)
  exact fun i hi j hj _ => max_lt (max_lt (hfin i hi j hj) (hcfin i hi)) (hcfin j hj)

/-- Everything about the result of `parallel_boruvka` without sample weights. -/
theorem treeBoruvka_spec {vis : List W → W → Prop} (hvis : ∀ h w, vis h w → anyVis h w) {ar : Arith R W} (ha : ar.Lawful) {rt : W → W}
    (hrt : Monotone rt) {dims : ℕ} {pts : ℕ → ℕ → R} {t : KdTree R} {nNodes n ms : ℕ} (ht : t.Valid pts dims n nNodes) (hn : 2 ≤ n)
    (hms : ms < n) (hbig : ms < 32768) (hfin : ∀ i < n, ∀ j < n, rdist ar dims (pts i) (pts j) < ⊤) {repro : Option ℕ}
    {edges : List (TEdge W)} {core : ℕ → W} (h : TreeBoruvka vis ar rt dims pts t nNodes n ms repro edges core) :
    ∃ (tree : List (Edge W)) (c2 : ℕ → W) (rows : ℕ → List (W × Option ℕ)),
      (∀ i < n, KnnRow n (treeK ms) (fun q => rdist ar dims (pts i) (pts q)) (rows i)) ∧ c2 = treeCore ar.zero ms rows ∧
      (∀ i, core i = rt (c2 i)) ∧ edges = tree.map (fun e => ⟨e.u, some e.v, e.w⟩) ∧ SpanningTree n tree ∧
      MinSpanningForest (completeGraph n fun i j => rt (mreach ar dims pts c2 i j)) tree := by
  obtain ⟨rows, hrows, s, hloop, hedges, hcore⟩ := h
  have hk1 : treeK ms ≤ 32768 := by unfold treeK; split <;> omega
  have hk2 : 0 < treeK ms := by unfold treeK; split <;> omega
  have hk3 : treeK ms ≤ n := by unfold treeK; split <;> omega
  have hknn : ∀ i < n, KnnRow n (treeK ms) (fun q => rdist ar dims (pts i) (pts q)) (rows i) := fun i hi =>
    knnRow_of_query ha dims pts ht hk1 hk2 hk3 (pts i) (hfin i hi) (hrows i hi)
  set c2 := treeCore ar.zero ms rows with hc2
  have hsym := mreach_comm ha dims pts c2
  have hwfin : ∀ i < n, ∀ j < n, i ≠ j → mreach ar dims pts c2 i j < ⊤ := treeCore_finite ha hknn hfin
  have h0 : TInv t pts dims nNodes n (mreach ar dims pts c2) (treeStart t nNodes n c2 rows) :=
    treeStart_inv fun i hi e he => init_good ha dims pts hn hknn hi he
  obtain ⟨h1, h2⟩ := treeLoop_inv hsym hwfin (fun s cand hs hq => by
    have hsound := hs.nodes.sound ht
    cases repro with
    | none =>
      obtain ⟨c, hph, hc⟩ := hq
      exact queryResult_exact ⟨ar, dims, pts, t, nNodes, c2, s.comp, s.nodeComp⟩ ha ht hsound ⟨c, hph.weaken hvis, hc⟩
    | some th =>
      obtain ⟨c, hb, hc⟩ := hq
      refine reproResult_exact ⟨ar, dims, pts, t, nNodes, c2, s.comp, s.nodeComp⟩ ha ht hsound (size := blockSize s.nComp n th) ⟨c, ?_, hc⟩
      exact hb.weaken hvis) hloop h0
  have hspan : SpanningTree n (s.edges.map (TEdge.toEdge n)) :=
    ⟨h1.rep.inRange, h1.run.safe.acyclic, fun a b ha hb => conn_of_compCount_le_one (by rw [← h1.compCount_eq]; exact h2) ha hb⟩
  have hmsf : MinSpanningForest (completeGraph n (mreach ar dims pts c2)) (s.edges.map (TEdge.toEdge n)) := by
    refine h1.run.safe.minSpanningForest fun e he => ?_
    obtain ⟨e1, e2, _⟩ := mem_completeGraph.1 he
    exact hspan.conn _ _ e1 e2
  refine ⟨(s.edges.map (TEdge.toEdge n)).map (Edge.mapW rt), c2, rows, hknn, rfl, hcore, ?_, (spanningTree_mapW rt _).2 hspan, ?_⟩
  · rw [hedges]
    conv_lhs => rw [TEdge.eq_of_ends (n := n) h1.ends]
    rw [List.map_map, List.map_map, List.map_map, List.map_map]
    rfl
  · refine (hmsf.mapW hrt).congr_mem fun e => ?_
    rw [List.mem_map, mem_completeGraph]
    constructor
    · rintro ⟨d, hd, rfl⟩
      obtain ⟨d1, d2, d3, d4⟩ := mem_completeGraph.1 hd
      exact ⟨d1, d2, d3, by simp only [Edge.mapW, d4]⟩
    · rintro ⟨e1, e2, e3, e4⟩
      exact ⟨⟨e.u, e.v, mreach ar dims pts c2 e.u e.v⟩, mem_completeGraph.2 ⟨e1, e2, e3, rfl⟩, by unfold Edge.mapW; rw [← e4]⟩

end Verif
