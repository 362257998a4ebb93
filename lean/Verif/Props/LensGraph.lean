import Verif.Spec.LensGraph
import Verif.Spec.CoreGraph
import Verif.Lemmas.LensGraph
import Verif.Props.CoreGraph
import Verif.Lemmas.Bridge
import Mathlib.Tactic.IntervalCases

/-!
# C70, C71: the core graph of a lens and its spanning tree
-/

namespace Verif
variable {W D : Type*} [LinearOrder W] [LinearOrder D]

/-! ## C70 -/

/-- **C70** (construction).  Whatever the neighbours, core distances, tree and lens, and however ties are ordered, the graph has exactly the
edges it should, each once, with the right weight and distance, in rows sorted by weight. -/
theorem C70_core_graph {sortRow : LensRow W D → LensRow W D} (hs : SortsRows sortRow) (n : ℕ) (nb : ℕ → List (Option ℕ)) (core : ℕ → D)
    (mst : List (Edge D)) (lens : ℕ → W) : LensGraphOf n nb core mst lens (lensGraph sortRow n nb core mst lens) := by
  obtain ⟨hp, he⟩ := sortByLens_shape (n := n) hs.perm (c := flattenToCsr n (knnMstUnion n nb core mst lens)) rfl rfl
  have hrow : ∀ i, i < n → (lensGraph sortRow n nb core mst lens).row i = sortRow (knnMstUnion n nb core mst lens i) :=
    fun i hi => csr_row_of hp he hi
  have hm := fun u => knnMstUnion_spec n nb core mst lens u
  have hmem : ∀ u, u < n → ∀ v w d, (v, w, d) ∈ (lensGraph sortRow n nb core mst lens).row u ↔
      w = max (lens u) (lens v) ∧ lensDist n nb core mst u v = some d := by
    intro u hu v w d
    rw [hrow u hu, (hs.perm _).mem_iff, (hm u).2]
  refine ⟨fun u hu => ?_, fun u hu v => ?_, fun u hu v w d h => ((hmem u hu v w d).1 h).1, fun u hu v w d h hk => ?_, fun u hu v w d h hk => ?_,
    fun u hu => ?_, fun i => ?_, ?_⟩
  · rw [hrow u hu, ((hs.perm _).map _).nodup_iff]; exact (hm u).1
  · rw [List.mem_map]
    constructor
    · rintro ⟨⟨v', w, d⟩, h, rfl⟩
      have h2 := ((hmem u hu _ w d).1 h).2
      unfold lensDist at h2
      split at h2
      · next hh => exact .inl hh.2
      · obtain ⟨e, he, _⟩ := Option.map_eq_some_iff.1 h2
        exact .inr ⟨e, List.mem_of_find?_eq_some he, by simpa using List.find?_some he⟩
    · intro h
      have : ∃ d, lensDist n nb core mst u v = some d := by
        unfold lensDist
        split
        · exact ⟨_, rfl⟩
        next hn =>
          obtain ⟨e, hem, hev⟩ := h.resolve_left fun hh => hn ⟨hu, hh⟩
          obtain ⟨x, hx⟩ := Option.isSome_iff_exists.1 (List.find?_isSome (p := fun e : Edge D => decide (e.u = u ∧ e.v = v)) |>.2 ⟨e, hem, decide_eq_true hev⟩)
          exact ⟨x.w, by rw [hx]; rfl⟩
      obtain ⟨d, hd⟩ := this
      exact ⟨(v, _, d), (hmem u hu v _ d).2 ⟨rfl, hd⟩, rfl⟩
  · have h2 := ((hmem u hu _ w d).1 h).2
    unfold lensDist at h2
    rw [if_pos ⟨hu, hk⟩] at h2
    exact (Option.some.inj h2).symm
  · have h2 := ((hmem u hu _ w d).1 h).2
    unfold lensDist at h2
    rwa [if_neg fun hh => hk hh.2] at h2
  · rw [hrow u hu]; exact hs.sorted _
  · have h1 : (lensGraph sortRow n nb core mst lens).indptr i = rowStart n (fun i => sortRow (knnMstUnion n nb core mst lens i)) i :=
      congrFun hp i
    rw [h1, rowStart_congr (g := (lensGraph sortRow n nb core mst lens).row) fun j hj => by rw [hrow j hj]]
    rfl
  · have h1 : (lensGraph sortRow n nb core mst lens).ent = _ := he
    rw [h1]
    exact flatMap_congr_range fun j hj => (hrow j hj).symm

/-- **C70** (new lens).  Applying another lens to the core graph of any lens gives the core graph of the other lens. -/
theorem C70_apply_lens {sortRow : LensRow W D → LensRow W D} (hs : SortsRows sortRow) {n : ℕ} {nb : ℕ → List (Option ℕ)} {core : ℕ → D}
    {mst : List (Edge D)} {lens : ℕ → W} {c : LensCsr W D} (hc : LensGraphOf n nb core mst lens c) (lens' : ℕ → W) :
    LensGraphOf n nb core mst lens' (applyLens sortRow n c lens') := by
  set f : ℕ → LensRow W D := fun i => (c.row i).map fun p => (p.1, max (lens' i) (lens' p.1), p.2.2) with hf
  have hp0 : c.indptr = rowStart n f := by
    rw [rowStart_congr (g := c.row) fun i _ => by rw [hf]; simp]
    funext i; exact hc.ptr i
  obtain ⟨hp, he⟩ := sortByLens_shape hs.perm (n := n) (c := ⟨c.indptr, (List.range n).flatMap f⟩) hp0 rfl
  have hrow : ∀ i, i < n → (applyLens sortRow n c lens').row i = sortRow (f i) := fun i hi => csr_row_of hp he hi
  have hmem : ∀ u, u < n → ∀ v w d, (v, w, d) ∈ (applyLens sortRow n c lens').row u ↔
      w = max (lens' u) (lens' v) ∧ ∃ w0, (v, w0, d) ∈ c.row u := by
    intro u hu v w d
    rw [hrow u hu, (hs.perm _).mem_iff, List.mem_map]
    constructor
    · rintro ⟨⟨v0, w0, d0⟩, h, he⟩
      simp only [Prod.mk.injEq] at he
      obtain ⟨rfl, rfl, rfl⟩ := he
      exact ⟨rfl, w0, h⟩
    · rintro ⟨rfl, w0, h⟩
      exact ⟨_, h, rfl⟩
  have hkeys : ∀ i, (f i).map Prod.fst = (c.row i).map Prod.fst := fun i => by rw [hf, List.map_map]; rfl
  refine ⟨fun u hu => ?_, fun u hu v => ?_, fun u hu v w d h => ((hmem u hu v w d).1 h).1, fun u hu v w d h hk => ?_, fun u hu v w d h hk => ?_,
    fun u hu => ?_, fun i => ?_, ?_⟩
  · rw [hrow u hu, ((hs.perm _).map _).nodup_iff, hkeys]; exact hc.once u hu
  · rw [hrow u hu, ((hs.perm _).map _).mem_iff, hkeys]; exact hc.mem u hu v
  · obtain ⟨_, w0, h0⟩ := (hmem u hu v w d).1 h
    exact hc.distKnn u hu v w0 d h0 hk
  · obtain ⟨_, w0, h0⟩ := (hmem u hu v w d).1 h
    exact hc.distMst u hu v w0 d h0 hk
  · rw [hrow u hu]; exact hs.sorted _
  · have h1 : (applyLens sortRow n c lens').indptr i = rowStart n (fun i => sortRow (f i)) i := congrFun hp i
    rw [h1, rowStart_congr (g := (applyLens sortRow n c lens').row) fun j hj => by rw [hrow j hj]]
    rfl
  · have h1 : (applyLens sortRow n c lens').ent = _ := he
    rw [h1]
    exact flatMap_congr_range fun j hj => (hrow j hj).symm

omit [LinearOrder W] [LinearOrder D] in
theorem zip_replicate_flatMap {α : Type*} (l : List ℕ) (f : ℕ → List α) :
    (l.flatMap fun i => List.replicate (f i).length i).zip (l.flatMap f) = l.flatMap fun i => (f i).map fun x => (i, x) := by
  induction l with
  | nil => rfl
  | cons a l ih =>
    rw [List.flatMap_cons, List.flatMap_cons, List.flatMap_cons, List.zip_append (by simp), ih]
    congr 1
    generalize f a = r
    induction r with
    | nil => rfl
    | cons x r ihr => rw [List.length_cons, List.replicate_succ, List.zip_cons_cons, ihr]; rfl

/-- **C70** (edge list).  The edge list of the core graph lists each entry with its row. -/
theorem C70_edge_list {n : ℕ} {nb : ℕ → List (Option ℕ)} {core : ℕ → D} {mst : List (Edge D)} {lens : ℕ → W} {c : LensCsr W D}
    (hc : LensGraphOf n nb core mst lens c) :
    coreGraphEdgeList n c = (List.range n).flatMap fun u => (c.row u).map fun p => (u, p.1, p.2.1, p.2.2) := by
  unfold coreGraphEdgeList
  have h : ((List.range n).flatMap fun i => List.replicate (c.indptr (i + 1) - c.indptr i) i) =
      (List.range n).flatMap fun i => List.replicate (c.row i).length i := by
    refine flatMap_congr_range fun i hi => ?_
    have h1 : c.indptr (i + 1) = rowStart n c.row (i + 1) := hc.ptr _
    have h2 : c.indptr i = rowStart n c.row i := hc.ptr _
    rw [h1, h2, rowStart_succ hi, Nat.add_sub_cancel_left]
  rw [h, hc.ent, zip_replicate_flatMap]

/-! ## C71 -/

theorem mem_lensEdges {n : ℕ} {nb : ℕ → List (Option ℕ)} {mst : List (Edge D)} {lens : ℕ → W} (hi : LensInput n nb mst) {e : Edge W} :
    e ∈ lensEdges n nb mst lens ↔ e.u < n ∧ e.w = max (lens e.u) (lens e.v) ∧ (some e.v ∈ nb e.u ∨ ∃ t ∈ mst, t.u = e.u ∧ t.v = e.v) := by
  obtain ⟨u, v, w⟩ := e
  unfold lensEdges
  rw [List.mem_append, List.mem_flatMap, List.mem_map]
  constructor
  · rintro (⟨u', hu', hm⟩ | ⟨t, ht, he⟩)
    · obtain ⟨c, hc, he⟩ := List.mem_filterMap.1 hm
      obtain ⟨v', rfl, hev⟩ := Option.map_eq_some_iff.1 he
      injection hev with h1 h2 h3
      subst h1 h2 h3
      exact ⟨List.mem_range.1 hu', rfl, .inl hc⟩
    · injection he with h1 h2 h3
      subst h1 h2 h3
      exact ⟨(hi.mst t ht).1, rfl, .inr ⟨t, ht, rfl, rfl⟩⟩
  · rintro ⟨hu, hw, h | ⟨t, ht, h1, h2⟩⟩
    · dsimp only at hu hw h
      exact .inl ⟨u, List.mem_range.2 hu, List.mem_filterMap.2 ⟨some v, h, by rw [hw]; rfl⟩⟩
    · dsimp only at hu hw h1 h2
      exact .inr ⟨t, ht, by rw [hw, h1, h2]⟩

omit [LinearOrder W] [LinearOrder D] in
theorem LensCsr.weights_row (c : LensCsr W D) (i : ℕ) : c.weights.row i = (c.row i).map fun p => (p.1, p.2.1) := by
  unfold Csr.row LensCsr.row LensCsr.weights
  simp only [List.map_take, List.map_drop]

theorem LensGraphOf.mem_graph {n : ℕ} {nb : ℕ → List (Option ℕ)} {core : ℕ → D} {mst : List (Edge D)} {lens : ℕ → W} {c : LensCsr W D}
    (hc : LensGraphOf n nb core mst lens c) (hi : LensInput n nb mst) (e : Edge W) :
    e ∈ c.weights.graph n ↔ e ∈ lensEdges n nb mst lens := by
  rw [mem_lensEdges hi, Csr.mem_graph, LensCsr.weights_row, List.mem_map]
  refine and_congr_right fun hu => ?_
  rw [← hc.mem _ hu, List.mem_map]
  constructor
  · rintro ⟨⟨v, w, d⟩, h, he⟩
    simp only [Prod.mk.injEq] at he
    obtain ⟨rfl, rfl⟩ := he
    exact ⟨hc.weight _ hu _ _ _ h, _, h, rfl⟩
  · rintro ⟨hw, ⟨v, w, d⟩, h, he⟩
    simp only at he
    subst he
    exact ⟨_, h, by rw [hw, hc.weight _ hu _ _ _ h]⟩

theorem LensGraphOf.directed {n : ℕ} {nb : ℕ → List (Option ℕ)} {core : ℕ → D} {mst : List (Edge D)} {lens : ℕ → W} {c : LensCsr W D}
    (hc : LensGraphOf n nb core mst lens c) (hi : LensInput n nb mst) : c.weights.Directed n := by
  have hp : c.indptr = rowStart n c.row := funext hc.ptr
  refine ⟨?_, ?_, fun i hin p hp => ?_⟩
  · show Monotone c.indptr
    rw [hp]; exact rowStart_mono _ _
  · show c.indptr n = (c.ent.map _).length
    rw [List.length_map, hc.ent, hp, rowStart_last]
  · rw [LensCsr.weights_row] at hp
    obtain ⟨q, hq, rfl⟩ := List.mem_map.1 hp
    rcases (hc.mem i hin q.1).1 (List.mem_map_of_mem hq) with h | ⟨e, he, h1, h2⟩
    · exact hi.knn i hin _ h
    · have := hi.mst e he
      simp only
      omega

theorem LensGraphOf.noGaps {n : ℕ} {nb : ℕ → List (Option ℕ)} {core : ℕ → D} {mst : List (Edge D)} {lens : ℕ → W} {c : LensCsr W D}
    (hc : LensGraphOf n nb core mst lens c) (hne : NoEmptyRow n nb mst) : c.weights.NoGaps n := by
  intro i hin h
  rw [LensCsr.weights_row, List.map_eq_nil_iff] at h
  exfalso
  have : ∃ v, v ∈ (c.row i).map Prod.fst := by
    rcases hne i hin with ⟨v, hv⟩ | ⟨e, he, heu⟩
    · exact ⟨v, (hc.mem i hin v).2 (.inl hv)⟩
    · exact ⟨e.v, (hc.mem i hin e.v).2 (.inr ⟨e, he, heu, rfl⟩)⟩
  obtain ⟨v, hv⟩ := this
  rw [h] at hv
  simp at hv

omit [LinearOrder W] in
/-- Spanning forests from membership alone. -/
theorem SpanningForest.of_mem {g f : List (Edge W)} (hsub : ∀ e ∈ f, e ∈ g) (ha : Acyclic f) (hc : ∀ e ∈ g, Conn f e.u e.v) :
    SpanningForest g f := by
  refine ⟨List.subperm_of_subset ha.nodup hsub, ha, fun a b => ⟨fun h => h.mono hsub, fun h => ?_⟩⟩
  exact Conn.of_forall hc h

/-- Which spanning forests are minimum depends only on which edges there are. -/
theorem MinSpanningForest.congr_mem {g g' f : List (Edge W)} (h : ∀ e, e ∈ g ↔ e ∈ g') (hm : MinSpanningForest g f) :
    MinSpanningForest g' f := by
  have tr : ∀ {g g' f : List (Edge W)}, (∀ e, e ∈ g ↔ e ∈ g') → SpanningForest g f → SpanningForest g' f := by
    intro g g' f h hf
    exact SpanningForest.of_mem (fun e he => (h e).1 (hf.sub.subset he)) hf.acyclic fun e he => (hf.conn _ _).2 (Conn.edge ((h e).2 he))
  exact ⟨tr h hm.forest, fun f' hf' => hm.minimal f' (tr (fun e => (h e).symm) hf')⟩

section
variable [OrderTop W]

/-- **C71** (partial).  Without self-neighbours and empty rows, what is returned for a lens is a spanning forest of the core graph with lens
weights, labels that tell its components apart, and their number.
Missing: minimality, which fails (`C71_not_minimal`) unless every edge is stored in both directions (`C71_symmetric_minimum`); points that are
their own neighbour (`C71_self_neighbour`); points with an empty row (`C71_empty_row`). -/
theorem C71_lens_forest_partial {sortRow : LensRow W D → LensRow W D} (hs : SortsRows sortRow) {n : ℕ} {nb : ℕ → List (Option ℕ)}
    {core : ℕ → D} {mst : List (Edge D)} {lens : ℕ → W} (hi : LensInput n nb mst) (hne : NoEmptyRow n nb mst) :
    let r := boruvkaMst n (lensGraph sortRow n nb core mst lens).weights
    SpanningForest (lensEdges n nb mst lens) r.2.2 ∧ (∀ i j, r.2.1 i = r.2.1 j ↔ Conn (lensEdges n nb mst lens) i j) ∧
      r.1 = compCount n (lensEdges n nb mst lens) := by
  have hc := C70_core_graph hs n nb core mst lens
  obtain ⟨h1, h2, h3, _, h5, h6⟩ := boruvkaMst_directed (hc.directed hi) (hc.noGaps hne)
  have hf := SpanningForest.of_mem (fun e he => (hc.mem_graph hi e).1 (h1 e he)) h2 fun e he => h3 e ((hc.mem_graph hi e).2 he)
  refine ⟨hf, fun i j => (h5 i j).trans (hf.conn i j), ?_⟩
  rw [h6]
  exact compCount_congr fun a b _ _ => hf.conn a b

/-- **C71** (symmetric graphs).  If every edge is stored in both directions the forest is a minimum spanning forest. -/
theorem C71_symmetric_minimum {sortRow : LensRow W D → LensRow W D} (hs : SortsRows sortRow) {n : ℕ} {nb : ℕ → List (Option ℕ)}
    {core : ℕ → D} {mst : List (Edge D)} {lens : ℕ → W} (hi : LensInput n nb mst) (hne : NoEmptyRow n nb mst)
    (hsym : ∀ u v, (some v ∈ nb u ∨ ∃ e ∈ mst, e.u = u ∧ e.v = v) → some u ∈ nb v ∨ ∃ e ∈ mst, e.u = v ∧ e.v = u) :
    MinSpanningForest (lensEdges n nb mst lens) (boruvkaMst n (lensGraph sortRow n nb core mst lens).weights).2.2 := by
  have hc := C70_core_graph hs n nb core mst lens
  have hd := hc.directed hi
  refine (C33_core_graph_boruvka_partial ⟨hd.mono, hd.last, hd.target, fun i hin => ?_, fun i hin p hp => ?_⟩
    (hc.noGaps hne)).1.congr_mem (hc.mem_graph hi)
  · rw [LensCsr.weights_row, List.pairwise_map]
    exact hc.sorted i hin
  · have ht := (hd.target i hin p hp).1
    rw [LensCsr.weights_row] at hp ⊢
    obtain ⟨⟨v, w, d⟩, hq, rfl⟩ := List.mem_map.1 hp
    have hm := (hc.mem v ht i).2 (hsym i v ((hc.mem i hin v).1 (List.mem_map_of_mem hq)))
    obtain ⟨⟨i', w', d'⟩, hq', rfl⟩ := List.mem_map.1 hm
    refine List.mem_map.2 ⟨_, hq', ?_⟩
    simp only [Prod.mk.injEq, true_and]
    rw [hc.weight _ ht _ _ _ hq', hc.weight _ hin _ _ _ hq, max_comm]

end

/-! ## Concrete cases and counterexamples -/

/-- A stable sort of the rows. -/
def stableRows (r : LensRow ℕ∞ ℕ) : LensRow ℕ∞ ℕ := r.insertionSort fun a b => a.2.1 ≤ b.2.1

theorem stableRows_sorts : SortsRows stableRows := by
  refine ⟨fun r => List.perm_insertionSort _ r, fun r => ?_⟩
  have : Std.Total (fun a b : ℕ × ℕ∞ × ℕ => a.2.1 ≤ b.2.1) := ⟨fun a b => le_total _ _⟩
  have : IsTrans (ℕ × ℕ∞ × ℕ) (fun a b => a.2.1 ≤ b.2.1) := ⟨fun a b c => le_trans⟩
  exact List.pairwise_insertionSort _ r

/-- The two nearest neighbours of each of the points (11, 9), (7, 3), (11, 4), (6, 2). -/
def exNb (i : ℕ) : List (Option ℕ) := [[some 2, some 1], [some 3, some 2], [some 1, some 0], [some 1, some 2]].getD i []

/-- Squared core distances of these points with two neighbours. -/
def exCoreD (i : ℕ) : ℕ := [52, 17, 25, 29].getD i 0

/-- Their minimum spanning tree by mutual reachability. -/
def exTreeD : List (Edge ℕ) := [⟨2, 1, 25⟩, ⟨3, 1, 29⟩, ⟨0, 1, 52⟩]

/-- A lens on them. -/
def exLens (i : ℕ) : ℕ∞ := [3, 2, 1, 1].getD i 0

theorem exNb_input : LensInput 4 exNb exTreeD ∧ NoEmptyRow 4 exNb exTreeD := by
  refine ⟨⟨fun u hu v hv => ?_, by decide⟩, fun u hu => ?_⟩
  · interval_cases u <;> simp [exNb] at hv <;> omega
  · interval_cases u <;> exact .inl ⟨_, List.mem_cons_self⟩

/-- A spanning tree of the core graph of smaller weight than the one returned. -/
def exBetter : List (Edge ℕ∞) := [⟨3, 2, 1⟩, ⟨1, 2, 2⟩, ⟨0, 1, 3⟩]

theorem exBetter_forest : SpanningForest (lensEdges 4 exNb exTreeD exLens) exBetter := by
  have h32 : Conn exBetter 3 2 := Conn.edge (e := ⟨3, 2, 1⟩) (by simp [exBetter])
  have h12 : Conn exBetter 1 2 := Conn.edge (e := ⟨1, 2, 2⟩) (by simp [exBetter])
  have h01 : Conn exBetter 0 1 := Conn.edge (e := ⟨0, 1, 3⟩) (by simp [exBetter])
  have h2 : ∀ a, a < 4 → Conn exBetter a 2 := by
    intro a ha
    interval_cases a
    · exact h01.trans h12
    · exact h12
    · exact Conn.refl _ _
    · exact h32
  have hall : ∀ a b, a < 4 → b < 4 → Conn exBetter a b := fun a b ha hb => (h2 a ha).trans (h2 b hb).symm
  refine SpanningForest.of_mem (by decide +kernel) (acyclic_of_connected (n := 4) (by unfold InRange; decide) hall (by decide)) fun e he => ?_
  have : e.u < 4 ∧ e.v < 4 := by revert e; decide +kernel
  exact hall _ _ this.1 this.2

/-- **C71** fails in its full form: points 2 and 3 have lens value 1, and the edge of weight 1 between them is stored at 3 only.  When the proposal
of 3 is looked at, those of 1 and 2 have already joined it to 2 by edges of weight 2; the returned tree has weights 2, 2, 3, not 1, 2, 3. -/
theorem C71_not_minimal :
    (boruvkaMst 4 (lensGraph stableRows 4 exNb exCoreD exTreeD exLens).weights).2.2 = [⟨0, 2, 3⟩, ⟨1, 3, 2⟩, ⟨2, 1, 2⟩] ∧
      ¬ MinSpanningForest (lensEdges 4 exNb exTreeD exLens)
        (boruvkaMst 4 (lensGraph stableRows 4 exNb exCoreD exTreeD exLens).weights).2.2 := by
  have h : (boruvkaMst 4 (lensGraph stableRows 4 exNb exCoreD exTreeD exLens).weights).2.2 = [⟨0, 2, 3⟩, ⟨1, 3, 2⟩, ⟨2, 1, 2⟩] := by
    decide +kernel
  refine ⟨h, fun hm => ?_⟩
  have h2 := hm.minimal _ exBetter_forest
  rw [h] at h2
  revert h2
  decide +kernel

/-- The hypotheses of `C71_lens_forest_partial` hold for these points. -/
example : SpanningForest (lensEdges 4 exNb exTreeD exLens)
    (boruvkaMst 4 (lensGraph stableRows 4 exNb exCoreD exTreeD exLens).weights).2.2 :=
  (C71_lens_forest_partial stableRows_sorts exNb_input.1 exNb_input.2).1

/-- The hypotheses of `C71_symmetric_minimum` hold when three points are each other's neighbours. -/
example : MinSpanningForest (lensEdges 3 (fun i => if i < 3 then [some ((i + 1) % 3), some ((i + 2) % 3)] else []) ([] : List (Edge ℕ)) exLens)
    (boruvkaMst 3 (lensGraph stableRows 3 (fun i => if i < 3 then [some ((i + 1) % 3), some ((i + 2) % 3)] else []) exCoreD [] exLens).weights).2.2 := by
  refine C71_symmetric_minimum stableRows_sorts ⟨fun u hu v hv => ?_, by simp⟩ (fun u hu => ?_) fun u v h => ?_
  · rw [if_pos hu] at hv
    simp only [List.mem_cons, Option.some.injEq, List.not_mem_nil, or_false] at hv
    omega
  · exact .inl ⟨(u + 1) % 3, by rw [if_pos hu]; simp⟩
  · left
    have h := h.resolve_right (by simp)
    split at h
    next hu =>
      simp only [List.mem_cons, Option.some.injEq, List.not_mem_nil, or_false] at h
      rw [if_pos (by omega)]
      simp only [List.mem_cons, Option.some.injEq, List.not_mem_nil, or_false]
      omega
    next => simp at h

/-- Two equal points, each of which is among its own neighbours. -/
def selfNb (i : ℕ) : List (Option ℕ) := if i < 2 then [some i, some (1 - i)] else []

/-- **C71** fails if points are their own neighbours: the entry of a point for itself comes first and proposes nothing, so two components are
reported although the points are joined. -/
theorem C71_self_neighbour :
    (boruvkaMst 2 (lensGraph stableRows 2 selfNb (fun _ => 0) [⟨0, 1, 0⟩] fun _ => 1).weights).1 = 2 ∧
      compCount 2 (lensEdges 2 selfNb ([⟨0, 1, 0⟩] : List (Edge ℕ)) fun _ => (1 : ℕ∞)) = 1 := by
  refine ⟨by decide +kernel, compCount_eq_one (by decide) fun a b ha hb => ?_⟩
  have h : Conn (lensEdges 2 selfNb ([⟨0, 1, 0⟩] : List (Edge ℕ)) fun _ => (1 : ℕ∞)) 0 1 :=
    Conn.edge (e := ⟨0, 1, 1⟩) (by decide +kernel)
  interval_cases a <;> interval_cases b <;> first | exact Conn.refl _ _ | exact h | exact h.symm

/-- Three points; the first has no neighbours and is only the second end of a tree edge. -/
def emptyNb (i : ℕ) : List (Option ℕ) := [[], [some 2], [some 1]].getD i []

/-- **C71** fails with an empty row: point 0 is given the edge from 0 to 2, which is the entry of the next row and not in the graph. -/
theorem C71_empty_row :
    (⟨0, 2, 5⟩ : Edge ℕ∞) ∈ (boruvkaMst 3 (lensGraph stableRows 3 emptyNb (fun _ => 0) [⟨1, 0, 7⟩] fun i => [9, 5, 5].getD i 0).weights).2.2 ∧
      ∀ w, (⟨0, 2, w⟩ : Edge ℕ∞) ∉ lensEdges 3 emptyNb ([⟨1, 0, 7⟩] : List (Edge ℕ)) fun i => [9, 5, 5].getD i 0 := by
  refine ⟨by decide +kernel, fun w h => ?_⟩
  have : ∀ e ∈ lensEdges 3 emptyNb ([⟨1, 0, 7⟩] : List (Edge ℕ)) (fun i => ([9, 5, 5].getD i 0 : ℕ∞)), e.u ≠ 0 := by decide +kernel
  exact this _ h rfl

end Verif
