import Verif.Model.KnnKruskal
import Verif.Spec.KnnKruskal
import Verif.Lemmas.BruteMst
import Verif.Props.Kruskal
import Verif.Props.Bridge

/-!
# C79: spanning trees from lists of neighbours
-/

namespace Verif
variable {W : Type*} [LinearOrder W] [OrderTop W]

theorem mem_knnEdges {n : ℕ} {knn : ℕ → List (Option ℕ × W)} {core : ℕ → W} {e : Edge W} :
    e ∈ knnEdges n knn core ↔ KnnEdge n knn core e := by
  unfold knnEdges
  rw [List.mem_filter]
  simp only [List.mem_flatMap, List.mem_range, List.mem_map, decide_eq_true_eq]
  constructor
  · rintro ⟨⟨i, hi, ⟨o, d⟩, hp, he⟩, h1, h2⟩
    cases o with
    | none => subst he; exact absurd rfl h1
    | some j =>
      subst he
      refine ⟨hi, h1, ⟨d, hp, mrdW_eq _ _ _⟩, lt_top_iff_ne_top.2 h2⟩
  · rintro ⟨h1, h2, ⟨d, hd, hw⟩, h3⟩
    refine ⟨⟨e.u, h1, (some e.v, d), hd, ?_⟩, h2, h3.ne⟩
    show (⟨e.u, e.v, mrdW _ _ _⟩ : Edge W) = e
    rw [mrdW_eq, ← hw]

theorem knnEdges_inRange {n : ℕ} {knn : ℕ → List (Option ℕ × W)} {core : ℕ → W} (hr : ∀ i < n, ∀ j d, (some j, d) ∈ knn i → j < n) :
    InRange n (knnEdges n knn core) := fun e he => by
  obtain ⟨h1, _, ⟨d, hd, _⟩, _⟩ := mem_knnEdges.1 he
  exact ⟨h1, hr _ h1 _ _ hd⟩

theorem finishMst_bridges {n : ℕ} (hn : 0 < n) {s : KState W} (hrep : Represents n s.pred s.mst) (ha : Acyclic s.mst) :
    SpanningTree n (finishMst s n) ∧ ∃ b, finishMst s n = s.mst ++ b ∧ (∀ e ∈ b, e.w = ⊤) ∧ b.length + 1 = compCount n s.mst := by
  obtain ⟨h1, b, h2, h3⟩ := C08_finish_spanning_tree n hn s hrep ha
  refine ⟨h1, b, h2, h3, ?_⟩
  have e1 := h1.acyclic.length_add_compCount h1.inRange
  have e2 := ha.length_add_compCount hrep.inRange
  have e3 : compCount n (finishMst s n) ≤ 1 := by
    classical
    unfold compCount
    rw [Finset.card_le_one]
    intro x hx y hy
    rw [Finset.mem_filter, Finset.mem_range] at hx hy
    rcases Nat.lt_trichotomy x y with h | h | h
    · exact absurd (h1.conn y x hy.1 hx.1) (hy.2 x h)
    · exact h
    · exact absurd (h1.conn x y hx.1 hy.1) (hx.2 y h)
  have e4 := compCount_pos hn (es := finishMst s n)
  rw [h2, List.length_append] at e1
  rw [h2] at e3 e4
  omega

theorem kruskal_bridged {n : ℕ} (hn : 0 < n) {g g' : List (Edge W)} (hr : InRange n g) (hf : ∀ e ∈ g, e.w < ⊤) (hg : ∀ e, e ∈ g ↔ e ∈ g') :
    BridgedForest n g' (finishMst (kruskalCore n (sortEdges g)) n) := by
  obtain ⟨hmsf, _⟩ := kruskal_msf hr
  have hinv := kruskalCore_inv (sortEdges_inRange hr)
  obtain ⟨h1, b, h2, h3, h4⟩ := finishMst_bridges hn hinv.rep hmsf.forest.acyclic
  have hm' := hmsf.congr_mem hg
  refine ⟨h1, _, b, h2, hm', fun e he => hf e (hmsf.forest.sub.subset he), h3, ?_⟩
  rw [h4]
  exact compCount_congr fun a b _ _ => hm'.forest.conn a b

/-- Below `+inf` the tree connects what the graph connects. -/
theorem BridgedForest.conn_upTo {n : ℕ} {g tree : List (Edge W)} (h : BridgedForest n g tree) {τ : W} (hτ : τ < ⊤) (a b : ℕ) :
    Conn (upTo τ tree) a b ↔ Conn (upTo τ g) a b := by
  obtain ⟨f, br, h1, h2, _, h3, _⟩ := h.parts
  rw [← h2.conn_upTo τ a b]
  have : ∀ e, e ∈ upTo τ tree ↔ e ∈ upTo τ f := fun e => by
    rw [mem_upTo, mem_upTo, h1, List.mem_append]
    constructor
    · rintro ⟨h | h, hw⟩
      · exact ⟨h, hw⟩
      · rw [h3 e h] at hw; exact absurd hτ (not_lt.2 hw)
    · rintro ⟨h, hw⟩; exact ⟨Or.inl h, hw⟩
  exact ⟨Conn.mono fun e he => (this e).1 he, Conn.mono fun e he => (this e).2 he⟩

/-- **C79.** From lists of neighbours and core distances, `_kruskal_mst_knn` without constraints gives a spanning tree of all samples: a minimum spanning
forest of the graph of neighbours with mutual reachability weights, plus infinite edges between its components.  At every finite threshold the tree connects
exactly the samples that the graph connects.  Entries `-1` and infinite distances are ignored. -/
theorem C79_knn_kruskal (n : ℕ) (hn : 0 < n) (knn : ℕ → List (Option ℕ × W)) (core : ℕ → W) (hr : ∀ i < n, ∀ j d, (some j, d) ∈ knn i → j < n)
    (g : List (Edge W)) (hg : ∀ e, e ∈ g ↔ KnnEdge n knn core e) :
    BridgedForest n g (kruskalKnn n knn core CLParams.none) ∧
      ∀ τ < ⊤, ∀ a b, Conn (upTo τ (kruskalKnn n knn core CLParams.none)) a b ↔ Conn (upTo τ g) a b := by
  have h : BridgedForest n g (kruskalKnn n knn core CLParams.none) := by
    unfold kruskalKnn
    rw [run_none]
    exact kruskal_bridged hn (knnEdges_inRange hr) (fun e he => (mem_knnEdges.1 he).finite) fun e => by rw [mem_knnEdges, hg]
  exact ⟨h, fun τ hτ a b => h.conn_upTo hτ a b⟩

/-- C79, pairwise constraints: a spanning tree; below `+inf` no constrained pair is connected. -/
theorem C79_knn_pairwise {V : Type*} [AddCommMonoid V] [DecidableEq V] (n : ℕ) (hn : 0 < n) (knn : ℕ → List (Option ℕ × W)) (core : ℕ → W)
    (hr : ∀ i < n, ∀ j d, (some j, d) ∈ knn i → j < n) (m : SparseCL V) (cl : CLParams) (hcl : resolveCL n (some m) true none = .ok cl)
    (i j : ℕ) (hi : i < n) (hj : j < n) (hne : i ≠ j) (hv : m.val i j + m.val j i ≠ 0) (τ : W) (hτ : τ < ⊤) :
    SpanningTree n (kruskalKnn n knn core cl) ∧ ¬ Conn (upTo τ (kruskalKnn n knn core cl)) i j := by
  obtain ⟨_, _, _, rfl⟩ := resolve_pairwise_ok hcl
  have hr' := sortEdges_inRange (knnEdges_inRange (core := core) hr)
  have hsym : ∀ x y, x < n → y ∈ (List.range n).filter (fun j => m.val x j + m.val j x ≠ 0) →
      y < n ∧ x ∈ (List.range n).filter (fun j => m.val y j + m.val j y ≠ 0) := fun x y hx hy => by
    simp only [List.mem_filter, List.mem_range, decide_eq_true_eq] at hy ⊢
    exact ⟨hy.1, hx, by rw [add_comm]; exact hy.2⟩
  have hinv := run_pairwise_inv (fun x y h => hsym x y h.1 h.2) hr'
  obtain ⟨h1, b, h2, h3, _⟩ := finishMst_bridges hn hinv.rep hinv.greedy.acyclic
  refine ⟨h1, fun hc => ?_⟩
  refine C03_pairwise_never_connected n _ _ hr' hsym i j hi (by simpa using ⟨hj, hv⟩) hne (hc.mono fun e he => ?_)
  obtain ⟨he, hw⟩ := mem_upTo.1 he
  unfold kruskalKnn at he
  rw [h2] at he
  rcases List.mem_append.1 he with h | h
  · exact h
  · rw [h3 e h] at hw; exact absurd hτ (not_lt.2 hw)

/-- C79, group constraints. -/
theorem C79_knn_groups (n len : ℕ) (hn : 0 < n) (knn : ℕ → List (Option ℕ × W)) (core : ℕ → W)
    (hr : ∀ i < n, ∀ j d, (some j, d) ∈ knn i → j < n) (gr : ℕ → ℤ) (v : Bool) (cl : CLParams)
    (hcl : resolveCL (V := ℤ) n none v (some (len, gr)) = .ok cl)
    (i j : ℕ) (hi : i < n) (hj : j < n) (hne : i ≠ j) (hg : 0 ≤ gr i) (hij : gr i = gr j) (τ : W) (hτ : τ < ⊤) :
    SpanningTree n (kruskalKnn n knn core cl) ∧ ¬ Conn (upTo τ (kruskalKnn n knn core cl)) i j := by
  have hr' := sortEdges_inRange (knnEdges_inRange (core := core) hr)
  have hnc := C03_groups_never_connected n len gr cl v hcl _ hr' i j hi hj hg hij hne
  obtain rfl := resolve_groups_ok hcl
  have hinv := run_groups_inv (g := gr) hr'
  obtain ⟨h1, b, h2, h3, _⟩ := finishMst_bridges hn hinv.rep hinv.greedy.acyclic
  refine ⟨h1, fun hc => hnc (hc.mono fun e he => ?_)⟩
  obtain ⟨he, hw⟩ := mem_upTo.1 he
  unfold kruskalKnn at he
  rw [h2] at he
  rcases List.mem_append.1 he with h | h
  · exact h
  · rw [h3 e h] at hw; exact absurd hτ (not_lt.2 hw)

theorem nnMst_edges [Zero W] (n ms : ℕ) (knnK : Option ℕ) (graph : ℕ → ℕ → List (Option ℕ × W)) :
    (nnMst n ms knnK graph).edges = kruskalKnn n (nnStrip (graph (nnK ms knnK + 1))) (nnMst n ms knnK graph).core CLParams.none := rfl

/-- C79 for `algorithm='nndescent'`.  NNDescent is asked for `k + 1` neighbours, `k = max(knn_k, min_samples)`; whatever rows of that length it returns,
without their first entries they are the lists of neighbours of C79.  The core distance is the distance to entry `min_samples` of the row (counted from 0:
the first entry is the sample itself), or 0 for `min_samples ≤ 1`. -/
theorem C79_nndescent [Zero W] (n ms : ℕ) (hn : 0 < n) (knnK : Option ℕ) (graph : ℕ → ℕ → List (Option ℕ × W))
    (hlen : ∀ k i, i < n → (graph k i).length = k) (hr : ∀ k, ∀ i < n, ∀ j d, (some j, d) ∈ graph k i → j < n) :
    let k := max (knnK.getD (max (3 * ms) 15)) ms
    let r := nnMst n ms knnK graph
    (∀ i < n, ms ≤ 1 → r.core i = 0) ∧ (∀ i < n, 1 < ms → ∃ p, (graph (k + 1) i)[ms]? = some p ∧ r.core i = p.2) ∧
      (∀ i < n, r.neighbors i = (((graph (k + 1) i).map Prod.fst).drop 1).take (max ms 1)) ∧
      ∀ g : List (Edge W), (∀ e, e ∈ g ↔ KnnEdge n (fun i => (graph (k + 1) i).drop 1) r.core e) →
        BridgedForest n g r.edges ∧ ∀ τ < ⊤, ∀ a b, Conn (upTo τ r.edges) a b ↔ Conn (upTo τ g) a b := by
  intro k r
  have hk : nnK ms knnK = k := rfl
  have hs : ∀ i, nnStrip (graph (k + 1)) i = (graph (k + 1) i).drop 1 := fun i => by unfold nnStrip; rw [List.drop_one]
  refine ⟨fun i _ h => if_pos h, fun i hi h => ?_, fun i _ => ?_, fun g hg => ?_⟩
  · have h1 : ms < (graph (k + 1) i).length := by rw [hlen _ _ hi]; show ms < max _ ms + 1; omega
    refine ⟨_, List.getElem?_eq_getElem h1, ?_⟩
    show nnCore ms (nnK ms knnK) (nnStrip (graph (nnK ms knnK + 1))) i = _
    rw [hk]
    unfold nnCore
    rw [if_neg (by omega), if_pos (by show ms ≤ max _ ms; omega), hs, List.getElem?_drop, show 1 + (ms - 1) = ms by omega,
      List.getElem?_eq_getElem h1]
    rfl
  · show ((nnStrip (graph (nnK ms knnK + 1)) i).take (if 0 < ms then ms else 1)).map Prod.fst = _
    rw [hk, hs, List.map_take, List.map_drop]
    congr 1
    split <;> omega
  · have : (fun i => (graph (k + 1) i).drop 1) = nnStrip (graph (nnK ms knnK + 1)) := by
      funext i; rw [hk, hs]
    rw [this] at hg
    rw [show r.edges = _ from nnMst_edges n ms knnK graph]
    exact C79_knn_kruskal n hn _ _ (fun i hi j d hd => hr _ i hi j d (List.mem_of_mem_tail hd)) g hg

/-! ## Cases -/

/-- Lists of neighbours of five samples, with padding; samples 0, 1, 2 and 3, 4 do not see each other. -/
def exKnn (i : ℕ) : List (Option ℕ × WithTop ℤ) :=
  [[(some 1, 2), (some 2, 5)], [(some 0, 2), (some 2, 3)], [(some 1, 3), (none, ⊤)], [(some 4, 1), (none, ⊤)], [(some 3, 1), (some 4, 0)]].getD i []

example : (∀ i < 5, ∀ p ∈ exKnn i, ∀ j, p.1 = some j → j < 5) ∧
    kruskalKnn 5 exKnn (fun i => if i = 0 then 4 else 1) CLParams.none = [⟨3, 4, 1⟩, ⟨1, 2, 3⟩, ⟨0, 1, 4⟩, ⟨0, 3, ⊤⟩] := by decide +kernel

/-- Samples 0 and 2 must not be linked. -/
def exKnnCL : SparseCL ℤ := ⟨5, 5, true, fun i => if i = 0 then [2] else [], fun i j => if i = 0 ∧ j = 2 then 1 else 0⟩

example : (resolveCL 5 (some exKnnCL) true none).toOption.map (fun cl => kruskalKnn 5 exKnn (fun _ => 0) cl) =
    some [⟨3, 4, 1⟩, ⟨0, 1, 2⟩, ⟨0, 2, ⊤⟩, ⟨2, 3, ⊤⟩] ∧ exKnnCL.val 0 2 + exKnnCL.val 2 0 ≠ 0 := by decide +kernel

example : (resolveCL (V := ℤ) 5 none true (some (5, fun i => if i = 0 ∨ i = 2 then 3 else -1))).toOption.map
    (fun cl => kruskalKnn 5 exKnn (fun _ => 0) cl) = some [⟨3, 4, 1⟩, ⟨0, 1, 2⟩, ⟨0, 2, ⊤⟩, ⟨2, 3, ⊤⟩] := by decide +kernel

/-- Exact neighbours of points on a line, for any number of neighbours asked for. -/
def exNnGraph (k i : ℕ) : List (Option ℕ × WithTop ℤ) :=
  (((List.range 4).map fun j => (some j, ((([0, 1, 3, 10].getD i 0 - [0, 1, 3, 10].getD j 0 : ℤ).natAbs : ℤ) : WithTop ℤ))).insertionSort
    (fun a b : Option ℕ × WithTop ℤ => a.2 ≤ b.2) ++ List.replicate k (none, ⊤)).take k

example : (∀ k i, i < 4 → (exNnGraph k i).length = k) ∧ (nnMst 4 2 (some 1) exNnGraph).edges = [⟨0, 1, 3⟩, ⟨0, 2, 3⟩, ⟨3, 2, 9⟩] := by
  refine ⟨fun k i _ => ?_, by decide +kernel⟩
  unfold exNnGraph
  rw [List.length_take, List.length_append, List.length_replicate]
  omega

end Verif
