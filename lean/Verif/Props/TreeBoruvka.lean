import Mathlib.Data.Rat.Floor
import Verif.Lemmas.TreeWeights
import Verif.Props.KdTree

/-!
# C34, C35, C36, C39, C40, C60: the tree-based Borůvka routine
-/

namespace Verif
variable {R W : Type*} [LinearOrder R] [LinearOrder W] [OrderTop W]

/-! ### C34 -/

/-- What `ExactCandidates` says about a component with an edge of finite weight leaving it: a lightest of the edges leaving it has
been found, and no candidate of the component is lighter. -/
theorem ExactCandidates.lightest {n : ℕ} {comp : ℕ → ℕ} {weight : ℕ → ℕ → W} {cand : ℕ → W × Option ℕ}
    (h : ExactCandidates n comp weight cand) {p q : ℕ} (hp : p < n) (hq : q < n) (hpq : comp p ≠ comp q) (hw : weight p q < ⊤) :
    ∃ i < n, ∃ j < n, comp i = comp p ∧ comp j ≠ comp p ∧ cand i = (weight i j, some j) ∧
      (∀ a < n, ∀ b < n, comp a = comp p → comp b ≠ comp p → weight i j ≤ weight a b) ∧
      ∀ k < n, comp k = comp p → weight i j ≤ (cand k).1 := by
  classical
  obtain ⟨k, hk, hkp, hkw⟩ := h.best p hp q hq hpq hw
  obtain ⟨i, hi, himin⟩ := Finset.exists_min_image ((Finset.range n).filter fun i => comp i = comp p) (fun i => (cand i).1)
    ⟨k, by simp [hk, hkp]⟩
  simp only [Finset.mem_filter, Finset.mem_range] at hi himin
  have hlt : (cand i).1 < ⊤ := (himin k ⟨hk, hkp⟩).trans_lt (hkw.trans_lt hw)
  rcases h.real i hi.1 with hc | ⟨j, hj, hji, hc⟩
  · rw [hc] at hlt; exact absurd hlt (lt_irrefl _)
  · have hmin : ∀ k < n, comp k = comp p → weight i j ≤ (cand k).1 := fun k hk hkp => by
      have := himin k ⟨hk, hkp⟩
      rw [hc] at this; exact this
    refine ⟨i, hi.1, j, hj, hi.2, by rw [← hi.2]; exact hji, hc, fun a ha b hb hap hbp => ?_, hmin⟩
    by_cases htop : weight a b < ⊤
    · obtain ⟨m, hm, hma, hmw⟩ := h.best a ha b hb (by rw [hap]; exact fun e => hbp e.symm) htop
      exact (hmin m hm (hma.trans hap)).trans hmw
    · rw [not_lt_top_iff.1 htop]; exact le_top

/-- C34: for every data set, every assignment of components and every interleaving of the threads, with reads that may return any
earlier value of the shared bound, the search finds for every component a lightest edge leaving it.  The only requirement on the
components stored at the tree nodes is that they are right where they are set. -/
theorem C34_exact {ar : Arith R W} (ha : ar.Lawful) (zero : R) (pts : ℕ → ℕ → R) (dims n leafSize : ℕ) (hn : 0 < n) (hl : 1 ≤ leafSize)
    (t : KdTree R) (ht : buildKdTree ar zero pts dims n leafSize = some t) (core : ℕ → W) (comp : ℕ → ℕ) (nodeComp : ℕ → Option ℕ)
    (hs : NodesSound t comp nodeComp) (cand : ℕ → W × Option ℕ)
    (hq : QueryResult anyVis ⟨ar, dims, pts, t, numNodes n leafSize, core, comp, nodeComp⟩ n cand) :
    ExactCandidates n comp (mreach ar dims pts core) cand := by
  obtain ⟨t', e, hv⟩ := buildKdTree_valid ar zero pts dims n leafSize hn hl
  rw [ht] at e; cases e
  exact queryResult_exact _ ha hv hs hq

/-- C34 with `reproducible=True`, for any block size. -/
theorem C34_exact_reproducible {ar : Arith R W} (ha : ar.Lawful) (zero : R) (pts : ℕ → ℕ → R) (dims n leafSize : ℕ) (hn : 0 < n)
    (hl : 1 ≤ leafSize) (t : KdTree R) (ht : buildKdTree ar zero pts dims n leafSize = some t) (core : ℕ → W) (comp : ℕ → ℕ)
    (nodeComp : ℕ → Option ℕ) (hs : NodesSound t comp nodeComp) (size : ℕ) (cand : ℕ → W × Option ℕ)
    (hq : ReproResult anyVis ⟨ar, dims, pts, t, numNodes n leafSize, core, comp, nodeComp⟩ n size cand) :
    ExactCandidates n comp (mreach ar dims pts core) cand := by
  obtain ⟨t', e, hv⟩ := buildKdTree_valid ar zero pts dims n leafSize hn hl
  rw [ht] at e; cases e
  exact reproResult_exact _ ha hv hs hq

omit [LinearOrder W] [OrderTop W] in
/-- Searching always comes to an end: the number of steps is bounded, whatever the interleaving and whatever the reads return. -/
theorem C34_terminates [LinearOrder W] [OrderTop W] (vis : List W → W → Prop) (x : QCtx R W) (n : ℕ) :
    ∃ N, ∀ (f : ℕ → QConfig W (W × Option ℕ)) (len : ℕ), f 0 = ⟨pointProg x, fun _ => []⟩ →
      (∀ k < len, QStep vis x.comp 0 n (f k) (f (k + 1))) → len ≤ N :=
  no_infinite _ fun i _ => pointProg_depth x i

/-- The requirement of `C34_exact` is met in every round of `parallel_boruvka`, so that the search is exact in every round: `s` is any
state at the head of the loop. -/
theorem C34_in_every_round {vis : List W → W → Prop} (hvis : ∀ h w, vis h w → anyVis h w) {ar : Arith R W} (ha : ar.Lawful) (zero : R)
    (pts : ℕ → ℕ → R) (dims n leafSize ms : ℕ) (hl : 1 ≤ leafSize) (hn : 2 ≤ n) (hms : ms < n) (hbig : ms < 32768)
    (hfin : ∀ i < n, ∀ j < n, rdist ar dims (pts i) (pts j) < ⊤) (t : KdTree R) (ht : buildKdTree ar zero pts dims n leafSize = some t)
    (rows : ℕ → List (W × Option ℕ)) (hrows : ∀ i < n, treeQuery ar id dims pts t (numNodes n leafSize) (treeK ms) (pts i) = some (rows i))
    (repro : Option ℕ) (s : TState W)
    (hs : LoopState t (numNodes n leafSize) n (loopQuery vis ar dims pts t (numNodes n leafSize) n (treeCore ar.zero ms rows) repro)
      (treeStart t (numNodes n leafSize) n (treeCore ar.zero ms rows) rows) s) :
    NodesSound t s.comp s.nodeComp ∧ (∀ a < n, ∀ b < n, s.comp a = s.comp b ↔ Conn (s.edges.map (TEdge.toEdge n)) a b) ∧
      ∀ cand, loopQuery vis ar dims pts t (numNodes n leafSize) n (treeCore ar.zero ms rows) repro s cand →
        ExactCandidates n s.comp (mreach ar dims pts (treeCore ar.zero ms rows)) cand := by
  obtain ⟨t', e, hv⟩ := buildKdTree_valid ar zero pts dims n leafSize (by omega) hl
  rw [ht] at e; cases e
  have hk1 : treeK ms ≤ 32768 := by unfold treeK; split <;> omega
  have hk2 : 0 < treeK ms := by unfold treeK; split <;> omega
  have hk3 : treeK ms ≤ n := by unfold treeK; split <;> omega
  have hknn : ∀ i < n, KnnRow n (treeK ms) (fun q => rdist ar dims (pts i) (pts q)) (rows i) := fun i hi =>
    knnRow_of_query ha dims pts hv hk1 hk2 hk3 (pts i) (hfin i hi) (hrows i hi)
  have hwfin := treeCore_finite ha hknn hfin
  have exact_ : ∀ s cand, TInv t pts dims (numNodes n leafSize) n (mreach ar dims pts (treeCore ar.zero ms rows)) s →
      loopQuery vis ar dims pts t (numNodes n leafSize) n (treeCore ar.zero ms rows) repro s cand →
      ExactCandidates n s.comp (mreach ar dims pts (treeCore ar.zero ms rows)) cand := by
    intro s cand hi hq
    have hsound := hi.nodes.sound hv
    cases repro with
    | none =>
      obtain ⟨c, hph, hc⟩ := hq
      exact queryResult_exact ⟨ar, dims, pts, t, _, _, s.comp, s.nodeComp⟩ ha hv hsound ⟨c, hph.weaken hvis, hc⟩
    | some th =>
      obtain ⟨c, hb, hc⟩ := hq
      exact reproResult_exact ⟨ar, dims, pts, t, _, _, s.comp, s.nodeComp⟩ ha hv hsound (size := blockSize s.nComp n th)
        ⟨c, hb.weaken hvis, hc⟩
  have inv : TInv t pts dims (numNodes n leafSize) n (mreach ar dims pts (treeCore ar.zero ms rows)) s := by
    induction hs with
    | start => exact treeStart_inv fun i hi e he => init_good ha dims pts hn hknn hi he
    | next s cand _ h1 hq ih => exact (ih.round (mreach_comm ha dims pts _) hwfin h1 (exact_ s cand ih hq)).1
  exact ⟨inv.nodes.sound hv, fun a _ b _ => by rw [inv.comp, inv.comp]; exact inv.rep.conn a b, fun cand hq => exact_ s cand inv hq⟩

/-- Six points on a line; the first round from the nearest neighbours joins 7, 6, 9 and 21, 13, 15. -/
def sixPts (i _ : ℕ) : ℤ := [7, 6, 21, 9, 13, 15].getD i 0

/-- The tree over the six points: one leaf. -/
def sixTree : KdTree ℤ := (buildKdTree (roundedArith (id : ℤ → ℤ)) 0 sixPts 1 6 40).get (by decide +kernel)

/-- The nearest neighbours of the six points. -/
def sixRows (i : ℕ) : List (WithTop ℤ × Option ℕ) := (treeQuery (roundedArith (id : ℤ → ℤ)) id 1 sixPts sixTree 1 4 (sixPts i)).getD []

/-- The squared core distances of the six points. -/
def sixCore : ℕ → WithTop ℤ := treeCore (roundedArith (id : ℤ → ℤ)).zero 3 sixRows

/-- The first round on the six points. -/
def sixCtx (s : TState (WithTop ℤ)) : QCtx ℤ (WithTop ℤ) :=
  ⟨roundedArith id, 1, sixPts, sixTree, 1, sixCore, s.comp, s.nodeComp⟩

/-- The state of the six points before the loop. -/
def sixStart : TState (WithTop ℤ) := treeStart sixTree 1 6 sixCore sixRows

theorem six_rows (i : ℕ) (hi : i < 6) : treeQuery (roundedArith (id : ℤ → ℤ)) id 1 sixPts sixTree 1 (treeK 3) (sixPts i) = some (sixRows i) := by
  have : ∀ i < 6, (treeQuery (roundedArith (id : ℤ → ℤ)) id 1 sixPts sixTree 1 (treeK 3) (sixPts i)).isSome := by decide +kernel
  obtain ⟨r, hr⟩ := Option.isSome_iff_exists.1 (this i hi)
  have h4 : treeK 3 = 4 := rfl
  rw [h4] at hr ⊢
  unfold sixRows
  rw [hr]; rfl

/-- The candidates when the threads run in ascending order. -/
def sixUp (i : ℕ) : WithTop ℤ × Option ℕ :=
  [(((36 : ℤ) : WithTop ℤ), some 4), (⊤, none), (((144 : ℤ) : WithTop ℤ), some 3), (⊤, none), (((36 : ℤ) : WithTop ℤ), some 0), (((36 : ℤ) : WithTop ℤ), some 3)].getD i (⊤, none)

/-- The candidates when the threads run in descending order. -/
def sixDown (i : ℕ) : WithTop ℤ × Option ℕ :=
  [(⊤, none), (⊤, none), (⊤, none), (((36 : ℤ) : WithTop ℤ), some 4), (((36 : ℤ) : WithTop ℤ), some 3), (((36 : ℤ) : WithTop ℤ), some 3)].getD i (⊤, none)

theorem six_up : QueryResult lastVis (sixCtx sixStart) 6 sixUp :=
  queryResult_seq _ 6 [0, 1, 2, 3, 4, 5] (by decide) sixUp (by decide +kernel)

/-- Case: for `min_samples=3` the thread of point 7 finds the edge to point 13. -/
example : ∃ cand, QueryResult anyVis (sixCtx sixStart) 6 cand ∧ cand 0 = (((36 : ℤ) : WithTop ℤ), some 4) ∧ sixStart.comp 0 ≠ sixStart.comp 4 := by
  obtain ⟨c, h1, h2⟩ := six_up
  exact ⟨sixUp, ⟨c, h1.weaken fun _ _ => lastVis_anyVis, h2⟩, rfl, by decide +kernel⟩

/-! ### C35 -/

/-- C35, when fewer than 32768 samples are asked for and no squared distance is infinite: for every schedule, with reads that may
return any earlier value of the shared bounds, with or without `reproducible`, the result is a minimum spanning tree of the complete
graph of mutual reachability distances.  `rt` is the square root.  The core distance of a sample is entry `min_samples` of its
sorted distances to all samples, itself included. -/
theorem C35_minimum_spanning_tree_partial {vis : List W → W → Prop} (hvis : ∀ h w, vis h w → anyVis h w) {ar : Arith R W} (ha : ar.Lawful)
    {rt : W → W} (hrt : Monotone rt) (zero : R) (pts : ℕ → ℕ → R) (dims n leafSize ms : ℕ) (hl : 1 ≤ leafSize) (hn : 2 ≤ n) (hms : ms < n)
    (hbig : ms < 32768) (hfin : ∀ i < n, ∀ j < n, rdist ar dims (pts i) (pts j) < ⊤) (t : KdTree R)
    (ht : buildKdTree ar zero pts dims n leafSize = some t) (repro : Option ℕ) (edges : List (TEdge W)) (core : ℕ → W)
    (h : TreeBoruvka vis ar rt dims pts t (numNodes n leafSize) n ms repro edges core) :
    (∀ i < n, core i = if 1 < ms then
        (((List.range n).map fun q => rt (rdist ar dims (pts i) (pts q))).insertionSort (· ≤ ·)).getD ms ⊤ else rt ar.zero) ∧
      ∃ tree : List (Edge W), edges = tree.map (fun e => ⟨e.u, some e.v, e.w⟩) ∧ SpanningTree n tree ∧
        MinSpanningForest (completeGraph n fun i j => max (max (rt (rdist ar dims (pts i) (pts j))) (core i)) (core j)) tree := by
  obtain ⟨t', e, hv⟩ := buildKdTree_valid ar zero pts dims n leafSize (by omega) hl
  rw [ht] at e; cases e
  obtain ⟨tree, c2, rows, hknn, hc2, hcore, hedges, hspan, hmsf⟩ := treeBoruvka_spec hvis ha hrt hv hn hms hbig hfin h
  refine ⟨fun i hi => ?_, tree, hedges, hspan, ?_⟩
  · rw [hcore, hc2]
    unfold treeCore
    by_cases h1 : 1 < ms
    · rw [if_pos h1, if_pos h1]
      have hk : treeK ms = ms + 1 := by unfold treeK; rw [if_pos h1]
      have hrow := hknn i hi
      cases hlast : (rows i).getLast? with
      | none =>
        have := hrow.length
        rw [List.getLast?_eq_none_iff.1 hlast, hk] at this
        simp at this
      | some y =>
        have := hrow.sorted_entry hrt hlast ⊤
        rw [hk, Nat.add_sub_cancel] at this
        rw [this]; rfl
    · rw [if_neg h1, if_neg h1]
  · have : (fun i j => max (max (rt (rdist ar dims (pts i) (pts j))) (core i)) (core j)) = fun i j => rt (mreach ar dims pts c2 i j) := by
      funext i j
      rw [hcore, hcore, ← hrt.map_max, ← hrt.map_max]
      rfl
    rw [this]
    exact hmsf

/-- C35, the second half: `algorithm='boruvka'` and `algorithm='kruskal'` (without `knn_k`, on the same distances) agree on the core
distances, on the edge weights and on what is connected at every threshold. -/
theorem C35_agrees_with_kruskal_partial [Zero W] {vis : List W → W → Prop} (hvis : ∀ h w, vis h w → anyVis h w) {ar : Arith R W}
    (ha : ar.Lawful) {rt : W → W} (hrt : Monotone rt) (h0 : rt ar.zero = 0) (zero : R) (pts : ℕ → ℕ → R) (dims n leafSize ms : ℕ)
    (hl : 1 ≤ leafSize) (hn : 2 ≤ n) (hms : ms < n) (hbig : ms < 32768) (hfin : ∀ i < n, ∀ j < n, rdist ar dims (pts i) (pts j) < ⊤)
    (t : KdTree R) (ht : buildKdTree ar zero pts dims n leafSize = some t) (repro : Option ℕ) (edges : List (TEdge W)) (core : ℕ → W)
    (h : TreeBoruvka vis ar rt dims pts t (numNodes n leafSize) n ms repro edges core) :
    let D := fun i j => rt (rdist ar dims (pts i) (pts j))
    let K := kruskalBrute n ms D CLParams.none
    (∀ i < n, core i = bruteCore n ms D i) ∧ ∃ tree : List (Edge W), edges = tree.map (fun e => ⟨e.u, some e.v, e.w⟩) ∧
      (weights tree).Perm (weights K) ∧ ∀ τ a b, Conn (upTo τ tree) a b ↔ Conn (upTo τ K) a b := by
  intro D K
  obtain ⟨t', e, hv⟩ := buildKdTree_valid ar zero pts dims n leafSize (by omega) hl
  rw [ht] at e; cases e
  obtain ⟨tree, c2, rows, hknn, hc2, hcore, hedges, hspan, hmsf⟩ := treeBoruvka_spec hvis ha hrt hv hn hms hbig hfin h
  have hcb : ∀ i < n, core i = bruteCore n ms D i := fun i hi => by
    rw [hcore, hc2]; exact treeCore_eq_brute hrt h0 hms (hknn i hi)
  obtain ⟨_, hk⟩ := kruskalBrute_msf (W := W) (n := n) (ms := ms) (by omega) (D := D) (fun i j => by
    show rt _ = rt _
    rw [rdist_comm ha])
  have hmsf' : MinSpanningForest (completeGraph n fun i j => max (max (D i j) (bruteCore n ms D i)) (bruteCore n ms D j)) tree := by
    refine hmsf.congr_mem fun e => ?_
    rw [mem_completeGraph, mem_completeGraph]
    have : ∀ i < n, ∀ j < n, rt (mreach ar dims pts c2 i j) = max (max (D i j) (bruteCore n ms D i)) (bruteCore n ms D j) :=
      fun i hi j hj => by
        rw [← hcb i hi, ← hcb j hj, hcore, hcore, ← hrt.map_max, ← hrt.map_max]
        rfl
    constructor
    · rintro ⟨h1, h2, h3, h4⟩
      exact ⟨h1, h2, h3, by rw [← this _ h1 _ h2]; exact h4⟩
    · rintro ⟨h1, h2, h3, h4⟩
      exact ⟨h1, h2, h3, by rw [this _ h1 _ h2]; exact h4⟩
  refine ⟨hcb, tree, hedges, hmsf'.weights_perm hk, fun τ a b => ?_⟩
  rw [hmsf'.conn_upTo, hk.conn_upTo]

/-- There is a result: neither the search nor the loop over rounds runs for ever (see `C34_terminates` for the steps of a search). -/
theorem C35_gives_result {ar : Arith R W} (ha : ar.Lawful) (rt : W → W) (zero : R) (pts : ℕ → ℕ → R) (dims n leafSize ms : ℕ)
    (hl : 1 ≤ leafSize) (hn : 2 ≤ n) (hms : ms < n) (hbig : ms < 32768) (hfin : ∀ i < n, ∀ j < n, rdist ar dims (pts i) (pts j) < ⊤)
    (t : KdTree R) (ht : buildKdTree ar zero pts dims n leafSize = some t) (repro : Option ℕ) (hrepro : ∀ th, repro = some th → 0 < th) :
    ∃ edges core, TreeBoruvka lastVis ar rt dims pts t (numNodes n leafSize) n ms repro edges core := by
  obtain ⟨t', e, hv⟩ := buildKdTree_valid ar zero pts dims n leafSize (by omega) hl
  rw [ht] at e; cases e
  exact exists_treeBoruvka ha rt hv hn hms hbig hfin repro hrepro

/-- Case: the hypotheses of the theorems above hold for the six points. -/
example : (∀ i < 6, ∀ j < 6, rdist (roundedArith (id : ℤ → ℤ)) 1 (sixPts i) (sixPts j) < ⊤) ∧
    buildKdTree (roundedArith (id : ℤ → ℤ)) 0 sixPts 1 6 40 = some sixTree := by
  refine ⟨by decide +kernel, ?_⟩
  unfold sixTree
  rw [Option.some_get]

/-! ### C36 -/

theorem le_blockSize (nComp n threads : ℕ) : threads ≤ blockSize nComp n threads := by
  unfold blockSize
  exact le_max_left _ _

theorem one_repro_round {ar : Arith R W} {rt : W → W} {dims : ℕ} {pts : ℕ → ℕ → R} {t : KdTree R} {nNodes n ms th : ℕ}
    {rows : ℕ → List (W × Option ℕ)} (hrows : ∀ i < n, treeQuery ar id dims pts t nNodes (treeK ms) (pts i) = some (rows i))
    {s : TState W} (hs : s = treeStart t nNodes n (treeCore ar.zero ms rows) rows) (h0 : 1 < s.nComp) (hn : 0 < n) (hth : n ≤ th)
    {cand : ℕ → W × Option ℕ} (is : List ℕ) (his : is.Perm (List.range n))
    (hc : ∀ i < n, ((runSeq (reproProg ⟨ar, dims, pts, t, nNodes, treeCore ar.zero ms rows, s.comp, s.nodeComp⟩) s.comp is
      (fun _ => none, fun _ => [])).1 i).map Prod.fst = some (cand i))
    (h1 : ¬ 1 < (treeRound t nNodes n s cand).nComp) :
    TreeBoruvka lastVis ar rt dims pts t nNodes n ms (some th)
      ((treeRound t nNodes n s cand).edges.map fun e => ⟨e.u, e.v, rt e.w⟩) (fun i => rt (treeCore ar.zero ms rows i)) := by
  refine ⟨rows, hrows, treeRound t nNodes n s cand, ?_, rfl, fun i => rfl⟩
  rw [← hs]
  refine TreeLoop.round _ _ cand h0 ?_ (TreeLoop.done _ h1)
  exact reproResult_seq ⟨ar, dims, pts, t, nNodes, treeCore ar.zero ms rows, s.comp, s.nodeComp⟩ n (blockSize s.nComp n th) hn
    (le_trans hth (le_blockSize s.nComp n th)) is his cand hc

theorem six_repro (cand : ℕ → WithTop ℤ × Option ℕ) (is : List ℕ) (his : is.Perm (List.range 6))
    (hc : ∀ i < 6, ((runSeq (reproProg (sixCtx sixStart)) sixStart.comp is (fun _ => none, fun _ => [])).1 i).map Prod.fst = some (cand i))
    (h1 : ¬ 1 < (treeRound sixTree 1 6 sixStart cand).nComp) (rt : WithTop ℤ → WithTop ℤ) :
    TreeBoruvka lastVis (roundedArith id) rt 1 sixPts sixTree 1 6 3 (some 8)
      ((treeRound sixTree 1 6 sixStart cand).edges.map fun e => ⟨e.u, e.v, rt e.w⟩) (fun i => rt (sixCore i)) := by
  have h0 : 1 < sixStart.nComp := by decide +kernel
  have hs : sixStart = treeStart sixTree 1 6 (treeCore (roundedArith (id : ℤ → ℤ)).zero 3 sixRows) sixRows := rfl
  unfold sixCtx sixCore at hc
  unfold sixCore
  generalize sixStart = s at *
  exact one_repro_round (ms := 3) (th := 8) six_rows hs h0 (by decide) (by decide) is his hc h1

/-- C36 is false: on the six points 7, 6, 21, 9, 13, 15 with `min_samples=3`, eight threads and `reproducible=True`, two schedules
give different trees, even with sequentially consistent memory.  The thread of point 9 may find its edge of weight 6 to point 13 before
the thread of point 7 finds its own edge of weight 6 to point 13; then the latter sees the bound, which equals the core distance of
point 13, and does not look at that point. -/
theorem C36_schedule_dependent (rt : WithTop ℤ → WithTop ℤ) :
    ∃ edges edges' core core', TreeBoruvka lastVis (roundedArith (id : ℤ → ℤ)) rt 1 sixPts sixTree 1 6 3 (some 8) edges core ∧
      TreeBoruvka lastVis (roundedArith (id : ℤ → ℤ)) rt 1 sixPts sixTree 1 6 3 (some 8) edges' core' ∧
      (edges.map fun e => (e.u, e.v)) = [(0, some 3), (1, some 0), (2, some 5), (4, some 5), (0, some 4)] ∧
      (edges'.map fun e => (e.u, e.v)) = [(0, some 3), (1, some 0), (2, some 5), (4, some 5), (3, some 4)] := by
  refine ⟨_, _, _, _, six_repro sixUp [0, 1, 2, 3, 4, 5] (by decide) (by decide +kernel) (by decide +kernel) rt,
    six_repro sixDown [5, 4, 3, 2, 1, 0] (by decide) (by decide +kernel) (by decide +kernel) rt, ?_, ?_⟩
  · rw [List.map_map]
    show ((treeRound sixTree 1 6 sixStart sixUp).edges.map fun e => (e.u, e.v)) = _
    decide +kernel
  · rw [List.map_map]
    show ((treeRound sixTree 1 6 sixStart sixDown).edges.map fun e => (e.u, e.v)) = _
    decide +kernel

/-- What is left of C36: the core distances, the edge weights and what is connected at every threshold do not depend on the schedule,
nor on `reproducible` and the number of threads. -/
theorem C36_weights_partial {vis vis' : List W → W → Prop} (hvis : ∀ h w, vis h w → anyVis h w) (hvis' : ∀ h w, vis' h w → anyVis h w)
    {ar : Arith R W} (ha : ar.Lawful) {rt : W → W} (hrt : Monotone rt) (zero : R) (pts : ℕ → ℕ → R) (dims n leafSize ms : ℕ)
    (hl : 1 ≤ leafSize) (hn : 2 ≤ n) (hms : ms < n) (hbig : ms < 32768) (hfin : ∀ i < n, ∀ j < n, rdist ar dims (pts i) (pts j) < ⊤)
    (t : KdTree R) (ht : buildKdTree ar zero pts dims n leafSize = some t) (repro repro' : Option ℕ) (edges edges' : List (TEdge W))
    (core core' : ℕ → W) (h : TreeBoruvka vis ar rt dims pts t (numNodes n leafSize) n ms repro edges core)
    (h' : TreeBoruvka vis' ar rt dims pts t (numNodes n leafSize) n ms repro' edges' core') :
    (∀ i < n, core i = core' i) ∧ ∃ tree tree' : List (Edge W), edges = tree.map (fun e => ⟨e.u, some e.v, e.w⟩) ∧
      edges' = tree'.map (fun e => ⟨e.u, some e.v, e.w⟩) ∧ (weights tree).Perm (weights tree') ∧
      ∀ τ a b, Conn (upTo τ tree) a b ↔ Conn (upTo τ tree') a b := by
  obtain ⟨c1, tree, e1, _, m1⟩ := C35_minimum_spanning_tree_partial hvis ha hrt zero pts dims n leafSize ms hl hn hms hbig hfin t ht repro
    edges core h
  obtain ⟨c2, tree', e2, _, m2⟩ := C35_minimum_spanning_tree_partial hvis' ha hrt zero pts dims n leafSize ms hl hn hms hbig hfin t ht repro'
    edges' core' h'
  have hc : ∀ i < n, core i = core' i := fun i hi => by rw [c1 i hi, c2 i hi]
  have m1' : MinSpanningForest (completeGraph n fun i j => max (max (rt (rdist ar dims (pts i) (pts j))) (core' i)) (core' j)) tree := by
    refine m1.congr_mem fun e => ?_
    rw [mem_completeGraph, mem_completeGraph]
    constructor
    · rintro ⟨h1, h2, h3, h4⟩
      exact ⟨h1, h2, h3, by rw [← hc _ h1, ← hc _ h2]; exact h4⟩
    · rintro ⟨h1, h2, h3, h4⟩
      exact ⟨h1, h2, h3, by rw [hc _ h1, hc _ h2]; exact h4⟩
  exact ⟨hc, tree, tree', e1, e2, m1'.weights_perm m2, fun τ a b => by rw [m1'.conn_upTo, m2.conn_upTo]⟩

/-! ### C39 -/

/-- C39 for `min_samples` below the number of samples: all endpoints are samples, for every schedule. -/
theorem C39_endpoints_partial {vis : List W → W → Prop} (hvis : ∀ h w, vis h w → anyVis h w) {ar : Arith R W} (ha : ar.Lawful)
    {rt : W → W} (hrt : Monotone rt) (zero : R) (pts : ℕ → ℕ → R) (dims n leafSize ms : ℕ) (hl : 1 ≤ leafSize) (hn : 2 ≤ n) (hms : ms < n)
    (hbig : ms < 32768) (hfin : ∀ i < n, ∀ j < n, rdist ar dims (pts i) (pts j) < ⊤) (t : KdTree R)
    (ht : buildKdTree ar zero pts dims n leafSize = some t) (repro : Option ℕ) (edges : List (TEdge W)) (core : ℕ → W)
    (h : TreeBoruvka vis ar rt dims pts t (numNodes n leafSize) n ms repro edges core) :
    edges.length = n - 1 ∧ ∀ e ∈ edges, e.u < n ∧ ∃ v < n, e.v = some v ∧ v ≠ e.u := by
  obtain ⟨_, tree, rfl, hs, hm⟩ := C35_minimum_spanning_tree_partial hvis ha hrt zero pts dims n leafSize ms hl hn hms hbig hfin t ht repro
    edges core h
  refine ⟨?_, fun e he => ?_⟩
  · rw [List.length_map]
    have := hs.length (by omega)
    omega
  · obtain ⟨d, hd, rfl⟩ := List.mem_map.1 he
    obtain ⟨d1, d2, d3, _⟩ := mem_completeGraph.1 (hm.forest.sub.subset hd)
    exact ⟨d1, d.v, d2, rfl, fun e => d3 e.symm⟩

/-- Four points in two groups. -/
def fourPts (i _ : ℕ) : ℤ := [0, 1, 10, 11].getD i 0

/-- The tree over the four points: one leaf. -/
def fourTree : KdTree ℤ := (buildKdTree (roundedArith (id : ℤ → ℤ)) 0 fourPts 1 4 40).get (by decide +kernel)

/-- Five nearest neighbours of the four points: the last one is the padding. -/
def fourRows (i : ℕ) : List (WithTop ℤ × Option ℕ) :=
  (treeQuery (roundedArith (id : ℤ → ℤ)) id 1 fourPts fourTree 1 5 (fourPts i)).getD []

/-- C39 is false for `min_samples` of at least the number of samples: for the points 0, 1, 10, 11 and `min_samples=4` all core
distances are infinite, the search finds nothing, and the missing index `-1` ends up in the tree. -/
theorem C39_missing_endpoint (rt : WithTop ℤ → WithTop ℤ) :
    ∃ edges core, TreeBoruvka lastVis (roundedArith (id : ℤ → ℤ)) rt 1 fourPts fourTree 1 4 4 none edges core ∧
      (edges.map fun e => (e.u, e.v)) = [(0, some 1), (2, some 3), (0, none)] := by
  have hrows : ∀ i < 4, treeQuery (roundedArith (id : ℤ → ℤ)) id 1 fourPts fourTree 1 (treeK 4) (fourPts i) = some (fourRows i) := by
    intro i hi
    have : ∀ i < 4, (treeQuery (roundedArith (id : ℤ → ℤ)) id 1 fourPts fourTree 1 (treeK 4) (fourPts i)).isSome := by decide +kernel
    obtain ⟨r, hr⟩ := Option.isSome_iff_exists.1 (this i hi)
    have h4 : treeK 4 = 5 := rfl
    rw [h4] at hr ⊢
    unfold fourRows
    rw [hr]; rfl
  refine ⟨_, _, ⟨fourRows, hrows, treeRound fourTree 1 4 (treeStart fourTree 1 4 (treeCore 0 4 fourRows) fourRows) (fun _ => (⊤, none)),
    TreeLoop.round _ _ (fun _ => (⊤, none)) ?_ ?_ (TreeLoop.done _ ?_), rfl, fun i => rfl⟩, ?_⟩
  · show 1 < (treeStart fourTree 1 4 (treeCore 0 4 fourRows) fourRows).nComp
    decide +kernel
  · exact queryResult_seq _ 4 [0, 1, 2, 3] (by decide) _ (by decide +kernel)
  · decide +kernel
  · rw [List.map_map]
    show ((treeRound fourTree 1 4 (treeStart fourTree 1 4 (treeCore 0 4 fourRows) fourRows) (fun _ => (⊤, none))).edges.map
      fun e => (e.u, e.v)) = _
    decide +kernel

/-! ### C40 -/

/-- What the core distances are with sample weights of one: the square root of entry `min_samples - 1` of the sorted distances, which
are no squares.  Without sample weights they are entry `min_samples`, see `C35_minimum_spanning_tree_partial`. -/
theorem C40_unit_weights_core_partial {S : Type*} [Field S] [LinearOrder S] [IsStrictOrderedRing S] [FloorSemiring S] {vis : List W → W → Prop} {ar : Arith R W} (ha : ar.Lawful) {rt : W → W} (hrt : Monotone rt) (zero : R)
    (pts : ℕ → ℕ → R) (dims n leafSize ms : ℕ) (hl : 1 ≤ leafSize) (h1 : 1 ≤ ms) (hms : ms ≤ n) (hbig : 2 * ms ≤ 32768) (t : KdTree R)
    (ht : buildKdTree ar zero pts dims n leafSize = some t) (repro : Option ℕ) (edges : List (TEdge W)) (core : ℕ → W)
    (h : TreeBoruvkaW vis ar rt dims pts t (numNodes n leafSize) n ms (fun _ => (1 : S)) repro edges core) (i : ℕ) (hi : i < n) :
    core i = rt ((((List.range n).map fun q => rt (rdist ar dims (pts i) (pts q))).insertionSort (· ≤ ·)).getD (ms - 1) ⊤) := by
  obtain ⟨t', e, hv⟩ := buildKdTree_valid ar zero pts dims n leafSize (by omega) hl
  rw [ht] at e; cases e
  exact weighted_core ha hrt hv h1 hms hbig h i hi

/-- Three points. -/
def threePts (i _ : ℕ) : ℤ := [0, 16, 32].getD i 0

/-- The tree over the three points: one leaf. -/
def threeTree : KdTree ℤ := (buildKdTree (roundedArith (id : ℤ → ℤ)) 0 threePts 1 3 40).get (by decide +kernel)

/-- Square roots, rounded down. -/
def floorSqrt (w : WithTop ℤ) : WithTop ℤ := w.map fun x => (((List.range 100).filter fun k => (k * k : ℤ) ≤ x).length : ℤ) - 1

/-- Neighbours of the three points. -/
def threeRows (rt : WithTop ℤ → WithTop ℤ) (k i : ℕ) : List (WithTop ℤ × Option ℕ) :=
  (treeQuery (roundedArith (id : ℤ → ℤ)) rt 1 threePts threeTree 1 k (threePts i)).getD []

/-- C40 is false: for the points 0, 16, 32 and `min_samples=2` without sample weights the tree has the weights 32 and 32, while
sample weights of one give 4 and 4. -/
theorem C40_unit_weights_differ :
    (∃ edges core, TreeBoruvka lastVis (roundedArith (id : ℤ → ℤ)) floorSqrt 1 threePts threeTree 1 3 2 none edges core ∧
      (edges.map fun e => (e.u, e.v, e.w)) = [(0, some 1, ((32 : ℤ) : WithTop ℤ)), (2, some 1, ((32 : ℤ) : WithTop ℤ))] ∧
      core 0 = ((32 : ℤ) : WithTop ℤ)) ∧
    ∃ edges core, TreeBoruvkaW lastVis (roundedArith (id : ℤ → ℤ)) floorSqrt 1 threePts threeTree 1 3 2 (fun _ => (1 : ℚ)) none edges core ∧
      (edges.map fun e => (e.u, e.v, e.w)) = [(0, some 1, ((4 : ℤ) : WithTop ℤ)), (1, some 2, ((4 : ℤ) : WithTop ℤ))] ∧
      core 0 = ((4 : ℤ) : WithTop ℤ) := by
  constructor
  · have hrows : ∀ i < 3, treeQuery (roundedArith (id : ℤ → ℤ)) id 1 threePts threeTree 1 (treeK 2) (threePts i) =
        some (threeRows id 3 i) := by decide +kernel
    refine ⟨_, _, ⟨threeRows id 3, hrows, treeStart threeTree 1 3 (treeCore 0 2 (threeRows id 3)) (threeRows id 3),
      TreeLoop.done _ ?_, rfl, fun i => rfl⟩, ?_, ?_⟩ <;> decide +kernel
  · have hrows : ∀ i < 3, treeQuery (roundedArith (id : ℤ → ℤ)) floorSqrt 1 threePts threeTree 1 (weightedK 3 2 fun _ => (1 : ℚ)) (threePts i) =
        some (threeRows floorSqrt 4 i) := by decide +kernel
    refine ⟨_, _, ⟨threeRows floorSqrt 4, fun _ => ((16 : ℤ) : WithTop ℤ), hrows, by decide +kernel,
      treeStart threeTree 1 3 (fun _ => ((16 : ℤ) : WithTop ℤ)) (threeRows floorSqrt 4), TreeLoop.done _ ?_, rfl, fun i => rfl⟩, ?_, ?_⟩ <;>
      decide +kernel

/-! ### C60 -/

/-- C60: `algorithm='kruskal'` without `knn_k` gives a minimum spanning tree of the complete graph of mutual reachability distances,
for every matrix of distances that is symmetric and every `min_samples`; from `min_samples = n` on all weights are infinite. -/
theorem C60_brute_force [Zero W] (n ms : ℕ) (hn : 0 < n) (D : ℕ → ℕ → W) (hD : ∀ i j, D i j = D j i) :
    let core := fun i => if ms ≤ 1 then 0 else (((List.range n).map (D i)).insertionSort (· ≤ ·)).getD ms ⊤
    SpanningTree n (kruskalBrute n ms D CLParams.none) ∧
      MinSpanningForest (completeGraph n fun i j => max (max (D i j) (core i)) (core j)) (kruskalBrute n ms D CLParams.none) := by
  intro core
  have hc : core = bruteCore n ms D := by
    funext i
    unfold bruteCore
    show (if ms ≤ 1 then 0 else _) = _
    by_cases h1 : ms ≤ 1
    · rw [if_pos h1, if_pos h1]
    · rw [if_neg h1, if_neg h1]
      by_cases h2 : ms < n
      · rw [if_pos h2]
      · rw [if_neg h2, List.getD_eq_getElem?_getD, List.getElem?_eq_none (by rw [List.length_insertionSort]; simp; omega)]
        rfl
  rw [hc]
  exact kruskalBrute_msf hn hD

/-- Case: the six points, `min_samples=3`, squared distances. -/
example : weights (kruskalBrute 6 3 (fun i j => rdist (roundedArith (id : ℤ → ℤ)) 1 (sixPts i) (sixPts j)) CLParams.none) =
    [36, 36, 36, 49, 144].map fun x : ℤ => (x : WithTop ℤ) := by decide +kernel

end Verif
