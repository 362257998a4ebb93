import Verif.Lemmas.TreeNodes
import Verif.Lemmas.Safe

/-!
# The rounds of the tree-based Borůvka routine
-/

namespace Verif
variable {R W : Type*} [LinearOrder R] [LinearOrder W]

omit [LinearOrder R] in
theorem mem_completeGraph {n : ℕ} {weight : ℕ → ℕ → W} {e : Edge W} :
    e ∈ completeGraph n weight ↔ e.u < n ∧ e.v < n ∧ e.u ≠ e.v ∧ e.w = weight e.u e.v := by
  unfold completeGraph
  simp only [List.mem_flatMap, List.mem_range, List.mem_map, List.mem_filter, decide_eq_true_eq]
  constructor
  · rintro ⟨i, hi, j, ⟨hj, hij⟩, rfl⟩; exact ⟨hi, hj, hij, rfl⟩
  · rintro ⟨h1, h2, h3, h4⟩; exact ⟨e.u, h1, e.v, ⟨h2, h3⟩, by rw [← h4]⟩

omit [LinearOrder R] in
theorem rdist_comm {ar : Arith R W} [LinearOrder R] (ha : ar.Lawful) (dims : ℕ) (x y : ℕ → R) : rdist ar dims x y = rdist ar dims y x := by
  unfold rdist
  congr 1
  funext r i
  rw [ha.sq_symm]

theorem mreach_comm {ar : Arith R W} (ha : ar.Lawful) (dims : ℕ) (pts : ℕ → ℕ → R) (core : ℕ → W) (i j : ℕ) :
    mreach ar dims pts core i j = mreach ar dims pts core j i := by
  unfold mreach
  rw [rdist_comm ha, max_assoc, max_assoc, max_comm (core i)]

/-- Invariant of the loop of `parallel_boruvka`. -/
structure TInv (t : KdTree R) (pts : ℕ → ℕ → R) (dims nNodes n : ℕ) (weight : ℕ → ℕ → W) (s : TState W) : Prop where
  run : BoruvkaRun (completeGraph n weight) (s.edges.map (TEdge.toEdge n))
  rep : Represents n s.ds.parent (s.edges.map (TEdge.toEdge n))
  comp : ∀ i, s.comp i = root n s.ds.parent i
  count : s.nComp + s.edges.length = n
  nodes : NodesExact t pts dims nNodes s.comp s.nodeComp
  ends : ∀ e ∈ s.edges, ∃ v, e.v = some v

theorem TInv.compCount_eq {t : KdTree R} {pts : ℕ → ℕ → R} {dims nNodes n : ℕ} {weight : ℕ → ℕ → W} {s : TState W}
    (h : TInv t pts dims nNodes n weight s) : s.nComp = compCount n (s.edges.map (TEdge.toEdge n)) := by
  have h1 := h.run.safe.acyclic.length_add_compCount h.rep.inRange
  have h2 := h.count
  rw [List.length_map] at h1
  omega

/-- The candidates of a round: every entry of the dictionary is a lightest edge leaving its component. -/
theorem TInv.candidates [OrderTop W] {t : KdTree R} {pts : ℕ → ℕ → R} {dims nNodes n : ℕ} {weight : ℕ → ℕ → W} {s : TState W}
    (h : TInv t pts dims nNodes n weight s) (hsym : ∀ i j, weight i j = weight j i)
    (hfin : ∀ i < n, ∀ j < n, i ≠ j → weight i j < ⊤) (h1 : 1 < s.nComp) {cand : ℕ → W × Option ℕ}
    (hx : ExactCandidates n s.comp weight cand) :
    let f := s.edges.map (TEdge.toEdge n)
    let D := selectT n s.comp cand
    (D.map (entryEdge n)).Pairwise (fun a b : ℕ × Edge W => ¬ Conn f a.1 b.1) ∧
      (∀ q ∈ D, LightestOut (completeGraph n weight) f q.1 (q.2.toEdge n) ∧ ∃ v < n, q.2.v = some v) ∧ D ≠ [] := by
  obtain ⟨k1, k2, k3⟩ := selectT_spec n s.comp cand
  simp only at k1 k2 k3 ⊢
  set D := selectT n s.comp cand
  set f := s.edges.map (TEdge.toEdge n) with hf
  have hcr : ∀ x y, s.comp x = s.comp y ↔ Conn f x y := fun x y => by rw [h.comp, h.comp]; exact h.rep.conn x y
  have hcc : ∀ x y, Conn f (s.comp x) y ↔ Conn f x y := by
    intro x y
    have hx : Conn f (s.comp x) x := (h.rep.conn _ _).1 (by rw [h.comp, h.rep.forest.root_root])
    exact ⟨fun hh => hx.symm.trans hh, fun hh => hx.trans hh⟩
  have hn0 : 1 < n := by have := h.count; omega
  -- no component is everything
  have hout : ∀ x < n, ∃ y < n, s.comp x ≠ s.comp y := by
    intro x hx
    by_contra hall
    push Not at hall
    have hone : compCount n f ≤ 1 := by
      classical
      unfold compCount
      rw [Finset.card_le_one]
      intro a ha b hb
      rw [Finset.mem_filter, Finset.mem_range] at ha hb
      have hab : Conn f a b := (hcr a b).1 ((hall a ha.1).symm.trans (hall b hb.1))
      rcases Nat.lt_trichotomy a b with hlt | heq | hgt
      · exact absurd hab.symm (hb.2 a hlt)
      · exact heq
      · exact absurd hab (ha.2 b hgt)
    have := h.compCount_eq
    rw [← hf] at this
    omega
  have huniq : ∀ q ∈ D, ∀ q' ∈ D, q'.1 = q.1 → q' = q := fun q hq q' hq' he => List.inj_on_of_nodup_map k1 hq' hq he
  -- the entry of a component is at least as light as any edge leaving it
  have hlight : ∀ q ∈ D, ∀ a < n, ∀ b < n, s.comp a = q.1 → s.comp b ≠ q.1 → q.2.w ≤ weight a b := by
    intro q hq a ha b hb hca hcb
    have hne : s.comp a ≠ s.comp b := fun hh => hcb (hh.symm.trans hca)
    obtain ⟨i, hi, hci, hle⟩ := hx.best a ha b hb hne (hfin a ha b hb fun hh => hne (by rw [hh]))
    obtain ⟨q', h5, h6, h7⟩ := k3 i hi
    rw [huniq q hq q' h5 (by rw [h6, hci, hca])] at h7
    exact h7.trans hle
  have hreal : ∀ q ∈ D, ∃ v < n, q.2.v = some v ∧ s.comp v ≠ s.comp q.2.u ∧ q.2.w = weight q.2.u v := by
    intro q hq
    obtain ⟨e1, e2, e3⟩ := k2 q hq
    obtain ⟨y, hy, hne⟩ := hout q.2.u e2
    have hle := hlight q hq q.2.u e2 y hy e1.symm (by rw [e1]; exact hne.symm)
    have hlt : q.2.w < ⊤ := hle.trans_lt (hfin _ e2 _ hy fun hh => hne (by rw [← hh]))
    have ew : q.2.w = (cand q.2.u).1 := by rw [e3]
    have ev : q.2.v = (cand q.2.u).2 := by rw [e3]
    rcases hx.real q.2.u e2 with hr | ⟨v, hv, hvc, hr⟩
    · rw [ew, hr] at hlt; exact absurd hlt (lt_irrefl _)
    · exact ⟨v, hv, by rw [ev, hr], hvc, by rw [ew, hr]⟩
  refine ⟨?_, ?_, ?_⟩
  · rw [List.pairwise_map]
    have hnd : D.Pairwise fun a b => a.1 ≠ b.1 := by
      rw [List.nodup_iff_pairwise_ne, List.pairwise_map] at k1
      exact k1
    refine hnd.imp_of_mem fun {a b} ha hb hne hconn => hne ?_
    unfold entryEdge at hconn
    simp only at hconn
    rw [(k2 a ha).1, (k2 b hb).1, hcc] at hconn
    rw [(k2 a ha).1, (k2 b hb).1, hcr]
    exact hconn.trans ((hcc b.2.u b.2.u).2 (Conn.refl _ _))
  · intro q hq
    obtain ⟨e1, e2, e3⟩ := k2 q hq
    obtain ⟨v, hv, hqv, hvc, hqw⟩ := hreal q hq
    have hE : q.2.toEdge n = ⟨q.2.u, v, weight q.2.u v⟩ := by unfold TEdge.toEdge; rw [hqv, hqw]; rfl
    refine ⟨?_, v, hv, hqv⟩
    rw [hE]
    refine ⟨mem_completeGraph.2 ⟨e2, hv, fun hh => hvc (by simp only at hh; rw [hh]), rfl⟩, ?_, ?_, ?_⟩
    · rw [e1, hcc]; exact Conn.refl _ _
    · rw [e1, hcc, ← hcr]; exact hvc.symm
    · intro d hd hcut
      obtain ⟨d1, d2, d3, d4⟩ := mem_completeGraph.1 hd
      rw [e1, hcc, hcc, ← hcr, ← hcr] at hcut
      simp only
      rw [← hqw, d4]
      by_cases hu : s.comp q.2.u = s.comp d.u
      · refine hlight q hq d.u d1 d.v d2 (by rw [e1, hu]) fun hh => hcut ?_
        rw [e1] at hh
        exact ⟨fun _ => hh.symm, fun _ => hu⟩
      · have hv : s.comp q.2.u = s.comp d.v := by
          by_contra hv
          exact hcut ⟨fun hh => absurd hh hu, fun hh => absurd hh hv⟩
        rw [hsym]
        exact hlight q hq d.v d2 d.u d1 (by rw [e1, hv]) fun hh => hu (by rw [hh, e1])
  · intro hnil
    obtain ⟨q, hq, _⟩ := k3 0 (by omega)
    rw [hnil] at hq
    simp at hq

/-- One round of the loop of `parallel_boruvka`. -/
theorem TInv.round [OrderTop W] {t : KdTree R} {pts : ℕ → ℕ → R} {dims nNodes n : ℕ} {weight : ℕ → ℕ → W} {s : TState W}
    (h : TInv t pts dims nNodes n weight s) (hsym : ∀ i j, weight i j = weight j i)
    (hfin : ∀ i < n, ∀ j < n, i ≠ j → weight i j < ⊤) (h1 : 1 < s.nComp) {cand : ℕ → W × Option ℕ}
    (hx : ExactCandidates n s.comp weight cand) :
    TInv t pts dims nNodes n weight (treeRound t nNodes n s cand) ∧ (treeRound t nNodes n s cand).nComp < s.nComp := by
  obtain ⟨c1, c2, c3⟩ := h.candidates hsym hfin h1 hx
  obtain ⟨m1, m2, m3⟩ := mergeStepT_map n (selectT n s.comp cand) s.ds []
  set D := selectT n s.comp cand with hD
  have hinr : ∀ q ∈ D.map (entryEdge n), q.2.u < n ∧ q.2.v < n := by
    intro q hq
    obtain ⟨p, hp, rfl⟩ := List.mem_map.1 hq
    have := mem_completeGraph.1 (c2 p hp).1.mem
    exact ⟨this.1, this.2.1⟩
  obtain ⟨b, hb, hround, hrep⟩ := merge_spec (D.map (entryEdge n)) hinr s.ds (f := s.edges.map (TEdge.toEdge n)) (acc := [])
    (by simpa using h.rep)
  simp only [List.append_nil, List.nil_append] at hb hround hrep
  have hr1 : (mergeT n s.ds s.comp cand).1 = ((D.map (entryEdge n)).foldl (mergeStep n) (s.ds, [])).1 := m1
  have hr2 : (mergeT n s.ds s.comp cand).2.map (TEdge.toEdge n) = b := by rw [← hb]; exact m2
  have hrun : BoruvkaRun (completeGraph n weight) (s.edges.map (TEdge.toEdge n) ++ b) := by
    refine BoruvkaRun.round h.run c1 (fun p hp => ?_) hround
    obtain ⟨q, hq, rfl⟩ := List.mem_map.1 hp
    exact (c2 q hq).1
  have hac := hrun.safe.acyclic.length_add_compCount hrep.inRange
  have hcount := h.count
  have hlen : (mergeT n s.ds s.comp cand).2.length = b.length := by rw [← hr2, List.length_map]
  rw [List.length_append, List.length_map] at hac
  have hbpos : b ≠ [] := by
    intro hb0
    rw [hb0, List.append_nil] at hround
    rcases hDc : D with _ | ⟨q, D'⟩
    · exact c3 hDc
    · rw [hDc] at hround
      have hq := (c2 q (by rw [hDc]; simp)).1
      have hnc : ¬ Conn (s.edges.map (TEdge.toEdge n)) (q.2.toEdge n).u (q.2.toEdge n).v := fun hh => hq.outside (hq.inside.trans hh)
      rw [List.map_cons] at hround
      cases hround with
      | take _ hm =>
        obtain ⟨b', hb', _⟩ := hm.prefix
        have := congrArg List.length hb'
        simp at this
      | skip hs _ => exact hnc hs
  have hbl : 0 < b.length := List.length_pos_iff.2 hbpos
  have hrep' : Represents n (mergeT n s.ds s.comp cand).1.parent (s.edges.map (TEdge.toEdge n) ++ b) := by rw [hr1]; exact hrep
  unfold treeRound
  simp only
  refine ⟨⟨?_, ?_, fun i => by simp only [dsFind_eq], ?_, ?_, ?_⟩, ?_⟩
  · simp only [List.map_append, hr2]; exact hrun
  · simp only [List.map_append, hr2]; exact hrep'
  · simp only [List.length_append]; omega
  · refine updateNodes_exact _ _ fun v s' e hv c hc => ?_
    have hold := (h.nodes v s' e hv c).1 hc
    refine ⟨(dsFind n (mergeT n s.ds s.comp cand).1.parent (t.idx s')).2, fun j h3 h4 => ?_⟩
    simp only [dsFind_eq]
    rw [hrep'.conn]
    have hlt := hv.lt
    have : s.comp (t.idx j) = s.comp (t.idx s') := (hold j h3 h4).trans (hold s' (le_refl _) hlt).symm
    rw [h.comp, h.comp, h.rep.conn] at this
    exact this.append_left
  · intro e he
    rcases List.mem_append.1 he with he | he
    · exact h.ends e he
    · rcases m3 e he with h2 | h2
      · simp at h2
      · obtain ⟨q, hq, rfl⟩ := List.mem_map.1 h2
        obtain ⟨v, _, hv⟩ := (c2 q hq).2
        exact ⟨v, hv⟩
  · omega

theorem treeLoop_inv [OrderTop W] {t : KdTree R} {pts : ℕ → ℕ → R} {dims nNodes n : ℕ} {weight : ℕ → ℕ → W}
    (hsym : ∀ i j, weight i j = weight j i) (hfin : ∀ i < n, ∀ j < n, i ≠ j → weight i j < ⊤)
    {query : TState W → (ℕ → W × Option ℕ) → Prop}
    (hq : ∀ s cand, TInv t pts dims nNodes n weight s → query s cand → ExactCandidates n s.comp weight cand) {s s' : TState W}
    (hl : TreeLoop t nNodes n query s s') (h : TInv t pts dims nNodes n weight s) :
    TInv t pts dims nNodes n weight s' ∧ s'.nComp ≤ 1 := by
  induction hl with
  | done s hs => exact ⟨h, by omega⟩
  | round s s' cand hs hqs _ ih => exact ih (h.round hsym hfin hs (hq s cand h hqs)).1

end Verif
