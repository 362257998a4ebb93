import Verif.Lemmas.GroupsTop
import Verif.Props.GroupsCases
import Verif.Props.FarSample

/-!
# C106: groups when the whole data set may be one cluster
-/

namespace Verif
variable {W K V α β : Type*}

section
variable [Field K] [LinearOrder K] [IsStrictOrderedRing K] [LinearOrder W] [OrderTop W] [Inhabited W] [Inhabited K]

/-- **C106** (partial), the graph, also when the whole data set may be one cluster: no large group of samples is missed.  Hypotheses as in `C106_groups_partial`, for either
value of `allow_single_cluster`.
Missing: `cluster_selection_epsilon` (`C106_epsilon`), a positive persistence (`C106_persistence`), `max_cluster_size` with excess of mass (`C106_max_cluster_size`); with
`allow_single_cluster` there may be one cluster only (`C106_single_cluster`). -/
theorem C106_found_partial (n : ℕ) (hn : 2 ≤ n) (wt : ℕ → K) (g f b t : List (Edge W)) (hf : MinSpanningForest g f) (hb : ∀ e ∈ b, e.w = ⊤)
    (ht : SpanningTree n t) (hp : t.Perm (f ++ b)) (o : ClusterOpts K) (h1 : 1 < o.minClusterSize) (h0 : ∀ x, x < n → 0 ≤ wt x)
    (hl : ∀ x, x < n → wt x < o.minClusterSize) (lam : W → WithTop K) (hlam : Antitone lam) (hpos : ∀ d, 0 ≤ lam d) (hzero : ∀ d, d ≠ ⊤ → lam d ≠ 0)
    (hper : o.persistence ≤ 0) (heps : o.epsilon ≤ 0) (a : StabOps V (WithTop K) K) (ops : ScoreOps V)
    (hmax : o.method = .leaf ∨ o.maxClusterSize = none ∧ ∀ x, ops.gt ops.zero (ops.pos x) = false)
    (r : ClusterResult W K (WithTop K)) (hr : clustersFromMstAny a ops lam wt o t = some r)
    (htwo : TwoParts n wt o.minClusterSize g) : PartsFound n wt o.minClusterSize g r.labels := by
  by_cases htop : n ∈ r.selected
  swap
  · exact (C106_groups_partial n hn wt g f b t hf hb ht hp o h1 h0 hl lam hlam hpos hzero hper heps a ops hmax r hr htop htwo).1
  have hlen := ht.length (by omega)
  have ht' := ht.perm (lexsortMst_perm t)
  have hs := lexsortMst_sorted t
  obtain ⟨T, hT⟩ : ∃ T, T = condenseTree (Hier.ofRows (mstToLinkage wt (lexsortMst t))) wt o.minClusterSize none lam := ⟨_, rfl⟩
  have hcond : r.condensed = T := by
    have hr' := hr
    unfold clustersFromMstAny at hr'
    simp only [hlen] at hr'
    rw [← hT] at hr'
    obtain ⟨sel0, e0, hr'⟩ := Option.bind_eq_some_iff.1 hr'
    obtain ⟨sel, e1, hr'⟩ := Option.bind_eq_some_iff.1 hr'
    obtain ⟨labels, e2, hr'⟩ := Option.bind_eq_some_iff.1 hr'
    obtain ⟨str, e3, rfl⟩ := Option.map_eq_some_iff.1 hr'
    rfl
  obtain ⟨⟨k, c1, -, -, -, -, -, c7⟩, -, -⟩ := C104_returned_partial n hn wt t ht o h1 h0 hl lam hlam hpos hper a ops r hr
  rw [hcond] at c1 c7
  have he : epsLam o.epsilon = none := by
    unfold epsLam
    rw [if_neg (not_lt.2 heps)]
  rw [he, Option.map_none] at c7
  obtain ⟨hlab, hrows⟩ := c7
  obtain ⟨k', -, -, g2, -⟩ := tree_groups hn h0 hl ht' hs lam
  rw [← hT] at g2
  intro τ hτ x hx hbx
  obtain ⟨m, hle, hm⟩ := sorted_tree_upTo hf hb hp (lexsortMst_perm t) hs hτ
  have hbig := (bigPart_iff hm x).1 hbx
  have hrowOf : ∀ y, y < n → ∃ row ∈ T, row.child = y := fun y hy => by
    obtain ⟨row, hrow, he⟩ := List.mem_map.1 ((c1.children y).2 (.inl hy))
    exact ⟨row, hrow, he⟩
  have hiff : ∀ row ∈ T, row.child < n → (r.labels[row.child]? = some 0 ↔ row.lam ≠ 0 ∧ ∀ row' ∈ T, row'.parent = n → row'.lam ≤ row.lam) := by
    intro row hrow hc
    have := (hrows row hrow hc).2.1 htop 0
    simpa [DenseEnough] using this
  have hfin : ∀ row ∈ T, row.child < n → Conn ((lexsortMst t).take m) x row.child → row.lam ≠ 0 := by
    intro row hrow hc hcon
    obtain ⟨e, he, h⟩ := g2 m x hx hbig row hrow hc hcon
    rw [h]
    exact hzero _ fun h => hτ (top_le_iff.1 (h ▸ hle e he))
  rcases tree_groups_top hn h0 hl ht' hs hlam hT hx hbig with h | ⟨h, row, hrow, hc, hd⟩
  · have key : ∀ y, y < n → Conn (upTo τ g) x y → r.labels[y]? = some 0 := fun y hy hcon => by
      obtain ⟨row, hrow, rfl⟩ := hrowOf y hy
      have hcon := (hm x row.child).2 hcon
      exact (hiff row hrow hy).2 ⟨hfin row hrow hy hcon, h row hrow hy hcon⟩
    exact ⟨0, List.mem_of_getElem? (key x hx (Conn.refl _ _)), le_rfl, .inl key⟩
  · refine ⟨0, List.mem_of_getElem? ((hiff row hrow hc).2 ⟨hfin row hrow hc (h row hrow hc hd), hd⟩), le_rfl, .inr fun y hy => ?_⟩
    have hyn : y < n := by rw [← hlab]; exact (List.getElem?_eq_some_iff.1 hy).1
    obtain ⟨row', hrow', rfl⟩ := hrowOf y hyn
    exact (hm x row'.child).1 (h row' hrow' hyn ((hiff row' hrow' hyn).1 hy).2)

end

section
universe u
variable {K' : Type u} [Field K'] [LinearOrder K'] [IsStrictOrderedRing K'] [LinearOrder W] [OrderTop W] [Inhabited W] [Inhabited K']

/-- **C106** (partial), `fit`, also when the whole data set may be one cluster: no large group of rows is missed.  Hypotheses as in `C106_fit_partial`, for either value of
`allow_single_cluster`.
Missing: as in `C106_found_partial`. -/
theorem C106_fit_found_partial (lam : W → WithTop K') (hlam : Antitone lam) (hpos : ∀ d, 0 ≤ lam d) (hzero : ∀ d, d ≠ ⊤ → lam d ≠ 0)
    (a : StabOps V (WithTop K') K') (ops : ScoreOps V)
    (finite : α → Bool) (reach : α → α → W) (hsym : ∀ x y, reach x y = reach y x) (X : List α) (side : List β) (hside : side.length = X.length)
    (h2 : 2 ≤ (X.filter finite).length) (wt : β → K') (o : ClusterOpts K') (h1 : 1 < o.minClusterSize)
    (hw0 : ∀ b ∈ side, 0 ≤ wt b ∧ wt b < o.minClusterSize) (mst : List α → List β → List (Edge W)) (t : List (Edge W))
    (hmst : mst (X.filter finite) (((X.zip side).filter fun p => finite p.1).map Prod.snd) = t)
    (hspan : SpanningTree (X.filter finite).length t)
    (hmin : MinSpanningForest (completeGraph (X.filter finite).length (rowDist reach (X.filter finite))) t)
    (hper : o.persistence ≤ 0) (heps : o.epsilon ≤ 0)
    (hopt : o.method = .leaf ∨ o.maxClusterSize = none ∧ ∀ x, ops.gt ops.zero (ops.pos x) = false)
    (outliers : List ℕ) (hout : outliers.Perm ((List.range X.length).filter fun i => !(X[i]?.map finite).getD false))
    (r : FitResult W K' (WithTop K')) (hr : fitModel finite (fastHdbscanAny a ops lam mst wt o) outliers X side = .ok r)
    (htwo : TwoGroups finite reach (fun i => (side[i]?.map wt).getD 1) o.minClusterSize X) :
    GroupsFound finite reach (fun i => (side[i]?.map wt).getD 1) o.minClusterSize X r.labels := by
  obtain ⟨sideP, hsP⟩ : ∃ s, s = ((X.zip side).filter fun p => finite p.1).map Prod.snd := ⟨_, rfl⟩
  have hside' : ∀ b ∈ sideP, b ∈ side := by
    intro b hb
    rw [hsP] at hb
    obtain ⟨q, hq, rfl⟩ := List.mem_map.1 hb
    exact (List.of_mem_zip (show (q.1, q.2) ∈ _ from (List.mem_filter.1 hq).1)).2
  have hwt : ∀ i : ℕ, 0 ≤ (sideP[i]?.map wt).getD 1 ∧ (sideP[i]?.map wt).getD 1 < o.minClusterSize := by
    intro i
    cases hi : sideP[i]? with
    | none => exact ⟨zero_le_one, h1⟩
    | some b => exact hw0 b (hside' b (List.mem_of_getElem? hi))
  refine (fit_groups_with (p := False) (q := False) hsym hside h2 hout (fun r1 h3 => ?_) (fitModel_mapTop (one_pos : (0 : K') < 1) hr) htwo).1
  beta_reduce at h3
  rw [← hsP] at h3 hmst ⊢
  rw [hmst] at h3
  obtain ⟨r2, h3b, rfl⟩ := Option.map_eq_some_iff.1 h3
  obtain ⟨⟨k, -, -, -, -, -, -, c7⟩, -, -⟩ := C104_returned_partial _ h2 _ t hspan o h1 (fun x _ => (hwt x).1) (fun x _ => (hwt x).2) lam hlam hpos hper a ops r2 h3b
  exact ⟨c7.1, fun htw => ⟨C106_found_partial _ h2 _ _ t [] t hmin (by simp) hspan (by simp) o h1 (fun x _ => (hwt x).1) (fun x _ => (hwt x).2) lam hlam hpos hzero hper
    heps a ops hopt r2 h3b htw, False.elim, False.elim⟩⟩

end

/-! ### Cases -/

theorem exPairs2Far_tree : SpanningTree 5 exPairs2Far :=
  path_spanning (by unfold InRange; decide +kernel) (by decide) fun i hi => by
    have : i < 4 := by omega
    interval_cases i <;> decide +kernel

theorem exPairs2Far_two : TwoParts 5 (fun _ => (1 : ℚ)) (2 : ℕ) exPairs2Far :=
  ⟨((11 : ℚ) : WithTop ℚ), WithTop.coe_ne_top, 0, 2, by decide, by decide,
    bigPart_of [0, 1] (by decide) (by decide) (by decide) (fun y hy => by
      rcases List.mem_pair.1 hy with rfl | rfl
      · exact Conn.refl _ _
      · obtain ⟨e, he, hu, h⟩ : ∃ e ∈ upTo ((11 : ℚ) : WithTop ℚ) exPairs2Far, e.u = 0 ∧ e.v = 1 := by decide +kernel
        rw [← hu, ← h]
        exact Conn.edge he),
    bigPart_of [2, 3] (by decide) (by decide) (by decide) (fun y hy => by
      rcases List.mem_pair.1 hy with rfl | rfl
      · exact Conn.refl _ _
      · obtain ⟨e, he, hu, h⟩ : ∃ e ∈ upTo ((11 : ℚ) : WithTop ℚ) exPairs2Far, e.u = 2 ∧ e.v = 3 := by decide +kernel
        rw [← hu, ← h]
        exact Conn.edge he),
    fun h => absurd (conn_invariant (fun x => if x < 2 then 0 else 1) (by decide +kernel) h) (by decide)⟩

/-- With `allow_single_cluster` and the excess of mass two groups of samples that are apart can be in one cluster, the only one. -/
theorem C106_single_cluster : SpanningTree 5 exPairs2Far ∧ TwoParts 5 (fun _ => (1 : ℚ)) (2 : ℕ) exPairs2Far ∧
    (clustersFromMst lamq (fun _ => 1) ⟨2, .eom, none, true, 0, 0⟩ exPairs2Far).map ClusterResult.labels = some [0, 0, 0, 0, -1] :=
  ⟨exPairs2Far_tree, exPairs2Far_two, C110_single_cluster.2⟩

/-- The hypotheses of `C106_found_partial` hold for these samples, and the whole data set is selected. -/
example : ∃ r, clustersFromMstAny (StabOps.exact ℚ) (ScoreOps.exact ℚ) (fun d => (lamq d : WithTop ℚ)) (fun _ => 1) ⟨2, .eom, none, true, 0, 0⟩ exPairs2Far = some r ∧
    5 ∈ r.selected ∧ PartsFound 5 (fun _ => (1 : ℚ)) 2 exPairs2Far r.labels := by
  have hl : (clustersFromMst lamq (fun _ => 1) ⟨2, .eom, none, true, 0, 0⟩ exPairs2Far).map (fun r => decide (5 ∈ r.selected)) = some true := by decide +kernel
  obtain ⟨r0, hr0, hs⟩ := Option.map_eq_some_iff.1 hl
  have he := C104_exact 5 (by decide) (fun _ => 1) exPairs2Far exPairs2Far_tree lamq ⟨2, .eom, none, true, 0, 0⟩ le_rfl
  rw [hr0, Option.map_some] at he
  obtain ⟨r, hr, he⟩ := Option.map_eq_some_iff.1 he
  simp only [Prod.mk.injEq] at he
  refine ⟨r, hr, by rw [he.2.2.2.2.1]; exact of_decide_eq_true hs, ?_⟩
  exact C106_found_partial 5 (by decide) (fun _ => 1) exPairs2Far exPairs2Far [] exPairs2Far (msf_self exPairs2Far_tree.acyclic) (by simp) exPairs2Far_tree (by simp)
    ⟨2, .eom, none, true, 0, 0⟩ (by norm_num) (by decide) (by intro _ _; norm_num) _ (fun _ _ h => WithTop.coe_le_coe.2 (lamq_antitone h))
    (fun d => WithTop.coe_le_coe.2 (lamq_nonneg d)) (fun d hd h => hd ((lamq_zero d).1 (WithTop.coe_eq_zero.1 h))) le_rfl le_rfl _ _
    (.inr ⟨rfl, fun x => by simp [ScoreOps.exact]⟩) r hr (by simpa using exPairs2Far_two)

/-- Case for `C106_fit_found_partial`: rows with missing values, an infinite lambda at distance 0, the arithmetic of numpy, and `allow_single_cluster`. -/
example : ∃ r, fitModel Option.isSome (fastHdbscanAny scoreStab ieeeOps lamTop (kruskalRows rowLine 1) (fun _ => 1) ⟨2, .eom, none, true, 0, 0⟩) [1, 4] exFitData
      (exFitData.map fun _ => ()) = .ok r ∧
    GroupsFound Option.isSome (rowReach rowLine (exFitData.filter Option.isSome) 1) (fun _ => (1 : ℚ)) 2 exFitData r.labels := by
  obtain ⟨h3, h4⟩ := kruskalRows_tree rowLine rowLine_comm 1 (exFitData.filter Option.isSome) (by decide)
    (((exFitData.zip (exFitData.map fun _ => ())).filter fun p => p.1.isSome).map Prod.snd)
  obtain ⟨r, hr⟩ := C104_fit_returns lamTop lamTop_antitone lamTop_nonneg scoreStab ieeeOps Option.isSome exFitData (exFitData.map fun _ => ()) (by simp) (by decide)
    (fun _ => 1) ⟨2, .eom, none, true, 0, 0⟩ (by decide +kernel) le_rfl (fun _ _ => by decide +kernel) (kruskalRows rowLine 1) h3 [1, 4] (by decide +kernel)
    (.inr ⟨rfl, ieeeOps_gt⟩)
  have hone : (fun i : ℕ => ((exFitData.map fun _ => ())[i]?.map fun _ : Unit => (1 : ℚ)).getD 1) = fun _ => 1 := by
    funext i
    cases (exFitData.map fun _ => ())[i]? <;> rfl
  have h := C106_fit_found_partial lamTop lamTop_antitone lamTop_nonneg (fun d hd => by
      obtain ⟨q, rfl⟩ := WithTop.ne_top_iff_exists.1 hd
      exact lamTop_ne_zero q) scoreStab ieeeOps Option.isSome _ (rowReach_comm rowLine_comm _ 1) exFitData
    (exFitData.map fun _ => ()) (by simp) (by decide) (fun _ => 1) ⟨2, .eom, none, true, 0, 0⟩ (by decide +kernel) (fun _ _ => by decide +kernel) (kruskalRows rowLine 1) _ rfl
    h3 h4 le_rfl le_rfl (.inr ⟨rfl, ieeeOps_gt⟩) [1, 4] (by decide +kernel) r hr (by rw [hone]; simpa using exFitData_two)
  rw [hone] at h
  exact ⟨r, hr, h⟩

end Verif
