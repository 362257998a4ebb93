import Verif.Props.Groups

/-!
# C106: cases, and groups that are missed
-/

namespace Verif
variable {W K : Type*}

/-- Edges between all neighbours on a line make a spanning tree. -/
theorem path_spanning {n : ℕ} {t : List (Edge W)} (hr : InRange n t) (hlen : t.length + 1 = n)
    (hstep : ∀ i, i + 1 < n → ∃ e ∈ t, e.u = i ∧ e.v = i + 1) : SpanningTree n t := by
  have h0 : ∀ a, a < n → Conn t a 0 := by
    intro a ha
    induction a with
    | zero => exact Conn.refl _ _
    | succ a ih =>
      obtain ⟨e, he, rfl, h⟩ := hstep a ha
      rw [← h]
      exact (Conn.edge he).symm.trans (ih (by omega))
  have hconn : ∀ a b, a < n → b < n → Conn t a b := fun a b ha hb => (h0 a ha).trans (h0 b hb).symm
  exact ⟨hr, acyclic_of_connected hr hconn (by omega), hconn⟩

theorem bigPart_of [LinearOrder W] {n m : ℕ} {g : List (Edge W)} {τ : W} {x : ℕ} (F : List ℕ) (hF : F.Nodup) (hn : ∀ y ∈ F, y < n) (hm : m ≤ F.length)
    (h : ∀ y ∈ F, Conn (upTo τ g) x y) : BigPart n (fun _ => (1 : ℚ)) m g τ x := by
  classical
  unfold BigPart
  rw [Finset.sum_const, nsmul_eq_mul, mul_one, Nat.cast_le]
  refine hm.trans ?_
  rw [← List.toFinset_card_of_nodup hF]
  exact Finset.card_le_card fun y hy => Finset.mem_filter.2 ⟨Finset.mem_range.2 (hn y (List.mem_toFinset.1 hy)), h y (List.mem_toFinset.1 hy)⟩

/-- A group without labels is missed. -/
theorem missed_of [LinearOrder W] [OrderTop W] [AddCommMonoid K] [LE K] {n : ℕ} {wt : ℕ → K} {mcs : K} {g : List (Edge W)} {labels : List ℤ} {τ : W} (hτ : τ ≠ ⊤)
    {x : ℕ} (hx : x < n) (hb : BigPart n wt mcs g τ x) (f : ℕ → ℕ) (hf : ∀ e ∈ upTo τ g, f e.u = f e.v)
    (hl : ∀ y, f y = f x → ∀ l ∈ labels[y]?, l = -1) : ¬ PartsFound n wt mcs g labels := by
  intro h
  obtain ⟨l, hm, h0, h | h⟩ := h τ hτ x hx hb
  · have := hl x rfl l (h x hx (Conn.refl _ _))
    omega
  · obtain ⟨y, hy⟩ := List.mem_iff_getElem?.1 hm
    have := hl y (conn_invariant f hf (h y hy)).symm l hy
    omega

/-- Twelve samples in a row: two groups of four, two pairs between. -/
def exDropped : List (Edge (WithTop ℚ)) :=
  [⟨0, 1, (1 / 2 : ℚ)⟩, ⟨2, 3, (1 / 2 : ℚ)⟩, ⟨4, 5, (1 / 2 : ℚ)⟩, ⟨6, 7, (1 / 2 : ℚ)⟩, ⟨8, 9, (1 / 2 : ℚ)⟩, ⟨10, 11, (1 / 2 : ℚ)⟩, ⟨1, 2, (1 : ℚ)⟩,
   ⟨9, 10, (1 : ℚ)⟩, ⟨3, 4, (6 : ℚ)⟩, ⟨5, 6, (8 : ℚ)⟩, ⟨7, 8, (10 : ℚ)⟩]

theorem exDropped_tree : SpanningTree 12 exDropped :=
  path_spanning (by unfold InRange; decide +kernel) (by decide) fun i hi => by
    have : i < 11 := by omega
    interval_cases i <;> decide +kernel

theorem exDropped_step {i : ℕ} (h : ∃ e ∈ upTo ((1 : ℚ) : WithTop ℚ) exDropped, e.u = i ∧ e.v = i + 1) : Conn (upTo ((1 : ℚ) : WithTop ℚ) exDropped) i (i + 1) := by
  obtain ⟨e, he, rfl, h⟩ := h
  rw [← h]
  exact Conn.edge he

theorem exDropped_first : BigPart 12 (fun _ => (1 : ℚ)) (2 : ℕ) exDropped ((1 : ℚ) : WithTop ℚ) 0 :=
  bigPart_of [0, 1] (by decide) (by decide) (by decide) fun y hy => by
    rcases List.mem_pair.1 hy with rfl | rfl
    · exact Conn.refl _ _
    · exact exDropped_step (by decide +kernel)

theorem exDropped_two : TwoParts 12 (fun _ => (1 : ℚ)) (2 : ℕ) exDropped :=
  ⟨((1 : ℚ) : WithTop ℚ), WithTop.coe_ne_top, 0, 4, by decide, by decide, exDropped_first,
    bigPart_of [4, 5] (by decide) (by decide) (by decide) (fun y hy => by
      rcases List.mem_pair.1 hy with rfl | rfl
      · exact Conn.refl _ _
      · exact exDropped_step (by decide +kernel)),
    fun h => absurd (conn_invariant (fun x => if x < 4 then 0 else 1) (by decide +kernel) h) (by decide)⟩

/-- The hypotheses of `C106_exact_partial` hold, for both methods. -/
example (m : Method) : ∃ r, clustersFromMst lamq (fun _ => 1) (exOpts m 0) exDropped = some r ∧
    PartsFound 12 (fun _ => (1 : ℚ)) 2 exDropped r.labels ∧ ∃ l ∈ r.labels, ∃ l' ∈ r.labels, 0 ≤ l ∧ l < l' := by
  have hl : (clustersFromMst lamq (fun _ => 1) (exOpts m 0) exDropped).map (fun r => decide (12 ∈ r.selected)) = some false := by
    cases m <;> decide +kernel
  obtain ⟨r, hr, hs⟩ := Option.map_eq_some_iff.1 hl
  obtain ⟨f1, -, f3⟩ := C106_exact_partial 12 (by decide) (fun _ => 1) exDropped exDropped [] exDropped (msf_self exDropped_tree.acyclic) (by simp) exDropped_tree (by simp)
    (exOpts m 0) (by show (1 : ℚ) < 2; decide) (by decide) (by intro _ _; show (1 : ℚ) < 2; decide) lamq lamq_antitone lamq_nonneg (fun d hd h => hd ((lamq_zero d).1 h)) le_rfl le_rfl (.inr rfl) r hr
    (of_decide_eq_false hs) (by simpa [exOpts] using exDropped_two)
  exact ⟨r, hr, f1, f3 (by unfold exDropped; simp)⟩

/-- **C106** fails with `cluster_selection_epsilon`: the group of samples 0 to 3, joined by steps of at most 1 and more than 5 from all other samples, gets no label,
with the leaf method and epsilon 5. -/
theorem C106_epsilon : TwoParts 12 (fun _ => (1 : ℚ)) (2 : ℕ) exDropped ∧
    (clustersFromMst lamq (fun _ => 1) { exOpts .leaf 0 with epsilon := 5 } exDropped).map ClusterResult.labels = some [-1, -1, -1, -1, 2, 2, 1, 1, 0, 0, 0, 0] ∧
    ¬ PartsFound 12 (fun _ => (1 : ℚ)) (2 : ℕ) exDropped [-1, -1, -1, -1, 2, 2, 1, 1, 0, 0, 0, 0] :=
  ⟨exDropped_two, by decide +kernel, missed_of WithTop.coe_ne_top (by decide) exDropped_first (fun x => if x < 4 then 0 else 1) (by decide +kernel) (by
    intro y hy
    by_cases h : y < 4
    · interval_cases y <;> decide
    · simp [h] at hy)⟩

/-- Two pairs, far apart. -/
def exTwoPairs : List (Edge (WithTop ℚ)) := [⟨0, 1, (1 : ℚ)⟩, ⟨2, 3, (1 : ℚ)⟩, ⟨1, 2, (9 : ℚ)⟩]

/-- **C106** fails with a positive `cluster_selection_persistence`: of two pairs at distance 9, with 1 inside each pair, none gets a label with a persistence of 10,
with either method. -/
theorem C106_persistence : SpanningTree 4 exTwoPairs ∧ TwoParts 4 (fun _ => (1 : ℚ)) (2 : ℕ) exTwoPairs ∧
    (∀ m, (clustersFromMst lamq (fun _ => 1) (exOpts m 10) exTwoPairs).map ClusterResult.labels = some [-1, -1, -1, -1]) ∧
    ¬ PartsFound 4 (fun _ => (1 : ℚ)) (2 : ℕ) exTwoPairs [-1, -1, -1, -1] := by
  have h1 : BigPart 4 (fun _ => (1 : ℚ)) (2 : ℕ) exTwoPairs ((1 : ℚ) : WithTop ℚ) 0 :=
    bigPart_of [0, 1] (by decide) (by decide) (by decide) fun y hy => by
      rcases List.mem_pair.1 hy with rfl | rfl
      · exact Conn.refl _ _
      · exact Conn.edge (e := ⟨0, 1, ((1 : ℚ) : WithTop ℚ)⟩) (by decide +kernel)
  have h2 : BigPart 4 (fun _ => (1 : ℚ)) (2 : ℕ) exTwoPairs ((1 : ℚ) : WithTop ℚ) 2 :=
    bigPart_of [2, 3] (by decide) (by decide) (by decide) fun y hy => by
      rcases List.mem_pair.1 hy with rfl | rfl
      · exact Conn.refl _ _
      · exact Conn.edge (e := ⟨2, 3, ((1 : ℚ) : WithTop ℚ)⟩) (by decide +kernel)
  refine ⟨path_spanning (by unfold InRange; decide +kernel) (by decide) fun i hi => ?_, ⟨_, WithTop.coe_ne_top, 0, 2, by decide, by decide, h1, h2, fun h => ?_⟩, fun m => ?_,
    missed_of WithTop.coe_ne_top (by decide) h1 (fun _ => 0) (fun _ _ => rfl) fun y _ l hl => ?_⟩
  · have : i < 3 := by omega
    interval_cases i <;> decide +kernel
  · exact absurd (conn_invariant (fun x => if x < 2 then 0 else 1) (by decide +kernel) h) (by decide)
  · cases m <;> decide +kernel
  · have := List.mem_of_getElem? hl
    simpa using this

/-- Three samples in a row, and two pairs. -/
def exSeven : List (Edge (WithTop ℚ)) := [⟨0, 1, (1 : ℚ)⟩, ⟨1, 2, (1 : ℚ)⟩, ⟨3, 4, (1 : ℚ)⟩, ⟨5, 6, (1 : ℚ)⟩, ⟨2, 3, (8 : ℚ)⟩, ⟨4, 5, (9 : ℚ)⟩]

/-- **C106** fails with `max_cluster_size = 2`: the three samples at distance 1 from the next, 8 from all others, get no label. -/
theorem C106_max_cluster_size : SpanningTree 7 exSeven ∧ TwoParts 7 (fun _ => (1 : ℚ)) (2 : ℕ) exSeven ∧
    (clustersFromMst lamq (fun _ => 1) { exOpts .eom 0 with maxClusterSize := some 2 } exSeven).map ClusterResult.labels = some [-1, -1, -1, 1, 1, 0, 0] ∧
    ¬ PartsFound 7 (fun _ => (1 : ℚ)) (2 : ℕ) exSeven [-1, -1, -1, 1, 1, 0, 0] := by
  have h1 : BigPart 7 (fun _ => (1 : ℚ)) (2 : ℕ) exSeven ((1 : ℚ) : WithTop ℚ) 0 :=
    bigPart_of [0, 1] (by decide) (by decide) (by decide) fun y hy => by
      rcases List.mem_pair.1 hy with rfl | rfl
      · exact Conn.refl _ _
      · exact Conn.edge (e := ⟨0, 1, ((1 : ℚ) : WithTop ℚ)⟩) (by decide +kernel)
  have h2 : BigPart 7 (fun _ => (1 : ℚ)) (2 : ℕ) exSeven ((1 : ℚ) : WithTop ℚ) 3 :=
    bigPart_of [3, 4] (by decide) (by decide) (by decide) fun y hy => by
      rcases List.mem_pair.1 hy with rfl | rfl
      · exact Conn.refl _ _
      · exact Conn.edge (e := ⟨3, 4, ((1 : ℚ) : WithTop ℚ)⟩) (by decide +kernel)
  refine ⟨path_spanning (by unfold InRange; decide +kernel) (by decide) fun i hi => ?_, ⟨_, WithTop.coe_ne_top, 0, 3, by decide, by decide, h1, h2, fun h => ?_⟩, by decide +kernel,
    missed_of WithTop.coe_ne_top (by decide) h1 (fun x => if x < 3 then 0 else 1) (by decide +kernel) fun y hy => ?_⟩
  · have : i < 6 := by omega
    interval_cases i <;> decide +kernel
  · exact absurd (conn_invariant (fun x => if x < 3 then 0 else 1) (by decide +kernel) h) (by decide)
  · by_cases h : y < 3
    · interval_cases y <;> decide
    · simp [h] at hy

/-! ### Rows -/

/-- Rows that are never joined. -/
theorem linked_invariant [LinearOrder W] {α : Type*} {finite : α → Bool} {reach : α → α → W} {X : List α} {τ : W} (f : ℕ → ℕ)
    (hf : ∀ i j x y, X[i]? = some x → X[j]? = some y → finite x = true → finite y = true → reach x y ≤ τ → f i = f j) {i j : ℕ}
    (h : Linked finite reach X τ i j) : f i = f j := by
  induction h with
  | refl => rfl
  | tail _ h ih =>
    obtain ⟨x, y, hx, hy, h1, h2, h3⟩ := h
    exact ih.trans (hf _ _ x y hx hy h1 h2 h3)

theorem bigGroup_of [LinearOrder W] {α : Type*} {finite : α → Bool} {reach : α → α → W} {X : List α} {τ : W} {m i : ℕ}
    (hi : ∃ x, X[i]? = some x ∧ finite x = true) (F : List ℕ) (hF : F.Nodup) (hn : ∀ j ∈ F, j < X.length) (hm : m ≤ F.length)
    (h : ∀ j ∈ F, Linked finite reach X τ i j) : BigGroup finite reach (fun _ => (1 : ℚ)) m X τ i := by
  classical
  refine ⟨hi, ?_⟩
  rw [Finset.sum_const, nsmul_eq_mul, mul_one, Nat.cast_le]
  refine hm.trans ?_
  rw [← List.toFinset_card_of_nodup hF]
  exact Finset.card_le_card fun y hy => Finset.mem_filter.2 ⟨Finset.mem_range.2 (hn y (List.mem_toFinset.1 hy)), h y (List.mem_toFinset.1 hy)⟩

/-- Rows 0 and 2 are one group, 3 and 5 another, and 1 and 4 have missing values. -/
theorem exFitData_two : TwoGroups Option.isSome (rowReach rowLine (exFitData.filter Option.isSome) 1) (fun _ => (1 : ℚ)) (2 : ℕ) exFitData := by
  refine ⟨((1 : ℚ) : WithTop ℚ), WithTop.coe_ne_top, 0, 3,
    bigGroup_of ⟨some 0, rfl, rfl⟩ [0, 2] (by decide) (by decide) (by decide) fun j hj => ?_,
    bigGroup_of ⟨some 100, rfl, rfl⟩ [3, 5] (by decide) (by decide) (by decide) fun j hj => ?_, fun h => ?_⟩
  · rcases List.mem_pair.1 hj with rfl | rfl
    · exact .refl
    · exact .single ⟨some 0, some 1, rfl, rfl, rfl, rfl, by decide +kernel⟩
  · rcases List.mem_pair.1 hj with rfl | rfl
    · exact .refl
    · exact .single ⟨some 100, some 101, rfl, rfl, rfl, rfl, by decide +kernel⟩
  · refine absurd (linked_invariant (fun i => if i < 3 then 0 else 1) (fun i j x y hx hy h1 h2 h3 => ?_) h) (by decide)
    have hi := (List.getElem?_eq_some_iff.1 hx).1
    have hj := (List.getElem?_eq_some_iff.1 hy).1
    have key : ∀ i < 6, ∀ j < 6, ∀ x ∈ exFitData[i]?, ∀ y ∈ exFitData[j]?, x.isSome = true → y.isSome = true →
        rowReach rowLine (exFitData.filter Option.isSome) 1 x y ≤ ((1 : ℚ) : WithTop ℚ) → (if i < 3 then 0 else 1) = if j < 3 then 0 else 1 := by
      decide +kernel
    exact key i hi j hj x hx y hy h1 h2 h3

/-- Case for `C106_fit_kruskal_partial`: two pairs of points and two rows with NaN. -/
example (m : Method) : ∃ r, fitModel Option.isSome (fastHdbscan lamq (kruskalRows rowLine 1) (fun _ => 1) (exOpts m 0)) [1, 4] exFitData (exFitData.map fun _ => ()) = .ok r ∧
    SoundClustering Option.isSome rowLine 1 2 exFitData r.labels r.strengths ∧
    GroupsFound Option.isSome (rowReach rowLine (exFitData.filter Option.isSome) 1) (fun _ => (1 : ℚ)) 2 exFitData r.labels ∧
    ∃ l ∈ r.labels, ∃ l' ∈ r.labels, 0 ≤ l ∧ l < l' := by
  obtain ⟨r, hr, h1, h2⟩ := C106_fit_kruskal_partial lamq lamq_antitone lamq_nonneg lamq_zero Option.isSome rowLine rowLine_comm 1 2 le_rfl exFitData (by decide) [1, 4]
    (by decide +kernel) (exOpts m 0) rfl rfl rfl le_rfl le_rfl
  obtain ⟨f1, -, f3⟩ := h2 (by simpa [exOpts] using exFitData_two)
  exact ⟨r, hr, h1, f1, f3 (by decide +kernel)⟩

/-- Case for `C106_fit_partial`: the same data, with an infinite lambda at distance 0 and the arithmetic of numpy. -/
example : ∃ r, fitModel Option.isSome (fastHdbscanAny scoreStab ieeeOps lamTop (kruskalRows rowLine 1) (fun _ => 1) (exOpts .eom 0)) [1, 4] exFitData
      (exFitData.map fun _ => ()) = .ok r ∧
    GroupsFound Option.isSome (rowReach rowLine (exFitData.filter Option.isSome) 1) (fun _ => (1 : ℚ)) 2 exFitData r.labels := by
  obtain ⟨h3, h4⟩ := kruskalRows_tree rowLine rowLine_comm 1 (exFitData.filter Option.isSome) (by decide)
    (((exFitData.zip (exFitData.map fun _ => ())).filter fun p => p.1.isSome).map Prod.snd)
  obtain ⟨r, hr⟩ := C104_fit_returns lamTop lamTop_antitone lamTop_nonneg scoreStab ieeeOps Option.isSome exFitData (exFitData.map fun _ => ()) (by simp) (by decide)
    (fun _ => 1) (exOpts .eom 0) (by decide +kernel) le_rfl (fun _ _ => by decide +kernel) (kruskalRows rowLine 1) h3 [1, 4] (by decide +kernel) (.inr ⟨rfl, ieeeOps_gt⟩)
  have hone : (fun i : ℕ => ((exFitData.map fun _ => ())[i]?.map fun _ : Unit => (1 : ℚ)).getD 1) = fun _ => 1 := by
    funext i
    cases (exFitData.map fun _ => ())[i]? <;> rfl
  have h := C106_fit_partial lamTop lamTop_antitone lamTop_nonneg (fun d hd => by
      obtain ⟨q, rfl⟩ := WithTop.ne_top_iff_exists.1 hd
      exact lamTop_ne_zero q) scoreStab ieeeOps Option.isSome _ (rowReach_comm rowLine_comm _ 1) exFitData
    (exFitData.map fun _ => ()) (by simp) (by decide) (fun _ => 1) (exOpts .eom 0) (by decide +kernel) (fun _ _ => by decide +kernel) (kruskalRows rowLine 1) _ rfl h3 h4
    le_rfl le_rfl (.inr ⟨rfl, rfl, ieeeOps_gt⟩) [1, 4] (by decide +kernel) r hr (by rw [hone]; simpa [exOpts] using exFitData_two)
  rw [hone] at h
  exact ⟨r, hr, h.1⟩

end Verif
