import Verif.Props.EpsilonApart
import Verif.Props.EpsilonRaiseCases

/-!
# C114: cases, and what the partial theorems leave out
-/

namespace Verif

/-- Eleven samples in a row. -/
def exPersist : List (Edge (WithTop ℚ)) := [⟨0, 1, (67 : ℚ)⟩, ⟨1, 2, (71 : ℚ)⟩, ⟨2, 3, (67 : ℚ)⟩, ⟨3, 4, (74 : ℚ)⟩, ⟨4, 5, (91 : ℚ)⟩,
  ⟨5, 6, (40 : ℚ)⟩, ⟨6, 7, (80 : ℚ)⟩, ⟨7, 8, (40 : ℚ)⟩, ⟨8, 9, (100 : ℚ)⟩, ⟨9, 10, (50 : ℚ)⟩]

/-- **C114** fails with a positive persistence and `allow_single_cluster`: with epsilon 77, sample 3 is in the only cluster and sample 4, at distance 74, is noise.
The simplification gives sample 4 the lambda of a cluster it drops, and samples 0 to 3 keep theirs. -/
theorem C114_persistence : SpanningTree 11 exPersist ∧ ⟨3, 4, (74 : ℚ)⟩ ∈ shorter lamq 77 exPersist ∧
    (clustersFromMst lamq (fun _ => 1) ⟨2, .eom, none, true, 77, 1 / 200⟩ exPersist).map ClusterResult.labels = some [0, 0, 0, 0, -1, 0, 0, 0, 0, 0, 0] ∧
    (clustersFromMst lamq (fun _ => 1) ⟨2, .eom, none, true, 77, 0⟩ exPersist).map ClusterResult.labels = some [0, 0, 0, 0, 0, 0, 0, 0, 0, 0, 0] :=
  ⟨path_spanning (by unfold InRange; decide +kernel) (by decide) fun i hi => by
    have : i < 10 := by omega
    interval_cases i <;> decide +kernel, by decide +kernel, by decide +kernel, by decide +kernel⟩

/-- Eleven samples in a row, with two infinite edges. -/
def exPersistTop : List (Edge (WithTop ℚ)) := [⟨0, 1, (67 : ℚ)⟩, ⟨1, 2, (71 : ℚ)⟩, ⟨2, 3, (67 : ℚ)⟩, ⟨3, 4, (74 : ℚ)⟩, ⟨4, 5, ⊤⟩,
  ⟨5, 6, (30 : ℚ)⟩, ⟨6, 7, (80 : ℚ)⟩, ⟨7, 8, (30 : ℚ)⟩, ⟨8, 9, ⊤⟩, ⟨9, 10, (50 : ℚ)⟩]

/-- **C114** fails with a positive persistence and infinite edges, also with two clusters: with epsilon 77, sample 3 is in cluster 0 and sample 4, at distance 74, is noise.
The simplification gives sample 4 the lambda zero of a cluster it drops. -/
theorem C114_persistence_infinite : SpanningTree 11 exPersistTop ∧ ⟨3, 4, (74 : ℚ)⟩ ∈ shorter lamq 77 exPersistTop ∧
    (clustersFromMst lamq (fun _ => 1) ⟨2, .eom, none, false, 77, 1 / 60⟩ exPersistTop).map ClusterResult.labels = some [0, 0, 0, 0, -1, 0, 0, 0, 0, 1, 1] :=
  ⟨path_spanning (by unfold InRange; decide +kernel) (by decide) fun i hi => by
    have : i < 10 := by omega
    interval_cases i <;> decide +kernel, by decide +kernel, by decide +kernel⟩

/-- The hypotheses of `C114_apart_partial` hold, with two clusters: samples 8 to 11 are one cluster with epsilon 5, 9 is reached from 8 by a short edge. -/
example : ∃ r, clustersFromMst lamq (fun _ => 1) { exOpts .leaf 0 with epsilon := 5 } exDropped = some r ∧
    r.labels = [-1, -1, -1, -1, 2, 2, 1, 1, 0, 0, 0, 0] ∧
    ∀ y, Conn (shorter lamq 5 exDropped) 8 y → r.labels[y]? = some 0 := by
  obtain ⟨-, -, h⟩ := C112_cluster_lost
  obtain ⟨r, hr, hl⟩ := Option.map_eq_some_iff.1 h
  exact ⟨r, hr, hl, fun y hy => C114_apart_partial 12 (by decide) (fun _ => 1) exDropped exDropped (msf_self exDropped_tree.acyclic) exDropped_tree
    { exOpts .leaf 0 with epsilon := 5 } (by show (1 : ℚ) < 2; decide) (by decide)
    (by intro _ _; show (1 : ℚ) < 2; decide) lamq lamq_antitone lamq_nonneg hr (.inl le_rfl) 8 y 0 le_rfl (by rw [hl]; rfl) hy⟩

/-- The hypotheses of `C114_fit_partial` and `C114_fit_kruskal_partial` hold: two pairs of points, two rows with NaN, epsilon 3/2 and a positive persistence; row 2 and row 3 are in different
clusters. -/
example : ∃ r, fitModel Option.isSome (fastHdbscan lamq (kruskalRows rowLine 1) (fun _ => 1) { exOpts .eom 0 with persistence := 1 / 10, epsilon := 3 / 2 }) [1, 4]
      exFitData (exFitData.map fun _ => ()) = .ok r ∧ r.labels = [1, -1, 1, 0, -1, 0] ∧
    (3 / 2 : ℚ) ≤ 1 / lamq (rowReach rowLine (exFitData.filter Option.isSome) 1 (some 1) (some 100)) := by
  have hl : (match fitModel Option.isSome (fastHdbscan lamq (kruskalRows rowLine 1) (fun _ => 1) { exOpts .eom 0 with persistence := 1 / 10, epsilon := 3 / 2 })
      [1, 4] exFitData (exFitData.map fun _ => ()) with
    | .ok r => decide (r.labels = [1, -1, 1, 0, -1, 0])
    | .error _ => false) = true := by decide +kernel
  cases hr : fitModel Option.isSome (fastHdbscan lamq (kruskalRows rowLine 1) (fun _ => 1) { exOpts .eom 0 with persistence := 1 / 10, epsilon := 3 / 2 }) [1, 4]
      exFitData (exFitData.map fun _ => ()) with
  | error e => rw [hr] at hl; cases hl
  | ok r =>
    rw [hr] at hl
    have hlab := of_decide_eq_true hl
    exact ⟨r, rfl, hlab, (C114_fit_kruskal_partial lamq lamq_antitone lamq_nonneg Option.isSome rowLine rowLine_comm 1 exFitData (by decide)
      { exOpts .eom 0 with persistence := 1 / 10, epsilon := 3 / 2 } (by show (1 : ℚ) < 2; decide) [1, 4] (by decide +kernel) r hr
      (.inr ⟨by decide +kernel, 0, by rw [hlab]; decide, 1, by rw [hlab]; decide, by decide, by decide, by decide⟩) 2 3 (some 1) (some 100) 1 (by decide) rfl rfl
      (by rw [hlab]; rfl) (by rw [hlab]; decide) rfl).resolve_left (by decide +kernel)⟩

/-- The hypotheses of `C114_apart_partial` hold, with infinite edges. -/
example : ∃ r, clustersFromMst lamq (fun _ => 1) ⟨2, .eom, none, false, 77, 0⟩ exPersistTop = some r ∧ ∀ y, Conn (shorter lamq 77 exPersistTop) 3 y → r.labels[y]? = r.labels[3]? := by
  have hl : (clustersFromMst lamq (fun _ => 1) ⟨2, .eom, none, false, 77, 0⟩ exPersistTop).map (fun r => r.labels[3]?) = some (some 1) := by decide +kernel
  obtain ⟨r, hr, hl⟩ := Option.map_eq_some_iff.1 hl
  exact ⟨r, hr, fun y hy => (C114_apart_partial 11 (by decide) (fun _ => 1) exPersistTop exPersistTop (msf_self C114_persistence_infinite.1.acyclic)
    C114_persistence_infinite.1 ⟨2, .eom, none, false, 77, 0⟩ (by show (1 : ℚ) < 2; decide) (by decide)
    (by intro _ _; show (1 : ℚ) < 2; decide) lamq lamq_antitone lamq_nonneg hr (.inl le_rfl) 3 y 1 (by decide) hl hy).trans hl.symm⟩

end Verif
