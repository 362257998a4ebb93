import Verif.Props.EpsilonRaise
import Verif.Props.GroupsCases

/-!
# C112: cases, and what the partial theorems leave out
-/

namespace Verif

/-- **C112** fails for whole clusters: with the leaf method samples 0 and 1 are a cluster without epsilon, and noise with epsilon 5. -/
theorem C112_cluster_lost : SpanningTree 12 exDropped ∧
    (clustersFromMst lamq (fun _ => 1) (exOpts .leaf 0) exDropped).map ClusterResult.labels = some [5, 5, 4, 4, 3, 3, 0, 0, 2, 2, 1, 1] ∧
    (clustersFromMst lamq (fun _ => 1) { exOpts .leaf 0 with epsilon := 5 } exDropped).map ClusterResult.labels = some [-1, -1, -1, -1, 2, 2, 1, 1, 0, 0, 0, 0] :=
  ⟨exDropped_tree, by decide +kernel, by decide +kernel⟩

/-- The hypotheses of `C112_not_divided_partial` hold: samples 8 and 9 are a cluster without epsilon, and part of a larger one with epsilon 5. -/
example : ∃ r r', clustersFromMst lamq (fun _ => 1) (exOpts .leaf 0) exDropped = some r ∧
    clustersFromMst lamq (fun _ => 1) { exOpts .leaf 0 with epsilon := 5 } exDropped = some r' ∧
    r.labels[8]? = some 2 ∧ r.labels[9]? = some 2 ∧ r'.labels[8]? = some 0 ∧ (r'.labels[9]? = some 0 ∨ r'.labels[9]? = some (-1)) := by
  obtain ⟨-, h, h'⟩ := C112_cluster_lost
  obtain ⟨r, hr, hl⟩ := Option.map_eq_some_iff.1 h
  obtain ⟨r', hr', hl'⟩ := Option.map_eq_some_iff.1 h'
  have a : r.labels[8]? = some 2 := by rw [hl]; rfl
  have b : r.labels[9]? = some 2 := by rw [hl]; rfl
  have c : r'.labels[8]? = some 0 := by rw [hl']; rfl
  exact ⟨r, r', hr, hr', a, b, c, (C112_not_divided_partial 12 (by decide) (fun _ => 1) exDropped exDropped_tree (exOpts .leaf 0) (by show (1 : ℚ) < 2; decide) (by decide)
    (by intro _ _; show (1 : ℚ) < 2; decide) lamq lamq_antitone lamq_nonneg 5 (by show (0 : ℚ) ≤ 5; decide) hr hr' 8 9 2 0 (by decide) (by decide) a b c).1⟩

/-- The hypotheses of `C112_fit_partial` hold: twelve rows after one with a missing value. -/
example : ∃ r r', fitModel (fun x : ℕ => decide (x ≠ 0)) (fastHdbscan lamq (fun _ _ => exDropped) (fun _ => 1) (exOpts .leaf 0)) [0] (List.range 13) (List.replicate 13 ()) = .ok r ∧
    fitModel (fun x : ℕ => decide (x ≠ 0)) (fastHdbscan lamq (fun _ _ => exDropped) (fun _ => 1) { exOpts .leaf 0 with epsilon := 5 }) [0] (List.range 13) (List.replicate 13 ()) = .ok r' ∧
    r.labels[9]? = some 2 ∧ r'.labels[9]? = some 0 ∧ r'.labels[10]? = some 0 := by
  have h : (fitModel (fun x : ℕ => decide (x ≠ 0)) (fastHdbscan lamq (fun _ _ => exDropped) (fun _ => 1) (exOpts .leaf 0)) [0] (List.range 13) (List.replicate 13 ())).toOption.map FitResult.labels =
      some [-1, 5, 5, 4, 4, 3, 3, 0, 0, 2, 2, 1, 1] := by decide +kernel
  have h' : (fitModel (fun x : ℕ => decide (x ≠ 0)) (fastHdbscan lamq (fun _ _ => exDropped) (fun _ => 1) { exOpts .leaf 0 with epsilon := 5 }) [0] (List.range 13)
      (List.replicate 13 ())).toOption.map FitResult.labels = some [-1, -1, -1, -1, -1, 2, 2, 1, 1, 0, 0, 0, 0] := by decide +kernel
  obtain ⟨r, hr, hl⟩ := Option.map_eq_some_iff.1 h
  obtain ⟨r', hr', hl'⟩ := Option.map_eq_some_iff.1 h'
  have ok : ∀ {e : Except FitError (FitResult (WithTop ℚ) ℚ)} {r}, e.toOption = some r → e = .ok r := by
    intro e r he
    cases e with
    | error => simp [Except.toOption] at he
    | ok a => simp only [Except.toOption, Option.some.injEq] at he; rw [he]
  have a : r.labels[9]? = some 2 := by rw [hl]; rfl
  have b : r.labels[10]? = some 2 := by rw [hl]; rfl
  have c : r'.labels[9]? = some 0 := by rw [hl']; rfl
  exact ⟨r, r', ok hr, ok hr', a, c, (C112_fit_partial lamq lamq_antitone lamq_nonneg (fun x : ℕ => decide (x ≠ 0)) (List.range 13) (List.replicate 13 ()) (by decide) (by decide)
    (fun _ => 1) (exOpts .leaf 0) (by show (1 : ℚ) < 2; decide) (by intro _ _; exact ⟨by decide, by show (1 : ℚ) < 2; decide⟩) (fun _ _ => exDropped) exDropped_tree [0]
    (by decide) 5 (by show (0 : ℚ) ≤ 5; decide) r r' (ok hr) (ok hr') 9 10 2 0 (by decide) (by decide) a b c).2 (.inr (.inl rfl))⟩

/-- Five samples in a row. -/
def exWhole : List (Edge (WithTop ℚ)) := [⟨0, 1, (10 : ℚ)⟩, ⟨3, 4, (22 : ℚ)⟩, ⟨1, 2, (21 : ℚ)⟩, ⟨2, 3, (18 : ℚ)⟩]

/-- **C112** fails for the whole data set: with `allow_single_cluster` and excess of mass samples 0 and 2 share a cluster without epsilon; with epsilon 15 sample 0 is in a cluster and
sample 2 is noise. -/
theorem C112_whole_data_set : SpanningTree 5 exWhole ∧
    (clustersFromMst lamq (fun _ => 1) ⟨2, .eom, none, true, 0, 0⟩ exWhole).map ClusterResult.labels = some [0, 0, 0, 0, -1] ∧
    (clustersFromMst lamq (fun _ => 1) ⟨2, .eom, none, true, 15, 0⟩ exWhole).map ClusterResult.labels = some [0, 0, -1, -1, -1] :=
  ⟨path_spanning (by unfold InRange; decide +kernel) (by decide) fun i hi => by
    have : i < 4 := by omega
    interval_cases i <;> decide +kernel, by decide +kernel, by decide +kernel⟩

end Verif
