import Verif.Props.PersistRaise
import Verif.Props.GroupsCases

/-!
# C113: cases, and the failure for excess of mass
-/

namespace Verif

/-- Nine samples in a row. -/
def exNine : List (Edge (WithTop ℚ)) :=
  [⟨0, 1, (7 : ℚ)⟩, ⟨1, 2, (6 : ℚ)⟩, ⟨2, 3, (3 : ℚ)⟩, ⟨3, 4, (4 : ℚ)⟩, ⟨4, 5, (3 : ℚ)⟩, ⟨5, 6, (10 : ℚ)⟩, ⟨6, 7, (11 : ℚ)⟩, ⟨7, 8, (6 : ℚ)⟩]

theorem exNine_tree : SpanningTree 9 exNine :=
  path_spanning (by unfold InRange; decide +kernel) (by decide) fun i hi => by
    have : i < 8 := by omega
    interval_cases i <;> decide +kernel

/-- **C113** fails for excess of mass: samples 2 to 5 share a cluster without persistence, and are divided into two clusters with persistence 1/12. -/
theorem C113_eom : SpanningTree 9 exNine ∧
    (clustersFromMst lamq (fun _ => 1) (exOpts .eom 0) exNine).map ClusterResult.labels = some [0, 0, 0, 0, 0, 0, 0, 1, 1] ∧
    (clustersFromMst lamq (fun _ => 1) (exOpts .eom (1 / 12)) exNine).map ClusterResult.labels = some [-1, -1, 1, 1, 0, 0, -1, -1, -1] :=
  ⟨exNine_tree, by decide +kernel, by decide +kernel⟩

/-- Three pairs, two of them close. -/
def exThreePairs : List (Edge (WithTop ℚ)) := [⟨0, 1, (3 : ℚ)⟩, ⟨1, 2, (4 : ℚ)⟩, ⟨2, 3, (3 : ℚ)⟩, ⟨3, 4, (20 : ℚ)⟩, ⟨4, 5, (3 : ℚ)⟩]

theorem exThreePairs_tree : SpanningTree 6 exThreePairs :=
  path_spanning (by unfold InRange; decide +kernel) (by decide) fun i hi => by
    have : i < 5 := by omega
    interval_cases i <;> decide +kernel

theorem exThreePairs_labels : (clustersFromMst lamq (fun _ => 1) (exOpts .leaf 0) exThreePairs).map ClusterResult.labels = some [2, 2, 1, 1, 0, 0] ∧
    (clustersFromMst lamq (fun _ => 1) { exOpts .leaf 0 with persistence := 1 / 10 } exThreePairs).map ClusterResult.labels = some [0, 0, 0, 0, 1, 1] :=
  ⟨by decide +kernel, by decide +kernel⟩

/-- The hypotheses of `C113_not_divided_partial` hold: three clusters, then two. -/
example : ∃ r r', clustersFromMst lamq (fun _ => 1) (exOpts .leaf 0) exThreePairs = some r ∧
    clustersFromMst lamq (fun _ => 1) { exOpts .leaf 0 with persistence := 1 / 10 } exThreePairs = some r' ∧ r.labels[2]? = some 1 ∧ r'.labels[2]? = r'.labels[3]? := by
  obtain ⟨r, hr, hl⟩ := Option.map_eq_some_iff.1 exThreePairs_labels.1
  obtain ⟨r', hr', hl'⟩ := Option.map_eq_some_iff.1 exThreePairs_labels.2
  have a : r.labels[2]? = some 1 := by rw [hl]; rfl
  exact ⟨r, r', hr, hr', a, (C113_not_divided_partial 6 (by decide) (fun _ => 1) exThreePairs exThreePairs_tree (exOpts .leaf 0) (by show (1 : ℚ) < 2; decide) (by decide)
    (by intro _ _; show (1 : ℚ) < 2; decide) lamq lamq_antitone lamq_nonneg (by decide +kernel) rfl le_rfl (1 / 10) (by show (0 : ℚ) ≤ 1 / 10; decide +kernel) hr hr').1
    2 3 1 (by decide) a (by rw [hl]; rfl)⟩

/-- The hypotheses of `C113_fit_partial` hold: six rows after one with a missing value. -/
example : ∃ r r', fitModel (fun x : ℕ => decide (x ≠ 0)) (fastHdbscan lamq (fun _ _ => exThreePairs) (fun _ => 1) (exOpts .leaf 0)) [0] (List.range 7) (List.replicate 7 ()) = .ok r ∧
    fitModel (fun x : ℕ => decide (x ≠ 0)) (fastHdbscan lamq (fun _ _ => exThreePairs) (fun _ => 1) { exOpts .leaf 0 with persistence := 1 / 10 }) [0] (List.range 7) (List.replicate 7 ()) = .ok r' ∧
    r.labels[3]? = some 1 ∧ r'.labels[3]? = r'.labels[4]? := by
  have h : (fitModel (fun x : ℕ => decide (x ≠ 0)) (fastHdbscan lamq (fun _ _ => exThreePairs) (fun _ => 1) (exOpts .leaf 0)) [0] (List.range 7) (List.replicate 7 ())).toOption.map FitResult.labels =
      some [-1, 2, 2, 1, 1, 0, 0] := by decide +kernel
  have h' : (fitModel (fun x : ℕ => decide (x ≠ 0)) (fastHdbscan lamq (fun _ _ => exThreePairs) (fun _ => 1) { exOpts .leaf 0 with persistence := 1 / 10 }) [0] (List.range 7)
      (List.replicate 7 ())).toOption.map FitResult.labels = some [-1, 0, 0, 0, 0, 1, 1] := by decide +kernel
  obtain ⟨r, hr, hl⟩ := Option.map_eq_some_iff.1 h
  obtain ⟨r', hr', hl'⟩ := Option.map_eq_some_iff.1 h'
  have ok : ∀ {e : Except FitError (FitResult (WithTop ℚ) ℚ)} {r}, e.toOption = some r → e = .ok r := by
    intro e r he
    cases e with
    | error => simp [Except.toOption] at he
    | ok a => simp only [Except.toOption, Option.some.injEq] at he; rw [he]
  have a : r.labels[3]? = some 1 := by rw [hl]; rfl
  have b : r.labels[4]? = some 1 := by rw [hl]; rfl
  exact ⟨r, r', ok hr, ok hr', a, (C113_fit_partial lamq lamq_antitone lamq_nonneg (fun x : ℕ => decide (x ≠ 0)) (List.range 7) (List.replicate 7 ()) (by decide) (by decide)
    (fun _ => 1) (exOpts .leaf 0) (by show (1 : ℚ) < 2; decide) (by intro _ _; exact ⟨by decide, by show (1 : ℚ) < 2; decide⟩) (fun _ _ => exThreePairs) exThreePairs_tree (by decide +kernel) [0]
    (by decide) rfl le_rfl (1 / 10) (by show (0 : ℚ) ≤ 1 / 10; decide +kernel) r r' (ok hr) (ok hr')).1 3 4 1 (by decide) a b⟩

end Verif
