import Verif.Props.Kruskal

/-!
# C44: which constraint arguments Kruskal accepts, and what it does with them
-/

namespace Verif
variable {W V : Type*}

/-- Arguments that do not describe constraints on `n` samples: both kinds are given, the matrix is not sparse or not `n` by `n`, or the group
array has not `n` entries or one below -1. -/
def BadConstraints (n : ℕ) (cannotLink : Option (SparseCL V)) (groups : Option (ℕ × (ℕ → ℤ))) : Prop :=
  (cannotLink.isSome = true ∧ groups.isSome = true) ∨ (∃ m, cannotLink = some m ∧ ¬ (m.isSparse = true ∧ m.rows = n ∧ m.cols = n)) ∨
    ∃ len g, groups = some (len, g) ∧ (len ≠ n ∨ ∃ i < n, g i < -1)

/-- The pair is named by the matrix, in either triangle, or the two samples share a group. -/
def Named [AddCommMonoid V] (cannotLink : Option (SparseCL V)) (groups : Option (ℕ × (ℕ → ℤ))) (i j : ℕ) : Prop :=
  (∃ m, cannotLink = some m ∧ m.val i j + m.val j i ≠ 0) ∨ ∃ len g, groups = some (len, g) ∧ 0 ≤ g i ∧ g i = g j

/-- **C44**, the Kruskal routine with validation: constraint arguments are rejected exactly when they do not describe constraints on the samples, and
otherwise enforced: whatever the edges and their order, no named pair is connected, and an edge is left out only if its ends are connected or a named pair stands
across. -/
theorem C44_kruskal_validated [AddCommMonoid V] [DecidableEq V] (n : ℕ) (cannotLink : Option (SparseCL V)) (groups : Option (ℕ × (ℕ → ℤ))) :
    ((∃ e, resolveCL n cannotLink true groups = .error e) ↔ BadConstraints n cannotLink groups) ∧
    ∀ cl, resolveCL n cannotLink true groups = .ok cl → ∀ es : List (Edge W), InRange n es →
      (∀ i j, i < n → j < n → i ≠ j → Named cannotLink groups i j → ¬ Conn (runKruskalCore n cl es).mst i j) ∧
      ∀ e ∈ es, ¬ Conn (runKruskalCore n cl es).mst e.u e.v → ∃ x y, x < n ∧ y < n ∧ Conn (runKruskalCore n cl es).mst e.u x ∧
        Conn (runKruskalCore n cl es).mst e.v y ∧ Named cannotLink groups x y := by
  cases cannotLink with
  | none =>
    cases groups with
    | none =>
      refine ⟨⟨fun h => (by obtain ⟨e, he⟩ := h; cases he), fun h => by simp [BadConstraints] at h⟩, fun cl hcl es hr => ⟨fun i j _ _ _ h => by simp [Named] at h, fun e he hne => ?_⟩⟩
      cases hcl
      exact absurd ((kruskalCore_inv hr).greedy.maximal he hne) (by simp)
    | some lg =>
      obtain ⟨len, g⟩ := lg
      constructor
      · have hb : BadConstraints (V := V) n none (some (len, g)) ↔ len ≠ n ∨ ∃ i < n, g i < -1 := by
          unfold BadConstraints
          constructor
          · rintro (⟨h, _⟩ | ⟨m, h, _⟩ | ⟨l', g', h, h2⟩)
            · simp at h
            · simp at h
            · cases h; exact h2
          · exact fun h => .inr (.inr ⟨len, g, rfl, h⟩)
        rw [hb]
        unfold resolveCL validateGroups
        simp only
        by_cases h1 : len ≠ n
        · simp [h1]
        · by_cases h2 : (List.range n).any (fun i => decide (g i < -1)) = true
          · simp only [h1, if_false, h2, if_true]
            refine ⟨fun _ => .inr ?_, fun _ => ⟨_, rfl⟩⟩
            simpa using h2
          · simp only [h1, if_false, h2]
            refine ⟨fun ⟨e, he⟩ => by simp at he, fun h => ?_⟩
            exfalso
            rcases h with h | h
            · exact h
            · exact h2 (by simpa using h)
      · intro cl hcl es hr
        rw [resolve_groups_ok hcl]
        have hg := (run_groups_inv (g := g) hr).greedy
        refine ⟨fun i j hi hj hne h => ?_, fun e he hne => ?_⟩
        · rcases h with ⟨m, h, _⟩ | ⟨l', g', h, h2, h3⟩
          · simp at h
          · cases h
            exact hg.no_conflict (fun x y h => ⟨h.2.1, h.1, h.2.2.2 ▸ h.2.2.1, h.2.2.2.symm⟩) hne ⟨hi, hj, h2, h3⟩
        · obtain ⟨x, y, h1, h2, h3, h4, h5, h6⟩ := hg.maximal he hne
          exact ⟨x, y, h3, h4, h1, h2, .inr ⟨len, g, rfl, h5, h6⟩⟩
  | some m =>
    cases groups with
    | some lg => exact ⟨⟨fun _ => .inl ⟨rfl, rfl⟩, fun _ => ⟨_, rfl⟩⟩, fun cl hcl => by cases hcl⟩
    | none =>
      constructor
      · have hb : BadConstraints n (some m) none ↔ ¬ (m.isSparse = true ∧ m.rows = n ∧ m.cols = n) := by
          unfold BadConstraints
          constructor
          · rintro (⟨_, h⟩ | ⟨m', h, h2⟩ | ⟨l', g', h, h2⟩)
            · simp at h
            · cases h; exact h2
            · simp at h
          · exact fun h => .inr (.inl ⟨m, rfl, h⟩)
        rw [hb]
        constructor
        · rintro ⟨e, he⟩ ⟨h1, h2, h3⟩
          unfold resolveCL validateCL at he
          simp [h1, h2, h3] at he
        · intro h
          cases hc : resolveCL n (some m) true none with
          | error e => exact ⟨e, rfl⟩
          | ok cl =>
            obtain ⟨h1, h2, h3, _⟩ := resolve_pairwise_ok hc
            exact absurd ⟨h1, h2, h3⟩ h
      · intro cl hcl es hr
        obtain ⟨_, _, _, rfl⟩ := resolve_pairwise_ok hcl
        have hsym : ∀ x y, CLRel n (fun i => (List.range n).filter fun j => m.val i j + m.val j i ≠ 0) x y →
            CLRel n (fun i => (List.range n).filter fun j => m.val i j + m.val j i ≠ 0) y x := by
          rintro x y ⟨hx, hy⟩
          rw [List.mem_filter, List.mem_range] at hy
          refine ⟨hy.1, List.mem_filter.2 ⟨List.mem_range.2 hx, ?_⟩⟩
          rw [add_comm]; exact hy.2
        have hg := (run_pairwise_inv hsym hr).greedy
        refine ⟨fun i j hi hj hne h => ?_, fun e he hne => ?_⟩
        · rcases h with ⟨m', h, h2⟩ | ⟨l', g', h, _⟩
          · cases h
            exact hg.no_conflict hsym hne ⟨hi, List.mem_filter.2 ⟨List.mem_range.2 hj, by simpa using h2⟩⟩
          · simp at h
        · obtain ⟨x, y, h1, h2, h3, h4⟩ := hg.maximal he hne
          rw [List.mem_filter, List.mem_range] at h4
          exact ⟨x, y, h3, h4.1, h1, h2, .inl ⟨m, rfl, by simpa using h4.2⟩⟩

/-- The cases of `C44_kruskal_validated`: both kinds; a group array that is too short; and groups that are enforced. -/
example : BadConstraints 3 (some (⟨3, 3, true, fun _ => [], fun _ _ => 1⟩ : SparseCL ℤ)) (some (3, fun _ => -1)) := .inl ⟨rfl, rfl⟩

example : ∃ e, resolveCL (V := ℤ) 4 none true (some (3, exGroups)) = .error e :=
  (C44_kruskal_validated (W := ℕ) 4 none (some (3, exGroups))).1.2 (.inr (.inr ⟨3, exGroups, rfl, .inl (by decide)⟩))

example : ∃ cl, resolveCL (V := ℤ) 4 none true (some (4, exGroups)) = .ok cl ∧ ¬ Conn (runKruskalCore 4 cl exPath).mst 0 2 := by
  cases h : resolveCL (V := ℤ) 4 none true (some (4, exGroups)) with
  | error e =>
    have : (resolveCL (V := ℤ) 4 none true (some (4, exGroups))).toOption.isSome = true := by decide
    rw [h] at this; simp [Except.toOption] at this
  | ok cl => exact ⟨cl, rfl, ((C44_kruskal_validated 4 none (some (4, exGroups))).2 cl h exPath (by unfold InRange; decide)).1 0 2 (by decide) (by decide) (by decide)
      (.inr ⟨4, exGroups, rfl, by decide, by decide⟩)⟩

end Verif
