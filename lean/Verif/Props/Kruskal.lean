import Verif.Lemmas.KruskalApi
import Mathlib.Algebra.Order.BigOperators.Group.List
import Mathlib.Algebra.Group.Fin.Basic
import Mathlib.Tactic.IntervalCases

/-!
# Properties C01–C07: Kruskal with and without cannot-link constraints
-/

namespace Verif
variable {W : Type*}

/-! ## C01 -/

/-- **C01.** Without constraints the returned edges form a spanning forest of the input graph, edges and
components add up to `n`, and the component labels are equal exactly for connected vertices. -/
theorem C01_kruskal_spanning_forest [LinearOrder W] (n : ℕ) (g : List (Edge W)) (hr : InRange n g) :
    let r := runKruskalCore n CLParams.none (sortEdges g)
    SpanningForest g r.mst ∧ r.mst.length + compCount n g = n ∧
      ∀ i j, (componentLabel n r.pred i = componentLabel n r.pred j ↔ Conn g i j) := by
  intro r
  have hinv := kruskalCore_inv (sortEdges_inRange hr)
  have hsf : SpanningForest g r.mst := hinv.greedy.spanningForest.perm (sortEdges_perm g)
  refine ⟨hsf, ?_, fun i j => ?_⟩
  · have h1 : compCount n g = compCount n r.mst :=
      compCount_congr fun a b _ _ => (hsf.conn a b).symm
    rw [h1]
    exact hsf.acyclic.length_add_compCount (hr.subperm hsf.sub)
  · show componentLabel n (kruskalCore n (sortEdges g)).pred i =
      componentLabel n (kruskalCore n (sortEdges g)).pred j ↔ _
    rw [componentLabel_eq hinv.rep.forest, componentLabel_eq hinv.rep.forest, hinv.rep.conn]
    exact hsf.conn i j

/-- A graph with a tie, a parallel edge, a self loop, a cycle and an isolated vertex. -/
def exGraph : List (Edge ℕ) :=
  [⟨0, 1, 4⟩, ⟨1, 2, 2⟩, ⟨2, 0, 4⟩, ⟨3, 3, 0⟩, ⟨3, 4, 1⟩, ⟨4, 3, 7⟩]

example : InRange 6 exGraph := by decide
example : (runKruskalCore 6 CLParams.none (sortEdges exGraph)).mst =
    [⟨3, 4, 1⟩, ⟨1, 2, 2⟩, ⟨0, 1, 4⟩] := by decide

/-! ## C02 -/

/-- **C02.** At every threshold the returned edges connect exactly what the input graph connects; the result is a
minimum spanning forest, and all minimum spanning forests have the same weights. -/
theorem C02_kruskal_minimum [LinearOrder W] (n : ℕ) (g : List (Edge W)) (hr : InRange n g) :
    let mst := (runKruskalCore n CLParams.none (sortEdges g)).mst
    (∀ t a b, Conn (upTo t mst) a b ↔ Conn (upTo t g) a b) ∧
    (∀ t a b, Conn (below t mst) a b ↔ Conn (below t g) a b) ∧
    MinSpanningForest g mst ∧
    ∀ f, MinSpanningForest g f → (weights mst).Perm (weights f) := by
  intro mst
  have hinv := kruskalCore_inv (sortEdges_inRange hr)
  have hsf : SpanningForest g mst := hinv.greedy.spanningForest.perm (sortEdges_perm g)
  have hth : ∀ e ∈ g, Conn (upTo e.w mst) e.u e.v := fun e he =>
    hinv.greedy.threshold (sortEdges_sorted g) ((sortEdges_perm g).mem_iff.2 he)
  have hmin : MinSpanningForest g mst := minSpanningForest_of_threshold hsf hth
  refine ⟨fun t a b => ⟨?_, ?_⟩, fun t a b => ⟨?_, ?_⟩, hmin, fun f hf => hmin.weights_perm hf⟩
  · refine Conn.mono fun e he => ?_
    rw [mem_upTo] at he ⊢
    exact ⟨hsf.sub.subset he.1, he.2⟩
  · refine Conn.of_forall fun e he => ?_
    rw [mem_upTo] at he
    refine (hth e he.1).mono fun x hx => ?_
    rw [mem_upTo] at hx ⊢
    exact ⟨hx.1, hx.2.trans he.2⟩
  · refine Conn.mono fun e he => ?_
    rw [mem_below] at he ⊢
    exact ⟨hsf.sub.subset he.1, he.2⟩
  · refine Conn.of_forall fun e he => ?_
    rw [mem_below] at he
    refine (hth e he.1).mono fun x hx => ?_
    rw [mem_upTo] at hx
    rw [mem_below]
    exact ⟨hx.1, hx.2.trans_lt he.2⟩

/-- **C02**, total weight: no spanning forest has a smaller sum of weights. -/
theorem C02_kruskal_total_weight [AddCommMonoid W] [LinearOrder W] [IsOrderedAddMonoid W]
    (n : ℕ) (g : List (Edge W)) (hr : InRange n g) (f : List (Edge W)) (hf : SpanningForest g f) :
    (weights (runKruskalCore n CLParams.none (sortEdges g)).mst).sum ≤ (weights f).sum := by
  have h := (C02_kruskal_minimum n g hr).2.2.1.minimal f hf
  have h1 := List.Forall₂.sum_le_sum h
  rwa [(List.perm_insertionSort _ _).sum_eq, (List.perm_insertionSort _ _).sum_eq] at h1

example : (weights (runKruskalCore 6 CLParams.none (sortEdges exGraph)).mst).sum = 7 := by decide

/-! ## C03 -/

/-- **C03**, pairwise constraints: whatever the order of the edges, the result never connects a constrained
pair. -/
theorem C03_pairwise_never_connected (n : ℕ) (rows : ℕ → List ℕ) (es : List (Edge W))
    (hr : InRange n es)
    (hsym : ∀ i j, i < n → j ∈ rows i → j < n ∧ i ∈ rows j)
    (i j : ℕ) (hi : i < n) (hij : j ∈ rows i) (hne : i ≠ j) :
    ¬ Conn (runKruskalCore n ⟨some rows, none, 0⟩ es).mst i j :=
  (run_pairwise_inv (fun x y h => hsym x y h.1 h.2) hr).greedy.no_conflict
    (fun x y h => hsym x y h.1 h.2) hne ⟨hi, hij⟩

/-- **C03**, group constraints, for every group array accepted by validation. -/
theorem C03_groups_never_connected (n len : ℕ) (g : ℕ → ℤ) (cl : CLParams) (v : Bool)
    (hcl : resolveCL (V := ℤ) n none v (some (len, g)) = .ok cl)
    (es : List (Edge W)) (hr : InRange n es)
    (i j : ℕ) (hi : i < n) (hj : j < n) (hg : 0 ≤ g i) (hij : g i = g j) (hne : i ≠ j) :
    ¬ Conn (runKruskalCore n cl es).mst i j := by
  rw [resolve_groups_ok hcl]
  exact (run_groups_inv hr).greedy.no_conflict
    (fun x y h => ⟨h.2.1, h.1, h.2.2.2 ▸ h.2.2.1, h.2.2.2.symm⟩) hne ⟨hi, hj, hg, hij⟩

/-- A path 0-1-2-3 with the constraint pair (0, 2): the edge 1-2 is refused, 2-3 is kept. -/
def exRows : ℕ → List ℕ := fun i => if i = 0 then [2] else if i = 2 then [0] else []

def exPath : List (Edge ℕ) := [⟨0, 1, 1⟩, ⟨1, 2, 2⟩, ⟨2, 3, 3⟩]

example : InRange 4 exPath ∧ ∀ i < 4, ∀ j ∈ exRows i, j < 4 ∧ i ∈ exRows j := by decide
example : (runKruskalCore 4 ⟨some exRows, none, 0⟩ exPath).mst = [⟨0, 1, 1⟩, ⟨2, 3, 3⟩] := by decide

/-- Groups `(70, -1, 70, 3)`: more than one 64-bit word. -/
def exGroups : ℕ → ℤ := fun i => if i = 0 then 70 else if i = 2 then 70 else if i = 3 then 3 else -1

example : (resolveCL (V := ℤ) 4 none true (some (4, exGroups))).toOption.map (fun cl =>
    (runKruskalCore 4 cl exPath).mst) = some [⟨0, 1, 1⟩, ⟨2, 3, 3⟩] := by decide

/-- The symmetry hypothesis is needed: with `validate_cannot_link=False` an entry stored in one triangle only is
not enforced. -/
theorem C03_asymmetric_not_enforced :
    let rows : ℕ → List ℕ := fun i => if i = 0 then [1] else []
    1 ∈ rows 0 ∧ Conn (runKruskalCore 2 ⟨some rows, none, 0⟩ [⟨0, 1, (1 : ℕ)⟩]).mst 0 1 := by
  refine ⟨by decide, ?_⟩
  have : (runKruskalCore 2 ⟨some fun i => if i = 0 then [1] else [], none, 0⟩
    [⟨0, 1, (1 : ℕ)⟩]).mst = [⟨0, 1, 1⟩] := by decide
  rw [this]
  exact Conn.edge (e := ⟨0, 1, 1⟩) (by simp)

/-! ## C04 -/

/-- **C04**, pairwise constraints: the run is the greedy one and an input edge between two components of
the result is blocked by a constrained pair across them. -/
theorem C04_pairwise_greedy (n : ℕ) (rows : ℕ → List ℕ) (es : List (Edge W)) (hr : InRange n es)
    (hsym : ∀ i j, i < n → j ∈ rows i → j < n ∧ i ∈ rows j) :
    let mst := (runKruskalCore n ⟨some rows, none, 0⟩ es).mst
    Greedy (fun i j => i < n ∧ j ∈ rows i) es mst ∧
    ∀ e ∈ es, ¬ Conn mst e.u e.v →
      ∃ x y, Conn mst e.u x ∧ Conn mst e.v y ∧ x < n ∧ y ∈ rows x := by
  intro mst
  have h := (run_pairwise_inv (fun x y h => hsym x y h.1 h.2) hr).greedy
  exact ⟨h, fun e he hne => h.maximal he hne⟩

/-- **C04**, group constraints. -/
theorem C04_groups_greedy (n len : ℕ) (g : ℕ → ℤ) (cl : CLParams) (v : Bool)
    (hcl : resolveCL (V := ℤ) n none v (some (len, g)) = .ok cl)
    (es : List (Edge W)) (hr : InRange n es) :
    let mst := (runKruskalCore n cl es).mst
    Greedy (fun i j => i < n ∧ j < n ∧ 0 ≤ g i ∧ g i = g j) es mst ∧
    ∀ e ∈ es, ¬ Conn mst e.u e.v →
      ∃ x y, Conn mst e.u x ∧ Conn mst e.v y ∧ x < n ∧ y < n ∧ 0 ≤ g x ∧ g x = g y := by
  rw [resolve_groups_ok hcl]
  intro mst
  have h := (run_groups_inv (g := g) hr).greedy
  exact ⟨h, fun e he hne => h.maximal he hne⟩

/-! ## C05 -/

/-- **C05.** Group constraints give the same edges as any pairwise constraint matrix whose off-diagonal entries
are exactly the pairs sharing a non-negative group. -/
theorem C05_groups_eq_pairwise (n len : ℕ) (g : ℕ → ℤ) (cl : CLParams) (v : Bool)
    (hcl : resolveCL (V := ℤ) n none v (some (len, g)) = .ok cl)
    (rows : ℕ → List ℕ)
    (hrows : ∀ i j, i < n → i ≠ j → (j ∈ rows i ↔ j < n ∧ 0 ≤ g i ∧ g i = g j))
    (es : List (Edge W)) (hr : InRange n es) :
    (runKruskalCore n cl es).mst = (runKruskalCore n ⟨some rows, none, 0⟩ es).mst := by
  rw [resolve_groups_ok hcl]
  have h1 := (run_groups_inv (g := g) hr).greedy
  have hsym : ∀ x y, CLRel n rows x y → CLRel n rows y x := by
    rintro x y ⟨hx, hy⟩
    by_cases hxy : x = y
    · subst hxy; exact ⟨hx, hy⟩
    · obtain ⟨a, b, c⟩ := (hrows x y hx hxy).1 hy
      exact ⟨a, (hrows y x a (Ne.symm hxy)).2 ⟨hx, c ▸ b, c.symm⟩⟩
  have h2 := (run_pairwise_inv hsym hr).greedy
  refine h1.deterministic (h2.congr fun x y hxy => ?_)
  unfold CLRel GroupRel
  constructor
  · rintro ⟨hx, hy⟩
    obtain ⟨a, b, c⟩ := (hrows x y hx hxy).1 hy
    exact ⟨hx, a, b, c⟩
  · rintro ⟨hx, a, b, c⟩
    exact ⟨hx, (hrows x y hx hxy).2 ⟨a, b, c⟩⟩

example : ∀ i < 4, ∀ j < 4, i ≠ j → (j ∈ exRows i ↔ j < 4 ∧ 0 ≤ exGroups i ∧ exGroups i = exGroups j) := by
  intro i hi j hj
  interval_cases i <;> interval_cases j <;> decide

/-! ## C06 -/

/-- **C06**, pairwise: a matrix with diagonal entries only (in particular an empty one) changes nothing. -/
theorem C06_diagonal_constraints (n : ℕ) (rows : ℕ → List ℕ)
    (hd : ∀ i j, i < n → j ∈ rows i → j = i) (es : List (Edge W)) (hr : InRange n es) :
    (runKruskalCore n ⟨some rows, none, 0⟩ es).mst = (runKruskalCore n CLParams.none es).mst := by
  have h1 := (run_pairwise_inv (n := n) (rows := rows) (fun x y h => by
    have := hd x y h.1 h.2; subst this; exact h) hr).greedy
  have h2 := (kruskalCore_inv hr).greedy
  refine h1.deterministic (h2.congr fun x y hxy => ?_)
  simp only [false_iff]
  rintro ⟨hx, hy⟩
  exact hxy (hd x y hx hy).symm

/-- **C06**, groups: all samples unconstrained. -/
theorem C06_no_groups (n : ℕ) (g : ℕ → ℤ) (hg : ∀ i < n, g i = -1) (v : Bool)
    (es : List (Edge W)) :
    ∃ cl, resolveCL (V := ℤ) n none v (some (n, g)) = .ok cl ∧
      (runKruskalCore n cl es).mst = (runKruskalCore n CLParams.none es).mst := by
  refine ⟨⟨none, some g, 0⟩, ?_, rfl⟩
  have h1 : ¬ (List.range n).any (fun i => decide (g i < -1)) = true := by
    simp only [List.any_eq_true, List.mem_range, decide_eq_true_eq, not_exists, not_and, not_lt]
    intro i hi; rw [hg i hi]
  have h2 : (List.range n).foldl (fun m i => max m (g i + 1).toNat) 0 = 0 := by
    apply foldl_max_zero (fun i => (g i + 1).toNat)
    intro i hi
    simp [hg i (List.mem_range.1 hi)]
  unfold resolveCL validateGroups
  simp only [ne_eq, not_true_eq_false, if_false, if_neg h1, h2]

example : (runKruskalCore 6 ⟨some fun i => [i], none, 0⟩ (sortEdges exGraph)).mst =
    [⟨3, 4, 1⟩, ⟨1, 2, 2⟩, ⟨0, 1, 4⟩] := by decide

/-! ## C07 -/

/-- **C07**, proved part: if no two entries cancel (for instance Boolean or non-negative entries), every non-zero
entry in either triangle is enforced.  Missing: entries whose sum with the transposed entry is zero, see
`C07_cancelling_entries_not_enforced`. -/
theorem C07_every_entry_enforced_partial {V : Type*} [AddCommMonoid V] [DecidableEq V]
    (n : ℕ) (m : SparseCL V) (cl : CLParams) (hcl : resolveCL n (some m) true none = .ok cl)
    (i j : ℕ) (hi : i < n) (hj : j < n) (hne : i ≠ j)
    (hnc : m.val i j + m.val j i = 0 → m.val i j = 0) (hij : m.val i j ≠ 0)
    (es : List (Edge W)) (hr : InRange n es) :
    ¬ Conn (runKruskalCore n cl es).mst i j := by
  obtain ⟨_, _, _, rfl⟩ := resolve_pairwise_ok hcl
  refine C03_pairwise_never_connected n _ es hr ?_ i j hi ?_ hne
  · intro x y hx hy
    simp only [List.mem_filter, List.mem_range, decide_eq_true_eq] at hy ⊢
    exact ⟨hy.1, hx, by rw [add_comm]; exact hy.2⟩
  · simp only [List.mem_filter, List.mem_range, decide_eq_true_eq]
    exact ⟨hj, fun h => hij (hnc h)⟩

/-- A matrix with a `1` above the diagonal only. -/
def exUpper : SparseCL ℤ := ⟨4, 4, true, fun i => if i = 0 then [2] else [], fun i j => if i = 0 ∧ j = 2 then 1 else 0⟩

example : (resolveCL 4 (some exUpper) true none).toOption.map (fun cl =>
    (runKruskalCore 4 cl exPath).mst) = some [⟨0, 1, 1⟩, ⟨2, 3, 3⟩] := by decide

/-- **C07 is false**: with entries `1` and `-1` at `(0, 1)` and `(1, 0)` the symmetrised matrix is empty and the
pair is joined. -/
theorem C07_cancelling_entries_not_enforced :
    ∃ (m : SparseCL ℤ) (cl : CLParams), resolveCL 2 (some m) true none = .ok cl ∧ m.val 0 1 ≠ 0 ∧
      m.val 1 0 ≠ 0 ∧ Conn (runKruskalCore 2 cl [⟨0, 1, (1 : ℕ)⟩]).mst 0 1 := by
  refine ⟨⟨2, 2, true, fun i => if i = 0 then [1] else [0],
    fun i j => if i = 0 ∧ j = 1 then 1 else if i = 1 ∧ j = 0 then -1 else 0⟩, _, rfl, by decide, by decide, ?_⟩
  rw [show (runKruskalCore 2 _ [⟨0, 1, (1 : ℕ)⟩]).mst = [⟨0, 1, 1⟩] from rfl]
  exact Conn.edge (e := ⟨0, 1, 1⟩) (by simp)

/-- **C07 is false**, the same through overflow: an 8-bit unsigned matrix with the symmetric entries `128`. -/
theorem C07_overflowing_entries_not_enforced :
    ∃ (m : SparseCL (Fin 256)) (cl : CLParams), resolveCL 2 (some m) true none = .ok cl ∧
      m.val 0 1 ≠ 0 ∧ m.val 0 1 = m.val 1 0 ∧
      Conn (runKruskalCore 2 cl [⟨0, 1, (1 : ℕ)⟩]).mst 0 1 := by
  refine ⟨⟨2, 2, true, fun i => if i = 0 then [1] else [0],
    fun i j => if i = j then 0 else 128⟩, _, rfl, by decide, by decide, ?_⟩
  rw [show (runKruskalCore 2 _ [⟨0, 1, (1 : ℕ)⟩]).mst = [⟨0, 1, 1⟩] from rfl]
  exact Conn.edge (e := ⟨0, 1, 1⟩) (by simp)

end Verif
