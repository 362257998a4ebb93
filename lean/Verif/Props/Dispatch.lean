import Verif.Props.Fit
import Mathlib.Tactic.SplitIfs

/-!
# Properties C44 and C45: which calls are accepted, and which routine runs
-/

namespace Verif
variable {K : Type*}

/-! ## Specification: the documented domains -/

/-- A positive integer. -/
def PosInt (v : PyVal K) : Prop := ∃ z : ℤ, 0 < z ∧ v = .int z

/-- A non-negative floating point number. -/
def NonnegFloat [Zero K] [LE K] (v : PyVal K) : Prop := ∃ x : K, 0 ≤ x ∧ v = .float (some x)

/-- The call leaves the documented domain in the respect named by the error. -/
def Violates [Zero K] [LE K] (a : CallArgs K) : ArgError → Prop
  | .weightsPrecomputed => a.hasWeights ∧ a.metric = "precomputed"
  | .emptyData => a.rows = 0 ∧ a.metric ≠ "precomputed"
  | .labelsMissing => a.semiSupervised ∧ ¬ a.hasLabels
  | .ssAlgorithm => a.semiSupervised ∧ a.ssAlgorithm ≠ "bc" ∧ a.ssAlgorithm ≠ "bc_simple"
  | .sizes => ¬ ((a.minSamples = .pyNone ∨ PosInt a.minSamples) ∧ PosInt a.minClusterSize)
  | .epsilon => ¬ NonnegFloat a.epsilon
  | .persistence => ¬ NonnegFloat a.persistence
  | .algorithm => a.algorithm ≠ "boruvka" ∧ a.algorithm ≠ "kruskal"
  | .bothConstraints => a.hasCannotLink ∧ a.hasGroups
  | .constraintAlgorithm => (a.hasCannotLink ∨ a.hasGroups) ∧ a.algorithm ≠ "kruskal"
  | .weightsMetric => a.hasWeights ∧ a.metric ≠ "euclidean" ∧ a.metric ≠ "precomputed"
  | .method => a.method ≠ "eom" ∧ a.method ≠ "leaf"

/-- The order in which violations are reported. -/
def reportOrder : List ArgError :=
  [.weightsPrecomputed, .emptyData, .labelsMissing, .ssAlgorithm, .sizes, .epsilon, .persistence, .algorithm, .bothConstraints,
    .constraintAlgorithm, .weightsMetric, .method]

/-- `e` is the first violation in the order of reporting. -/
def FirstViolation [Zero K] [LE K] (a : CallArgs K) (e : ArgError) : Prop :=
  Violates a e ∧ ∀ e' ∈ reportOrder.takeWhile (· ≠ e), ¬ Violates a e'

/-! ## Lemmas -/

/-- Run tests one after the other; the first that succeeds gives the error. -/
def firstOf : List (ArgError × Bool) → Option ArgError
  | [] => none
  | (e, b) :: l => if b then some e else firstOf l

theorem firstOf_none {l : List (ArgError × Bool)} : firstOf l = none ↔ ∀ p ∈ l, p.2 = false := by
  induction l with
  | nil => simp [firstOf]
  | cons p l ih => obtain ⟨e, b⟩ := p; cases b <;> simp [firstOf, ih]

theorem firstOf_some {l : List (ArgError × Bool)} (hnd : (l.map Prod.fst).Nodup) {e : ArgError} :
    firstOf l = some e ↔ (e, true) ∈ l ∧ ∀ p ∈ l.takeWhile (fun p => p.1 ≠ e), p.2 = false := by
  induction l with
  | nil => simp [firstOf]
  | cons p l ih =>
    obtain ⟨e', b⟩ := p
    obtain ⟨h1, h2⟩ := List.nodup_cons.1 hnd
    by_cases he : e' = e
    · subst he
      have hn : (e', true) ∉ l := fun hm => h1 (List.mem_map.2 ⟨_, hm, rfl⟩)
      cases b with
      | true => simp [firstOf]
      | false =>
        rw [firstOf, if_neg (by simp)]
        constructor
        · intro h; exact absurd ((ih h2).1 h).1 hn
        · rintro ⟨hm, _⟩
          rcases List.mem_cons.1 hm with hm | hm
          · cases hm
          · exact absurd hm hn
    · cases b with
      | true => simp [firstOf, he]
      | false =>
        rw [firstOf, if_neg (by simp), ih h2, List.takeWhile_cons, if_pos (by simpa using he)]
        simp only [List.mem_cons, Prod.mk.injEq, Bool.true_eq_false, and_false, false_or, forall_eq_or_imp, true_and]

variable [Zero K] [LinearOrder K]

theorem firstOf_append (l m : List (ArgError × Bool)) : firstOf (l ++ m) = (firstOf l).or (firstOf m) := by
  induction l with
  | nil => rfl
  | cons p l ih => obtain ⟨e, b⟩ := p; cases b <;> simp [firstOf, ih]

omit [Zero K] [LinearOrder K] in
theorem firstOf_cons (e : ArgError) (c : Prop) [Decidable c] (l : List (ArgError × Bool)) :
    firstOf ((e, decide c) :: l) = if c then some e else firstOf l := by
  by_cases hc : c <;> simp [firstOf, hc]

/-- The tests of `fast_hdbscan` in their order. -/
def argTests (a : CallArgs K) : List (ArgError × Bool) :=
  [(.weightsPrecomputed, decide (a.metric = "precomputed" ∧ a.hasWeights)),
   (.emptyData, decide (a.metric ≠ "precomputed" ∧ a.rows = 0)),
   (.labelsMissing, decide (a.semiSupervised ∧ ¬ a.hasLabels)),
   (.ssAlgorithm, decide (a.semiSupervised ∧ a.ssAlgorithm ∉ ["bc", "bc_simple"])),
   (.sizes, decide (¬ (a.minSamples.isInt ∨ a.minSamples.isNone) ∨ ¬ a.minClusterSize.isInt ∨ (¬ a.minSamples.isNone ∧ a.minSamples.intNonpos)
      ∨ a.minClusterSize.intNonpos)),
   (.epsilon, decide (¬ a.epsilon.isFloat ∨ a.epsilon.floatNeg)),
   (.persistence, decide (¬ a.persistence.isFloat ∨ a.persistence.floatNeg))]

/-- The later tests in their order. -/
def mstTests (a : CallArgs K) : List (ArgError × Bool) :=
  [(.algorithm, decide (a.algorithm ∉ ["boruvka", "kruskal"])),
   (.bothConstraints, decide (a.hasCannotLink ∧ a.hasGroups)),
   (.constraintAlgorithm, decide ((a.hasCannotLink ∨ a.hasGroups) ∧ a.algorithm ≠ "kruskal")),
   (.weightsMetric, decide (a.hasWeights ∧ a.metric ≠ "euclidean" ∧ a.metric ≠ "precomputed"))]

theorem checkArgs_tests (a : CallArgs K) : checkArgs a = match firstOf (argTests a) with
    | some e => .error e
    | none => .ok () := by
  have hif : ∀ (c : Prop) [Decidable c] (e : ArgError) (x : Option ArgError) (y : Except ArgError Unit),
      y = (match x with | some e => .error e | none => .ok ()) →
      (if c then .error e else y) = (match (if c then some e else x) with | some e => .error e | none => .ok ()) := by
    intro c _ e x y hy
    by_cases hc : c
    · rw [if_pos hc, if_pos hc]
    · rw [if_neg hc, if_neg hc]; exact hy
  unfold checkArgs argTests
  simp only [firstOf_cons]
  refine hif _ _ _ _ (hif _ _ _ _ (hif _ _ _ _ (hif _ _ _ _ (hif _ _ _ _ (hif _ _ _ _ (hif _ _ _ _ rfl))))))

omit [Zero K] [LinearOrder K] in
theorem dispatch_tests (a : CallArgs K) (h : ¬ (a.metric = "precomputed" ∧ a.hasWeights)) :
    (∀ e, dispatchMst a = .error e ↔ firstOf (mstTests a) = some e) ∧ ((∃ r, dispatchMst a = .ok r) ↔ firstOf (mstTests a) = none) := by
  unfold dispatchMst mstTests
  simp only [firstOf_cons]
  by_cases h8 : a.algorithm ∉ ["boruvka", "kruskal"]
  · simp only [if_pos h8]; simp
  simp only [if_neg h8]
  by_cases h9 : a.hasCannotLink ∧ a.hasGroups
  · simp only [if_pos h9]; simp
  simp only [if_neg h9]
  by_cases h10 : (a.hasCannotLink ∨ a.hasGroups) ∧ a.algorithm ≠ "kruskal"
  · simp only [if_pos h10]; simp
  simp only [if_neg h10]
  by_cases hm : a.metric = "precomputed"
  · have hw : ¬ a.hasWeights := fun hw => h ⟨hm, hw⟩
    simp only [if_pos hm, if_neg hw]
    rw [if_neg (fun hc : a.hasWeights ∧ a.metric ≠ "euclidean" ∧ a.metric ≠ "precomputed" => hw hc.1)]
    split <;> simp [firstOf]
  · simp only [if_neg hm]
    by_cases h11 : a.hasWeights ∧ a.metric ≠ "euclidean" ∧ a.metric ≠ "precomputed"
    · rw [if_pos (Or.inl (by simp [h11.2.1, h11.2.2])), if_pos h11.1, if_pos h11]; simp
    · rw [if_neg h11]
      split
      · rename_i hc
        rw [if_neg]
        · simp [firstOf]
        · intro hw
          rcases hc with hc | hc
          · refine h11 ⟨hw, fun he => hc (by simp [he]), hm⟩
          · exact hc.2 hw
      · split <;> simp [firstOf]

/-- All tests in their order. -/
def allTests (a : CallArgs K) : List (ArgError × Bool) :=
  argTests a ++ mstTests a ++ [(.method, decide (a.method ∉ ["eom", "leaf"]))]

theorem planCall_tests {a : CallArgs K} (hrows : 2 ≤ a.rows) :
    (∀ e, planCall a = .error e ↔ firstOf (allTests a) = some e) ∧ ((∃ r, planCall a = .ok r) ↔ firstOf (allTests a) = none) := by
  unfold planCall allTests
  rw [checkArgs_tests, firstOf_append, firstOf_append, firstOf_cons]
  cases h1 : firstOf (argTests a) with
  | some e => simp
  | none =>
    have hp : ¬ (a.metric = "precomputed" ∧ a.hasWeights) := by
      have := firstOf_none.1 h1 _ (List.mem_cons_self)
      exact of_decide_eq_false this
    obtain ⟨h2, h3⟩ := dispatch_tests a hp
    simp only [if_neg (show ¬ a.rows < 2 by omega)]
    cases hd : dispatchMst a with
    | error e0 =>
      rw [(h2 e0).1 hd]; simp
    | ok r =>
      rw [h3.1 ⟨r, hd⟩]
      by_cases hm : a.method ∉ ["eom", "leaf"]
      · simp only [if_pos hm]; simp
      · simp only [if_neg hm]; simp [firstOf]

/-- Which tests succeed, in terms of the documented domains; NaN excluded. -/
theorem allTests_violates (a : CallArgs K) (he : a.epsilon ≠ .float none) (hp : a.persistence ≠ .float none) :
    ∀ p ∈ allTests a, p.2 = true ↔ Violates a p.1 := by
  have hint : ∀ v : PyVal K, (v.isInt = true ∧ v.intNonpos = false) ↔ PosInt v := by
    intro v
    unfold PosInt
    cases v <;> simp [PyVal.isInt, PyVal.intNonpos]
  have hfl : ∀ v : PyVal K, v ≠ .float none → ((¬ v.isFloat = true ∨ v.floatNeg = true) ↔ ¬ NonnegFloat v) := by
    intro v hv
    unfold NonnegFloat
    cases v with
    | float x => cases x with
      | none => exact absurd rfl hv
      | some x => simp [PyVal.isFloat, PyVal.floatNeg]
    | _ => simp [PyVal.isFloat]
  have hnone : ∀ v : PyVal K, v.isNone = true ↔ v = .pyNone := by intro v; cases v <;> simp [PyVal.isNone]
  intro p hm
  unfold allTests argTests mstTests at hm
  simp only [List.cons_append, List.nil_append, List.mem_cons, List.not_mem_nil, or_false] at hm
  rcases hm with rfl | rfl | rfl | rfl | rfl | rfl | rfl | rfl | rfl | rfl | rfl | rfl
  all_goals simp only [decide_eq_true_eq, Violates]
  · exact and_comm
  · exact and_comm
  · simp
  · rw [← hint, ← hint, ← hnone]
    cases a.minSamples <;> cases a.minClusterSize <;> simp [PyVal.isInt, PyVal.isNone, PyVal.intNonpos]
    rw [or_iff_not_imp_left, not_le]
  · exact hfl _ he
  · exact hfl _ hp
  · simp
  · simp

/-- **C45** (partial): for data with at least two rows and parameters that are not NaN, a call raises an error exactly when some parameter
is outside its documented domain, and the error is the first violation in the order of `reportOrder`.
Missing: NaN for the two selection thresholds is accepted (`C45_nan_accepted`); with one row most parameters are not checked
(`C45_single_row_unchecked`); `max_cluster_size`, `knn_k` and `metric_kwds` are never checked; combining sample weights with
another metric raises NotImplementedError instead. -/
theorem C45_first_violation_partial (a : CallArgs K) (hrows : 2 ≤ a.rows) (he : a.epsilon ≠ .float none) (hp : a.persistence ≠ .float none) :
    (∀ e, planCall a = .error e ↔ FirstViolation a e) ∧ ((∃ r, planCall a = .ok r) ↔ ∀ e, ¬ Violates a e) := by
  have hv := allTests_violates a he hp
  have hfst : (allTests a).map Prod.fst = reportOrder := rfl
  have hnd : ((allTests a).map Prod.fst).Nodup := by rw [hfst]; decide
  obtain ⟨h1, h2⟩ := planCall_tests hrows (a := a)
  have hex : ∀ e, ∃ b, (e, b) ∈ allTests a := by
    intro e
    have : e ∈ (allTests a).map Prod.fst := by rw [hfst]; cases e <;> decide
    obtain ⟨⟨_, b⟩, hm, rfl⟩ := List.mem_map.1 this
    exact ⟨b, hm⟩
  have hmem : ∀ e, (e, true) ∈ allTests a ↔ Violates a e := by
    intro e
    obtain ⟨b, hb⟩ := hex e
    rw [← hv _ hb]
    constructor
    · intro h
      have := List.inj_on_of_nodup_map hnd hb h rfl
      rw [this]
    · intro h
      have h : b = true := h
      rw [← h]; exact hb
  refine ⟨fun e => ?_, ?_⟩
  · rw [h1, firstOf_some hnd, hmem]
    unfold FirstViolation
    refine and_congr_right fun _ => ?_
    have htw : reportOrder.takeWhile (· ≠ e) = ((allTests a).takeWhile fun p => p.1 ≠ e).map Prod.fst := by
      rw [← hfst, List.takeWhile_map]; rfl
    rw [htw]
    constructor
    · intro h e' he' hve
      obtain ⟨p, hm, rfl⟩ := List.mem_map.1 he'
      have h3 := h p hm
      rw [(hv p ((List.takeWhile_prefix _).subset hm)).2 hve] at h3
      cases h3
    · intro h p hm
      have h3 := h p.1 (List.mem_map_of_mem hm)
      rw [← hv p ((List.takeWhile_prefix _).subset hm)] at h3
      simpa using h3
  · rw [h2, firstOf_none]
    constructor
    · intro h e hve
      have := h _ ((hmem e).2 hve)
      cases this
    · intro h p hm
      have h3 := h p.1
      rw [← hv p hm] at h3
      simpa using h3

/-- A call with usual arguments. -/
def exCall : CallArgs ℚ :=
  { rows := 100, features := 2, metric := "euclidean", algorithm := "kruskal", method := "eom", ssAlgorithm := "bc", semiSupervised := false,
    hasLabels := false, hasWeights := false, hasCannotLink := true, hasGroups := false, minSamples := .int 5, minClusterSize := .int 10,
    epsilon := .float (some 0), persistence := .float (some 0) }

example : planCall exCall = .ok .euclideanKruskal := by decide +kernel
example : ∀ e, ¬ Violates exCall e := ((C45_first_violation_partial exCall (by decide) (by simp [exCall]) (by simp [exCall])).2).1 ⟨.euclideanKruskal, by decide +kernel⟩
/-- Of three violations the first is reported. -/
example : FirstViolation { exCall with epsilon := .float (some (-1)), algorithm := "prim", method := "x" } .epsilon :=
  ((C45_first_violation_partial { exCall with epsilon := .float (some (-1)), algorithm := "prim", method := "x" } (by decide) (by simp) (by simp [exCall])).1 _).1
    (by decide +kernel)

/-- **C45** fails: NaN for `cluster_selection_epsilon` and `cluster_selection_persistence` is outside the documented domain and
accepted. -/
theorem C45_nan_accepted : Violates { exCall with epsilon := .float none, persistence := .float none } .epsilon ∧
    Violates { exCall with epsilon := .float none, persistence := .float none } .persistence ∧
    planCall { exCall with epsilon := .float none, persistence := .float none } = .ok .euclideanKruskal := by
  refine ⟨?_, ?_, by decide +kernel⟩ <;> simp [Violates, NonnegFloat]

/-- **C45** fails for data with one row: an unknown algorithm, an unknown selection method and two kinds of constraints at once are
accepted. -/
theorem C45_single_row_unchecked (a : CallArgs K) (h1 : a.rows = 1) (h2 : firstOf (argTests a) = none) : planCall a = .ok .singleRow := by
  unfold planCall
  rw [checkArgs_tests, h2]
  simp [h1]

example : planCall { exCall with rows := 1, algorithm := "prim", method := "x", hasGroups := true } = .ok .singleRow :=
  C45_single_row_unchecked _ rfl (by decide +kernel)

/-! ## C44 -/

/-- **C44** (partial): an accepted call with constraints, on at least two rows and with metric "precomputed", or metric "euclidean" with at
most 30 features or sample weights, runs a Kruskal routine, and that routine receives the constraints (C03, C29: it then enforces them).
Missing: other metrics and wide data (`C44_knn_graph_drops_constraints`); data with NaN rows and validation switched
off (`C44_nan_rows_misalign`). -/
theorem C44_constraints_enforced_partial (a : CallArgs K) (hrows : 2 ≤ a.rows) (hc : a.hasCannotLink ∨ a.hasGroups)
    (hm : a.metric = "precomputed" ∨ (a.metric = "euclidean" ∧ (a.features ≤ 30 ∨ a.hasWeights))) (r : Route) (hr : planCall a = .ok r) :
    (r = .precomputedKruskal ∨ r = .euclideanKruskal) ∧ r.passesConstraints = true := by
  have key : r = .precomputedKruskal ∨ r = .euclideanKruskal := by
    unfold planCall at hr
    rw [checkArgs_tests] at hr
    cases h1 : firstOf (argTests a) with
    | some e => simp [h1] at hr
    | none =>
      have hp : ¬ (a.metric = "precomputed" ∧ a.hasWeights) := of_decide_eq_false (firstOf_none.1 h1 _ (List.mem_cons_self))
      rw [h1] at hr
      simp only [if_neg (show ¬ a.rows < 2 by omega)] at hr
      have hd : dispatchMst a = .ok r := by
        cases hd : dispatchMst a with
        | error e => rw [hd] at hr; cases hr
        | ok r' =>
          rw [hd] at hr
          simp only at hr
          split at hr
          · cases hr
          · cases hr; rfl
      unfold dispatchMst at hd
      split at hd
      · cases hd
      split at hd
      · cases hd
      split at hd
      · cases hd
      rename_i hk
      have hk' : a.algorithm = "kruskal" := by
        by_contra hne; exact hk ⟨hc, hne⟩
      rw [if_pos hk', if_pos hk'] at hd
      split at hd
      · split at hd
        · cases hd
        · cases hd; exact Or.inl rfl
      · rename_i hnp
        obtain ⟨he, hf⟩ := hm.resolve_left hnp
        rw [if_neg] at hd
        · cases hd; exact Or.inr rfl
        · rintro (h | h)
          · exact h (by simp [he])
          · rcases hf with hf | hf
            · omega
            · exact h.2 hf
  exact ⟨key, by rcases key with rfl | rfl <;> rfl⟩

example : (Route.euclideanKruskal).passesConstraints = true :=
  (C44_constraints_enforced_partial exCall (by decide) (.inl rfl) (.inr ⟨rfl, .inl (by decide)⟩) _ (by decide +kernel)).2

/-- **C44** fails: with any metric but "euclidean" and "precomputed", or with more than 30 features and no weights, every accepted call on
at least two rows runs the neighbour graph routine, which does not receive the constraints. -/
theorem C44_knn_graph_drops_constraints (a : CallArgs K) (hrows : 2 ≤ a.rows)
    (hm : a.metric ≠ "precomputed" ∧ (a.metric ≠ "euclidean" ∨ (30 < a.features ∧ ¬ a.hasWeights)))
    (hv : ∀ e, ¬ Violates a e) : planCall a = .ok .knnGraph ∧ Route.knnGraph.passesConstraints = false := by
  refine ⟨?_, rfl⟩
  have he : a.epsilon ≠ .float none := fun h => by
    have := hv .epsilon
    simp [Violates, NonnegFloat, h] at this
  have hp : a.persistence ≠ .float none := fun h => by
    have := hv .persistence
    simp [Violates, NonnegFloat, h] at this
  obtain ⟨r, hr⟩ := ((C45_first_violation_partial a hrows he hp).2).2 hv
  have hnw : a.metric ≠ "euclidean" → ¬ a.hasWeights := fun h hw => hv .weightsMetric ⟨hw, h, hm.1⟩
  rw [hr]
  unfold planCall at hr
  rw [checkArgs_tests] at hr
  cases h1 : firstOf (argTests a) with
  | some e => simp [h1] at hr
  | none =>
    rw [h1] at hr
    simp only [if_neg (show ¬ a.rows < 2 by omega)] at hr
    have hd : dispatchMst a = .ok r := by
      cases hd : dispatchMst a with
      | error e => rw [hd] at hr; cases hr
      | ok r' =>
        rw [hd] at hr
        simp only at hr
        split at hr
        · cases hr
        · cases hr; rfl
    unfold dispatchMst at hd
    split at hd
    · cases hd
    split at hd
    · cases hd
    split at hd
    · cases hd
    rw [if_neg hm.1, if_pos, if_neg] at hd
    · cases hd; rfl
    · rcases hm.2 with h | h
      · exact hnw h
      · exact h.2
    · rcases hm.2 with h | h
      · exact Or.inl (by simp [h, hm.1])
      · exact Or.inr h

/-- For example a call with a cannot-link matrix and metric "manhattan". -/
example : planCall { exCall with metric := "manhattan" } = .ok .knnGraph := by decide +kernel

/-- Cannot-link matrix over the five original rows with the pair (1, 2). -/
def exNanCL : SparseCL ℤ :=
  { isSparse := true, rows := 5, cols := 5, stored := fun i => if i = 1 then [2] else if i = 2 then [1] else [],
    val := fun i j => if (i = 1 ∧ j = 2) ∨ (i = 2 ∧ j = 1) then 1 else 0 }

/-- `fit` on one-dimensional data with that matrix and `algorithm='kruskal'`. -/
def exNanFit (validate : Bool) (X : List (Option ℚ)) (outliers : List ℕ) : Except FitError (FitResult (WithTop ℚ) ℚ) :=
  fitModel Option.isSome (fun X' side =>
    match resolveCL X'.length (some exNanCL) validate none with
    | .ok cl => fastHdbscan lamq (exFitMst cl) id (exOpts .eom 0) X' side
    | .error _ => .error .inner) outliers X (X.map fun _ => 1)

/-- **C44** fails with NaN rows and `validate_cannot_link=False`: row 0 is NaN, rows 1 and 2 are linked by the matrix as "cannot link", and
get the same label; the matrix is applied to the rows counted without row 0.  With validation an error is raised. -/
theorem C44_nan_rows_misalign :
    (match exNanFit false [none, some 0, some 1, some 100, some 101] [0] with
      | .ok r => decide (r.labels = [-1, 1, 1, 0, 0])
      | .error _ => false) = true ∧
    exNanFit true [none, some 0, some 1, some 100, some 101] [0] = .error .inner := ⟨by decide +kernel, by rfl⟩

end Verif
