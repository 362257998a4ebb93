import Verif.Model.Inputs
import Verif.Lemmas.FitRows

/-!
# C100: which sample weights are accepted; C101: which labels are accepted
-/

namespace Verif
variable {α F : Type*}

/-- `v` are the weights given, one for each of `n` rows: a number stands for itself on every row. -/
def WeightsGiven (n : ℕ) (v : List F) : SwInput F → Prop
  | .scalar x => v = List.replicate n x
  | .array shape vals => shape = [n] ∧ v = vals

/-- An array has as many entries as its shape says. -/
def SwInput.Consistent : SwInput F → Prop
  | .scalar _ => True
  | .array shape vals => vals.length = shape.prod

theorem checkSampleWeight_array {isFinite isZero : F → Bool} {shape : List ℕ} {vals w : List F} {n : ℕ} (hl : vals.length = shape.prod) :
    checkSampleWeight isFinite isZero (.array shape vals) n = .ok w ↔
      shape = [n] ∧ w = vals ∧ (∀ x ∈ w, isFinite x = true) ∧ ∃ x ∈ w, isZero x = false := by
  unfold checkSampleWeight checkArray1
  have hall : ∀ p : F → Bool, vals.all p = true ↔ ∀ x ∈ vals, p x = true := fun p => List.all_eq_true
  have hnz : ¬ vals.all isZero = true ↔ ∃ x ∈ vals, isZero x = false := by
    rw [hall]; push Not; simp
  by_cases hf : vals.all isFinite = true
  · have hf' := (hall _).1 hf
    match shape, hl with
    | [], hl => simp [hf]
    | [m], hl =>
      simp only [List.prod_singleton] at hl
      by_cases hm : m = 0
      · subst hm
        have : vals = [] := List.length_eq_zero_iff.1 hl
        subst this
        simp
        rintro _ rfl
        simp
      · obtain ⟨m, rfl⟩ := Nat.exists_eq_succ_of_ne_zero hm
        by_cases hmn : m + 1 = n
        · subst hmn
          simp only [hf, List.length_singleton]
          simp only [Nat.reduceLeDiff, if_false, Bool.not_true, ne_eq, not_true_eq_false, true_and, Bool.false_eq_true]
          by_cases hz : vals.all isZero = true
          · rw [if_pos hz]
            simp only [reduceCtorEq, false_iff]
            rintro ⟨rfl, _, h⟩
            exact hnz.2 h hz
          · rw [if_neg hz, Except.ok.injEq]
            constructor
            · rintro rfl; exact ⟨rfl, hf', hnz.1 hz⟩
            · rintro ⟨rfl, _⟩; rfl
        · simp [hf, hmn]
    | [0, b], hl => simp [hf]
    | [_ + 1, b], hl => simp [hf]
    | a :: b :: c :: l, hl => simp
  · simp only [Bool.not_eq_true] at hf
    by_cases h3 : 3 ≤ shape.length
    · simp only [if_pos h3]
      constructor
      · intro h; cases h
      · rintro ⟨rfl, _⟩; simp at h3
    · simp only [if_neg h3, hf]
      constructor
      · intro h; cases h
      · rintro ⟨_, rfl, h, _⟩
        rw [(hall _).2 h] at hf; cases hf

/-- **C100**, one check: `_check_sample_weight` accepts a number that is not zero (and repeats it), or an array of one finite number per row that are not all zero
(and keeps it). -/
theorem C100_check (isFinite isZero : F → Bool) (sw : SwInput F) (hsw : sw.Consistent) (n : ℕ) (w : List F) :
    checkSampleWeight isFinite isZero sw n = .ok w ↔
      WeightsGiven n w sw ∧ (∃ x ∈ w, isZero x = false) ∧ ((∃ x, sw = .scalar x) ∨ ∀ x ∈ w, isFinite x = true) := by
  cases sw with
  | array shape vals =>
    rw [checkSampleWeight_array hsw]
    simp only [WeightsGiven, reduceCtorEq, exists_false, false_or]
    tauto
  | scalar x =>
    simp only [checkSampleWeight, WeightsGiven]
    by_cases hz : (List.replicate n x).all isZero = true
    · rw [if_pos hz]
      constructor
      · intro h; cases h
      · rintro ⟨rfl, ⟨y, hy, h⟩, _⟩
        rw [List.all_eq_true.1 hz y hy] at h; cases h
    · rw [if_neg hz]
      simp only [Except.ok.injEq]
      constructor
      · rintro rfl
        rw [List.all_eq_true] at hz
        push Not at hz
        obtain ⟨y, hy, h⟩ := hz
        exact ⟨rfl, ⟨y, hy, by simpa using h⟩, .inl ⟨x, rfl⟩⟩
      · rintro ⟨rfl, _⟩; rfl

/-- **C100** (partial).  `fit` accepts sample weights exactly if they are one finite number per row (or a number for all rows), of which one belonging to a row without
missing values is not zero.  The weights used are those of the rows without missing values, in order.
Missing: weights need not be positive (`C100_negative`). -/
theorem C100_fit_partial (isFinite isZero : F → Bool) (finite : α → Bool) (sw : SwInput F) (hsw : sw.Consistent) (X : List α) (w : List F) :
    fitWeights isFinite isZero finite sw X = .ok w ↔
      ∃ v, WeightsGiven X.length v sw ∧ (∀ x ∈ v, isFinite x = true) ∧ w = ((X.zip v).filter fun p => finite p.1).map Prod.snd ∧
        ∃ x ∈ w, isZero x = false := by
  have hlen : ∀ v, WeightsGiven X.length v sw → v.length = X.length := by
    intro v hv
    cases sw with
    | scalar x => rw [show v = _ from hv]; simp
    | array shape vals =>
      obtain ⟨rfl, rfl⟩ := hv
      simpa [SwInput.Consistent] using hsw
  have hrows : ∀ v : List F, v.length = X.length → (if X.all finite = true then v else takeRows v (finiteIndex finite X)) =
      ((X.zip v).filter fun p => finite p.1).map Prod.snd := by
    intro v hv
    by_cases hall : X.all finite = true
    · rw [if_pos hall, List.filter_eq_self.2 fun p hp => List.all_eq_true.1 hall _ (List.of_mem_zip hp).1, List.map_snd_zip hv.le]
    · rw [if_neg hall, takeRows_side _ _ _ hv]
  have hcount : ∀ v : List F, v.length = X.length → (((X.zip v).filter fun p => finite p.1).map Prod.snd).length =
      (if X.all finite = true then X else takeRows X (finiteIndex finite X)).length := by
    intro v hv
    rw [← hrows v hv]
    by_cases hall : X.all finite = true
    · rw [if_pos hall, if_pos hall, hv]
    · rw [if_neg hall, if_neg hall, takeRows_side _ _ _ hv, takeRows_side _ _ _ rfl, List.length_map, List.length_map]
      clear hall hlen hrows hsw
      induction X generalizing v with
      | nil => simp
      | cons x X ih =>
        cases v with
        | nil => simp at hv
        | cons a v =>
          rw [List.zip_cons_cons, List.zip_cons_cons, List.filter_cons, List.filter_cons]
          have := ih v (by simpa using hv)
          dsimp only
          cases finite x
          · exact this
          · simpa using this
  have hmem : ∀ (v : List F), ∀ x ∈ ((X.zip v).filter fun p => finite p.1).map Prod.snd, x ∈ v := by
    intro v x hx
    obtain ⟨p, hp, rfl⟩ := List.mem_map.1 hx
    exact (List.of_mem_zip (List.mem_filter.1 hp).1).2
  unfold fitWeights
  cases h1 : checkSampleWeight isFinite isZero sw X.length with
  | error e =>
    constructor
    · intro h; cases h
    · rintro ⟨v, h2, h3, rfl, x, hx, hz⟩
      have := (C100_check isFinite isZero sw hsw X.length v).2 ⟨h2, ⟨x, hmem v x hx, hz⟩, .inr h3⟩
      rw [h1] at this; cases this
  | ok v =>
    obtain ⟨h2, h3, h4⟩ := (C100_check isFinite isZero sw hsw X.length v).1 h1
    have hv := hlen v h2
    simp only
    rw [hrows v hv, checkSampleWeight_array (by simp), hcount v hv]
    constructor
    · rintro ⟨_, rfl, h5, h6⟩
      refine ⟨v, h2, ?_, rfl, h6⟩
      rcases h4 with ⟨x, rfl⟩ | h4
      · obtain ⟨y, hy, _⟩ := h6
        have hyv := hmem v y hy
        have e : v = _ := h2
        intro z hz
        rw [e] at hyv hz
        rw [(List.mem_replicate.1 hz).2, ← (List.mem_replicate.1 hyv).2]
        exact h5 y hy
      · exact h4
    · rintro ⟨v', h2', h5, rfl, h6⟩
      have : v' = v := by
        cases sw with
        | scalar x => exact Eq.trans h2' (Eq.symm h2)
        | array s vs => exact h2'.2.trans h2.2.symm
      subst this
      exact ⟨rfl, rfl, fun x hx => h5 x (hmem _ x hx), h6⟩

/-! ### Cases -/

/-- Numbers with NaN (`none`). -/
def numFinite (x : Option ℤ) : Bool := x.isSome

/-- Equal to zero. -/
def numZero (x : Option ℤ) : Bool := decide (x = some 0)

/-- Case for C100: three rows, the second with a missing value. -/
example : fitWeights numFinite numZero id (.array [3] [some 0, some 7, some 2]) [true, false, true] = .ok [some 0, some 2] := by decide

/-- Weights on rows with missing values only are refused. -/
example : fitWeights numFinite numZero id (.array [3] [some 0, some 7, some 0]) [true, false, true] = .error .allZero := by decide

/-- **C100**: negative weights are accepted. -/
theorem C100_negative : fitWeights numFinite numZero id (.array [2] [some (-3), some 2]) [true, true] = .ok [some (-3), some 2] := by decide

/-- **C100**: where the weights are checked only once (`PLSCAN.fit_predict`, `fast_hdbscan`), the number NaN is accepted, though `fit` refuses it. -/
theorem C100_scalar_nan : checkSampleWeight numFinite numZero (.scalar none) 2 = .ok [none, none] ∧
    fitWeights numFinite numZero id (.scalar none) [true, true] = .error .notFinite := by decide

/-! ### C101 -/

/-- **C101** (partial).  `fit` with `semi_supervised=True` accepts labels exactly if there is one per row and some label is finite and not -1.  What is passed on are the labels of the
rows without missing values, in order, with -1 for labels that are not finite.
Missing: a label below -1 counts (`C101_below`), and so does the label of a row with missing values (`C101_missing_row`), though neither is used. -/
theorem C101_labels_partial (finite : α → Bool) (y : List (Option ℤ)) (X : List α) (l : List ℤ) :
    fitLabels finite y X = .ok l ↔ y.length = X.length ∧ (∃ z, some z ∈ y ∧ z ≠ -1) ∧
      l = ((X.zip (y.map fun z => z.getD (-1))).filter fun p => finite p.1).map Prod.snd := by
  unfold fitLabels
  by_cases hlen : y.length = X.length
  · rw [if_neg (not_not.2 hlen)]
    have hany : (y.map fun z => z.getD (-1)).any (fun l => decide (l ≠ -1)) = true ↔ ∃ z, some z ∈ y ∧ z ≠ -1 := by
      simp only [List.any_eq_true, List.mem_map, decide_eq_true_eq]
      constructor
      · rintro ⟨z, ⟨o, ho, rfl⟩, hz⟩
        cases o with
        | none => exact absurd rfl hz
        | some z => exact ⟨z, ho, hz⟩
      · rintro ⟨z, hz, hne⟩; exact ⟨z, ⟨_, hz, rfl⟩, hne⟩
    have hv : (y.map fun z => z.getD (-1)).length = X.length := by rw [List.length_map, hlen]
    have hrows : (if X.all finite = true then (y.map fun z => z.getD (-1)) else takeRows (y.map fun z => z.getD (-1)) (finiteIndex finite X)) =
        ((X.zip (y.map fun z => z.getD (-1))).filter fun p => finite p.1).map Prod.snd := by
      by_cases hall : X.all finite = true
      · rw [if_pos hall, List.filter_eq_self.2 fun p hp => List.all_eq_true.1 hall _ (List.of_mem_zip hp).1, List.map_snd_zip hv.le]
      · rw [if_neg hall, takeRows_side _ _ _ hv]
    simp only
    rw [hrows]
    by_cases ha : (y.map fun z => z.getD (-1)).any (fun l => decide (l ≠ -1)) = true
    · rw [ha, if_neg (by simp), Except.ok.injEq]
      exact ⟨fun h => ⟨hlen, hany.1 ha, h.symm⟩, fun h => h.2.2.symm⟩
    · rw [Bool.not_eq_true] at ha
      rw [ha]
      simp only [Bool.not_false, if_true, reduceCtorEq, false_iff]
      rintro ⟨_, h, _⟩
      rw [hany.2 h] at ha; cases ha
  · rw [if_pos hlen]
    simp [hlen]

/-- **C101** for `metric='precomputed'` with `n` nodes: accepted exactly if there are `n` labels, all finite, and one of them is not -1; they are passed on as they are. -/
theorem C101_precomputed_partial (y : List (Option ℤ)) (n : ℕ) (l : List ℤ) :
    precomputedLabels y n = .ok l ↔ y = l.map some ∧ l.length = n ∧ ∃ z ∈ l, z ≠ -1 := by
  unfold precomputedLabels
  have hget : ∀ l : List ℤ, (l.map some).map (fun z : Option ℤ => z.getD (-1)) = l := by
    intro l; rw [List.map_map]; exact List.map_id l
  by_cases hs : y.all Option.isSome = true
  · obtain ⟨m, rfl⟩ : ∃ m : List ℤ, y = m.map some := by
      refine ⟨y.map fun z => z.getD (-1), ?_⟩
      rw [List.map_map]
      conv_lhs => rw [← List.map_id y]
      refine List.map_congr_left fun z hz => ?_
      have := List.all_eq_true.1 hs z hz
      cases z with
      | none => cases this
      | some z => rfl
    rw [hs, if_neg (by simp)]
    simp only
    rw [hget]
    have hinj : m.map some = l.map some ↔ m = l := (List.map_injective_iff.2 (Option.some_injective ℤ)).eq_iff
    rw [hinj]
    by_cases hn : m.length = n
    · rw [if_neg (not_not.2 hn)]
      by_cases ha : m.any (fun l => decide (l ≠ -1)) = true
      · rw [ha, if_neg (by simp), Except.ok.injEq]
        constructor
        · rintro rfl; exact ⟨rfl, hn, by simpa using ha⟩
        · exact fun h => h.1
      · have ha' := ha
        rw [Bool.not_eq_true] at ha
        rw [ha]
        simp only [Bool.not_false, if_true, reduceCtorEq, false_iff]
        rintro ⟨rfl, _, z, hz, hne⟩
        exact ha' (List.any_eq_true.2 ⟨z, hz, by simpa using hne⟩)
    · rw [if_pos hn]
      simp only [reduceCtorEq, false_iff]
      rintro ⟨rfl, h, _⟩; exact hn h
  · rw [Bool.not_eq_true] at hs
    rw [hs]
    simp only [Bool.not_false, if_true, reduceCtorEq, false_iff]
    rintro ⟨rfl, _⟩
    rw [List.all_map] at hs
    simp at hs

/-- Case for C101: NaN becomes -1. -/
example : fitLabels id [some 2, none, some (-1), some 0] [true, true, true, false] = .ok [2, -1, -1] := by decide

/-- **C101**: labels below -1 satisfy the check for "at least one label > -1". -/
theorem C101_below : fitLabels id [some (-2), some (-1)] [true, true] = .ok [-2, -1] ∧ precomputedLabels [some (-2), some (-1)] 2 = .ok [-2, -1] := by decide

/-- **C101**: the only label may belong to a row with missing values, and then no label is passed on. -/
theorem C101_missing_row : fitLabels id [some (-1), some 3, some (-1)] [true, false, true] = .ok [-1, -1] := by decide

end Verif
