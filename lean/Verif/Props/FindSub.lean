import Verif.Spec.FindSub
import Verif.Props.Fit
import Verif.Props.ClusterConnected

/-!
# C76, C77: arguments of sub-cluster detection; finite rows found again
-/

namespace Verif
variable {W D K α β : Type*}

/-! ## C76 -/

theorem argOr_orElse (g f v : PyVal K) : ArgOr g f v ↔ v = g.orElse f := by
  cases g <;> simp [ArgOr, PyVal.orElse]

theorem int_test (v : PyVal K) : (v.isInt = true ∧ v.intAtLeastTwo = true) ↔ ∃ z : ℤ, 2 ≤ z ∧ v = .int z := by
  cases v <;> simp [PyVal.isInt, PyVal.intAtLeastTwo]

section
variable [Zero K] [LinearOrder K]

theorem float_test (v : PyVal K) : (v.isFloat = true ∧ v.floatNonneg = true) ↔ ∃ x : K, 0 ≤ x ∧ v = .float (some x) := by
  cases v with
  | float x => cases x <;> simp [PyVal.isFloat, PyVal.floatNonneg]
  | _ => simp [PyVal.isFloat, PyVal.floatNonneg]

theorem leZero_true (v : PyVal K) : v.leZero = some true ↔ (∃ z : ℤ, z ≤ 0 ∧ v = .int z) ∨ ∃ x : K, x ≤ 0 ∧ v = .float (some x) := by
  cases v with
  | float x => cases x <;> simp [PyVal.leZero]
  | _ => simp [PyVal.leZero]

theorem leZero_none (v : PyVal K) : v.leZero = none ↔ v = .pyNone ∨ v = .other := by
  cases v with
  | float x => cases x <;> simp [PyVal.leZero]
  | _ => simp [PyVal.leZero]

theorem method_test (m : Option String) (f : String) :
    m.getD f ∈ ["eom", "leaf"] ↔ (m = some "eom" ∨ m = some "leaf" ∨ (m = none ∧ (f = "eom" ∨ f = "leaf"))) := by
  cases m <;> simp

omit [Zero K] [LinearOrder K] in
theorem find_first {E : Type*} [DecidableEq E] {P : E → Prop} [DecidablePred P] {l : List E} {e : E} (he : e ∈ l) :
    l.find? (fun e => decide (P e)) = some e ↔ P e ∧ ∀ e' ∈ l.takeWhile (· ≠ e), ¬ P e' := by
  induction l with
  | nil => simp at he
  | cons x l ih =>
    by_cases hx : x = e
    · subst hx
      rw [List.takeWhile_cons_of_neg (by simp)]
      by_cases hp : P x
      · simp [hp]
      · rw [List.find?_cons_of_neg (by simpa using hp)]
        refine ⟨fun h => ?_, fun h => absurd h.1 hp⟩
        have := List.find?_some h
        simp only [decide_eq_true_eq] at this
        exact absurd this hp
    · rw [List.takeWhile_cons_of_pos (by simpa using hx)]
      by_cases hp : P x
      · rw [List.find?_cons_of_pos (by simpa using hp)]
        exact ⟨fun h => absurd (Option.some.inj h) hx, fun h => absurd hp (h.2 x (by simp))⟩
      · rw [List.find?_cons_of_neg (by simpa using hp), ih ((List.mem_cons.1 he).resolve_left (Ne.symm hx))]
        simp [hp]

/-- **C76.**  `find_sub_clusters` raises exactly when a condition on its arguments is violated, and the error is that of the first violated
condition in the order of the checks. -/
theorem C76_first_violation (a : SubArgs K) :
    (∀ e, checkSubArgs a = .error e ↔ SubViolates a e ∧ ∀ e' ∈ subCheckOrder.takeWhile (· ≠ e), ¬ SubViolates a e') ∧
      (checkSubArgs a = .ok () ↔ ∀ e, ¬ SubViolates a e) := by
  classical
  have h1 : SubViolates a .precomputed ↔ a.metric = "precomputed" := Iff.rfl
  have h2 : SubViolates a .noRawData ↔ ¬ a.hasRawData = true := by simp [SubViolates]
  have h3 : SubViolates a .notFitted ↔ ¬ a.isFitted = true := by simp [SubViolates]
  have h4 : SubViolates a .minClusterSize ↔
      ¬ ((a.minClusterSize.orElse a.fitMinClusterSize).isInt ∧ (a.minClusterSize.orElse a.fitMinClusterSize).intAtLeastTwo) := by
    simp only [SubViolates, argOr_orElse, exists_eq_left, int_test]
  have h5 : SubViolates a .maxType ↔ (a.maxClusterSize.orElse a.fitMaxClusterSize).leZero = none := by
    simp only [SubViolates, argOr_orElse, exists_eq_left, leZero_none]
  have h6 : SubViolates a .maxClusterSize ↔ (a.maxClusterSize.orElse a.fitMaxClusterSize).leZero = some true := by
    simp only [SubViolates, argOr_orElse, exists_eq_left, leZero_true]
  have h7 : SubViolates a .persistence ↔ ¬ (a.persistence.isFloat ∧ a.persistence.floatNonneg) := by
    simp only [SubViolates, float_test]
  have h8 : SubViolates a .epsilon ↔ ¬ (a.epsilon.isFloat ∧ a.epsilon.floatNonneg) := by
    simp only [SubViolates, float_test]
  have h9 : SubViolates a .method ↔ a.method.getD a.fitMethod ∉ ["eom", "leaf"] := by
    simp only [SubViolates, method_test]
  have h10 : SubViolates a .onlyNoise ↔ a.onlyNoise = true := Iff.rfl
  have hfind : checkSubArgs a = match subCheckOrder.find? (fun e => decide (SubViolates a e)) with
      | some e => .error e
      | none => .ok () := by
    unfold checkSubArgs subCheckOrder
    by_cases v1 : SubViolates a .precomputed
    · rw [if_pos (h1.1 v1), List.find?_cons_of_pos (by simpa using v1)]
    rw [if_neg (fun h => v1 (h1.2 h)), List.find?_cons_of_neg (by simpa using v1)]
    by_cases v2 : SubViolates a .noRawData
    · rw [if_pos (h2.1 v2), List.find?_cons_of_pos (by simpa using v2)]
    rw [if_neg (fun h => v2 (h2.2 h)), List.find?_cons_of_neg (by simpa using v2)]
    by_cases v3 : SubViolates a .notFitted
    · rw [if_pos (h3.1 v3), List.find?_cons_of_pos (by simpa using v3)]
    rw [if_neg (fun h => v3 (h3.2 h)), List.find?_cons_of_neg (by simpa using v3)]
    by_cases v4 : SubViolates a .minClusterSize
    · rw [if_pos (h4.1 v4), List.find?_cons_of_pos (by simpa using v4)]
    rw [if_neg (fun h => v4 (h4.2 h)), List.find?_cons_of_neg (by simpa using v4)]
    cases hz : (a.maxClusterSize.orElse a.fitMaxClusterSize).leZero with
    | none => rw [List.find?_cons_of_pos (by simpa using h5.2 hz)]
    | some z =>
      have v5 : ¬ SubViolates a .maxType := fun h => by rw [h5.1 h] at hz; cases hz
      rw [List.find?_cons_of_neg (by simpa using v5)]
      cases z with
      | true => rw [List.find?_cons_of_pos (by simpa using h6.2 hz)]
      | false =>
        have v6 : ¬ SubViolates a .maxClusterSize := fun h => by rw [h6.1 h] at hz; cases hz
        rw [List.find?_cons_of_neg (by simpa using v6)]
        dsimp only
        by_cases v7 : SubViolates a .persistence
        · rw [if_pos (h7.1 v7), List.find?_cons_of_pos (by simpa using v7)]
        rw [if_neg (fun h => v7 (h7.2 h)), List.find?_cons_of_neg (by simpa using v7)]
        by_cases v8 : SubViolates a .epsilon
        · rw [if_pos (h8.1 v8), List.find?_cons_of_pos (by simpa using v8)]
        rw [if_neg (fun h => v8 (h8.2 h)), List.find?_cons_of_neg (by simpa using v8)]
        by_cases v9 : SubViolates a .method
        · rw [if_pos (h9.1 v9), List.find?_cons_of_pos (by simpa using v9)]
        rw [if_neg (fun h => v9 (h9.2 h)), List.find?_cons_of_neg (by simpa using v9)]
        by_cases v10 : SubViolates a .onlyNoise
        · rw [if_pos (h10.1 v10), List.find?_cons_of_pos (by simpa using v10)]
        · rw [if_neg (fun h => v10 (h10.2 h)), List.find?_cons_of_neg (by simpa using v10), List.find?_nil]
  have hmem : ∀ e, e ∈ subCheckOrder := fun e => by cases e <;> decide
  rw [hfind]
  refine ⟨fun e => ?_, ?_⟩
  · rw [← find_first (hmem e)]
    cases subCheckOrder.find? fun e => decide (SubViolates a e) <;> simp
  · cases h : subCheckOrder.find? fun e => decide (SubViolates a e) with
    | none =>
      simp only [List.find?_eq_none, decide_eq_true_eq] at h
      exact ⟨fun _ e => h e (hmem e), fun _ => rfl⟩
    | some e =>
      have := List.find?_some h
      simp only [decide_eq_true_eq] at this
      exact ⟨fun h => by simp at h, fun h => absurd this (h e)⟩

end

/-- The arguments of the examples. -/
def exSubArgs : SubArgs ℚ :=
  ⟨"euclidean", true, true, .pyNone, .int 10, .pyNone, .float (some 100), none, "eom", .float (some 0), .float (some 0), false⟩

example : checkSubArgs exSubArgs = .ok () ∧ checkSubArgs { exSubArgs with minClusterSize := .int 1, onlyNoise := true } = .error .minClusterSize ∧
    checkSubArgs { exSubArgs with epsilon := .int 0 } = .error .epsilon := by decide +kernel

/-! ## C77 -/

/-- Numpy's binary search, on a list whose first values are at most the key and whose other values are above it, finds the border; neither
part has to be sorted. -/
theorem bisectRight_border [LinearOrder K] (A B : List K) (key : K) (hA : ∀ x ∈ A, x ≤ key) (hB : ∀ x ∈ B, key < x) :
    ∀ fuel lo hi, lo ≤ A.length → A.length ≤ hi → hi ≤ (A ++ B).length → hi - lo ≤ fuel → bisectRight (A ++ B) key fuel lo hi = A.length := by
  intro fuel
  induction fuel with
  | zero => intro lo hi h1 h2 _ h4; unfold bisectRight; omega
  | succ fuel ih =>
    intro lo hi h1 h2 h3 h4
    unfold bisectRight
    by_cases hlt : lo < hi
    · rw [if_pos hlt]
      dsimp only
      have hm : lo + (hi - lo) / 2 < hi := by omega
      rw [List.getElem?_eq_getElem (by omega)]
      dsimp only
      by_cases hmA : lo + (hi - lo) / 2 < A.length
      · rw [List.getElem_append_left hmA, if_neg (not_lt.2 (hA _ (List.getElem_mem hmA)))]
        exact ih _ _ (by omega) h2 h3 (by omega)
      · rw [List.getElem_append_right (by omega), if_pos (hB _ (List.getElem_mem _))]
        exact ih _ _ h1 (by omega) (by omega) (by omega)
    · rw [if_neg hlt]; omega

section
variable [LE W] [OrderTop W] [Zero K] [One K] [Add K] [LinearOrder K]

/-- **C77** (partial).  If every lambda of the condensed tree of the finite rows is positive, sub-cluster detection finds the finite rows
again from the stored condensed tree: exactly the rows that `fit` used, in the same order; with finite rows only, nothing is left out.
Missing: lambda 0 from infinite distances, for which it fails (`C77_infinite_distance`). -/
theorem C77_recover_partial (finite : α → Bool) (core : List α → List β → Except FitError (FitResult W K)) (X : List α) (side : List β)
    (hside : side.length = X.length) (outliers : List ℕ)
    (hout : outliers.Perm ((List.range X.length).filter fun i => !(X[i]?.map finite).getD false)) (r : FitResult W K)
    (hr : fitModel finite core outliers X side = .ok r)
    (hpos : ∀ r0, core (X.filter finite) (((X.zip side).filter fun p => finite p.1).map Prod.snd) = .ok r0 → ∀ row ∈ r0.condensed, 0 < row.lam) :
    recoverFinite X.length r.condensed =
      if ∀ x ∈ X, finite x = true then none else some ((List.range X.length).filter fun i => (X[i]?.map finite).getD false) := by
  have hborder : ∀ (A B : List (CRow K K)), (∀ row ∈ A, row.lam ≤ 0) → (∀ row ∈ B, 0 < row.lam) → lastOutlier (A ++ B) = A.length := by
    intro A B hA hB
    unfold lastOutlier
    rw [List.map_append]
    have := bisectRight_border (A.map CRow.lam) (B.map CRow.lam) 0 (fun x hx => by
      obtain ⟨row, h, rfl⟩ := List.mem_map.1 hx; exact hA row h) (fun x hx => by
      obtain ⟨row, h, rfl⟩ := List.mem_map.1 hx; exact hB row h) (A ++ B).length 0 (A ++ B).length (by simp) (by simp) (by simp) (by simp)
    rw [this, List.length_map]
  unfold fitModel at hr
  split at hr
  · rename_i hall
    have hall : ∀ x ∈ X, finite x = true := List.all_eq_true.1 hall
    rw [if_pos hall]
    unfold recoverFinite
    have := hborder [] r.condensed (by simp) (hpos r (by
      rw [List.filter_eq_self.2 hall, List.filter_eq_self.2 (fun p hp => hall _ (List.of_mem_zip (show (p.1, p.2) ∈ _ from hp)).1),
        List.map_snd_zip (by omega)]
      exact hr))
    rw [List.nil_append] at this
    rw [this, if_neg (by simp)]
  · rename_i hall
    have hall' : ¬ ∀ x ∈ X, finite x = true := fun h => hall (List.all_eq_true.2 h)
    rw [if_neg hall']
    dsimp only at hr
    split at hr
    · cases hr
    rename_i r0 hr0
    split at hr
    · cases hr
    rename_i condensed hc
    split at hr
    · cases hr
    rename_i linkage _
    cases hr
    dsimp only
    unfold remapCondensed at hc
    dsimp only at hc
    split at hc
    · cases hc
    rename_i row0 rest hmap
    cases hc
    have hB : ∀ row ∈ row0 :: rest, 0 < row.lam := by
      rw [← hmap]
      intro row hrow
      obtain ⟨q, hq, rfl⟩ := List.mem_map.1 hrow
      exact hpos r0 (by rw [← takeRows_finite, ← takeRows_side _ _ _ hside]; exact hr0) q hq
    have hlast := hborder (outliers.map fun o => (⟨row0.parent, o, 0, 1⟩ : CRow K K)) (row0 :: rest) (fun row h => by
      obtain ⟨o, _, rfl⟩ := List.mem_map.1 h; exact le_rfl) hB
    rw [hmap]
    rw [List.length_map] at hlast
    unfold recoverFinite
    have hne : 0 < outliers.length := by
      by_contra h0
      have h0 : outliers = [] := List.eq_nil_of_length_eq_zero (by omega)
      rw [h0] at hout
      refine hall' fun x hx => ?_
      obtain ⟨i, hi, rfl⟩ := List.getElem_of_mem hx
      have : i ∉ (List.range X.length).filter fun i => !(X[i]?.map finite).getD false := by rw [← hout.nil_eq]; simp
      rw [List.mem_filter, List.mem_range, List.getElem?_eq_getElem hi] at this
      simpa using fun h => this ⟨hi, h⟩
    rw [hlast, if_pos hne]
    congr 1
    refine List.filter_congr fun i hi => ?_
    rw [List.map_append, List.map_map, List.take_left' (by simp)]
    have : (outliers.map (CRow.child ∘ fun o => (⟨row0.parent, o, 0, 1⟩ : CRow K K))) = outliers := by
      conv_rhs => rw [← List.map_id outliers]
      rfl
    rw [this]
    have hm : i ∈ outliers ↔ (X[i]?.map finite).getD false = false := by
      rw [hout.mem_iff, List.mem_filter]
      simp [List.mem_range.1 hi]
    cases h : (X[i]?.map finite).getD false with
    | true => simp [hm, h]
    | false => simp [hm, h]

end

section
variable [Field K] [LinearOrder K] [IsStrictOrderedRing K] [LinearOrder W] [OrderTop W] [Inhabited W] [Inhabited K]

/-- **C77** for what `fit` stores, without persistence, if the spanning tree of the finite rows has no infinite edge. -/
theorem C77_recover_fit_partial (lam : W → K) (mst : List α → List β → List (Edge W)) (wt : β → K) (o : ClusterOpts K) (finite : α → Bool)
    (X : List α) (side : List β) (hside : side.length = X.length) (outliers : List ℕ)
    (hout : outliers.Perm ((List.range X.length).filter fun i => !(X[i]?.map finite).getD false))
    (ht : 2 ≤ (X.filter finite).length →
      SpanningTree (X.filter finite).length (mst (X.filter finite) (((X.zip side).filter fun p => finite p.1).map Prod.snd)))
    (h0 : ∀ b ∈ side, 0 ≤ wt b ∧ wt b < o.minClusterSize) (h1 : 1 < o.minClusterSize) (hp : o.persistence ≤ 0)
    (hfin : ∀ e ∈ mst (X.filter finite) (((X.zip side).filter fun p => finite p.1).map Prod.snd), 0 < lam e.w)
    (r : FitResult W K) (hr : fitModel finite (fastHdbscan lam mst wt o) outliers X side = .ok r) :
    recoverFinite X.length r.condensed =
      if ∀ x ∈ X, finite x = true then none else some ((List.range X.length).filter fun i => (X[i]?.map finite).getD false) := by
  refine C77_recover_partial finite _ X side hside outliers hout r hr fun r0 hr0 row hrow => ?_
  have hlen : (((X.zip side).filter fun p => finite p.1).map Prod.snd).length = (X.filter finite).length := by
    rw [← takeRows_side _ _ _ hside, ← takeRows_finite finite X]
    unfold takeRows
    have : ∀ (Z : List α) (Y : List β) (idx : List ℕ), Z.length = Y.length → (idx.filterMap fun i => Y[i]?).length = (idx.filterMap fun i => Z[i]?).length := by
      intro Z Y idx hl
      induction idx with
      | nil => rfl
      | cons i idx ih =>
        by_cases hi : i < Z.length
        · rw [List.filterMap_cons, List.filterMap_cons, List.getElem?_eq_getElem hi, List.getElem?_eq_getElem (by omega)]
          simp [ih]
        · rw [List.filterMap_cons, List.filterMap_cons, List.getElem?_eq_none (by omega), List.getElem?_eq_none (by omega)]
          exact ih
    exact this _ _ _ hside.symm
  generalize hY : X.filter finite = Y at *
  generalize hS : ((X.zip side).filter fun p => finite p.1).map Prod.snd = S' at *
  unfold fastHdbscan fastWith at hr0
  split at hr0
  · cases hr0; simp at hrow
  rename_i h2
  have h2 : 2 ≤ Y.length := by omega
  have ht := ht h2
  split at hr0
  · cases hr0
  rename_i res hres
  cases hr0
  unfold clustersFromMst at hres
  simp only at hres
  obtain ⟨rows, e1, hres⟩ := Option.bind_eq_some_iff.1 hres
  obtain ⟨sel0, _, hres⟩ := Option.bind_eq_some_iff.1 hres
  obtain ⟨sel, _, hres⟩ := Option.bind_eq_some_iff.1 hres
  obtain ⟨labels, _, hres⟩ := Option.bind_eq_some_iff.1 hres
  obtain ⟨str, _, rfl⟩ := Option.map_eq_some_iff.1 hres
  unfold simplifyIf at e1
  rw [if_neg fun h => absurd h.1 (not_lt.2 hp), Option.some.injEq] at e1
  have hw : ∀ x, x < Y.length → 0 ≤ ((S'[x]?.map wt).getD 1) ∧ ((S'[x]?.map wt).getD 1) < o.minClusterSize := by
    intro x hx
    rw [List.getElem?_eq_getElem (by omega), Option.map_some, Option.getD_some]
    have hall : ∀ b ∈ S', b ∈ side := by
      intro b hb
      rw [← hS] at hb
      obtain ⟨q, hq, rfl⟩ := List.mem_map.1 hb
      exact (List.of_mem_zip (show (q.1, q.2) ∈ _ from (List.mem_filter.1 hq).1)).2
    exact h0 _ (hall _ (List.getElem_mem _))
  simp only at hrow
  rw [← e1] at hrow
  obtain ⟨e, he, hl⟩ := condense_lam_edge h2 (ht.perm (lexsortMst_perm _)) (fun x hx => (hw x hx).1) (fun x hx => (hw x hx).2) lam row hrow
  rw [hl]
  exact hfin e ((lexsortMst_perm _).mem_iff.1 he)

end

/-- **C77** (back to all rows).  Rows not in `finite_index` get label -1, strength 0, cluster -1 with strength 0, sub-cluster label 0 with strength 1; the
`k`-th finite row gets the `k`-th result. -/
theorem C77_remap [Zero K] [One K] (n : ℕ) (idx : List ℕ) (hasc : idx.Pairwise (· < ·)) (hlt : ∀ i ∈ idx, i < n) (s : SubOutput K)
    (h1 : s.labels.length = idx.length) (h2 : s.probs.length = idx.length) (h3 : s.clusterLabels.length = idx.length)
    (h4 : s.clusterProbs.length = idx.length) (h5 : s.subLabels.length = idx.length) (h6 : s.subProbs.length = idx.length) :
    let r := remapResults n idx s
    (r.labels.length = n ∧ r.probs.length = n ∧ r.clusterLabels.length = n ∧ r.clusterProbs.length = n ∧ r.subLabels.length = n ∧
      r.subProbs.length = n) ∧
    (∀ i, i < n → i ∉ idx → r.labels[i]? = some (-1) ∧ r.probs[i]? = some 0 ∧ r.clusterLabels[i]? = some (-1) ∧ r.clusterProbs[i]? = some 0 ∧
      r.subLabels[i]? = some 0 ∧ r.subProbs[i]? = some 1) ∧
    ∀ k i : ℕ, idx[k]? = some i → r.labels[i]? = s.labels[k]? ∧ r.probs[i]? = s.probs[k]? ∧ r.clusterLabels[i]? = s.clusterLabels[k]? ∧
      r.clusterProbs[i]? = s.clusterProbs[k]? ∧ r.subLabels[i]? = s.subLabels[k]? ∧ r.subProbs[i]? = s.subProbs[k]? := by
  intro r
  have hnd : idx.Nodup := hasc.imp fun h => h.ne
  refine ⟨⟨spreadValues_length .., spreadValues_length .., spreadValues_length .., spreadValues_length .., spreadValues_length ..,
    spreadValues_length ..⟩, fun i hi hni => ⟨spreadValues_fill hni hi, spreadValues_fill hni hi, spreadValues_fill hni hi, spreadValues_fill hni hi,
    spreadValues_fill hni hi, spreadValues_fill hni hi⟩, fun k i hk => ?_⟩
  exact ⟨spreadValues_get hnd hlt h1 hk, spreadValues_get hnd hlt h2 hk, spreadValues_get hnd hlt h3 hk, spreadValues_get hnd hlt h4 hk,
    spreadValues_get hnd hlt h5 hk, spreadValues_get hnd hlt h6 hk⟩

/-! ## Concrete cases and a counterexample -/

example : (match exFit exFitData [4, 1] with
    | .ok r => decide (recoverFinite 6 r.condensed = some [0, 2, 3, 5])
    | .error _ => false) = true := by decide +kernel

/-- Two pairs of points and one point infinitely far from all others. -/
def exFarMst (_ : List (Option ℚ)) (_ : List ℚ) : List (Edge (WithTop ℚ)) :=
  [⟨1, 2, ((1 : ℚ) : WithTop ℚ)⟩, ⟨3, 4, ((1 : ℚ) : WithTop ℚ)⟩, ⟨2, 3, ((5 : ℚ) : WithTop ℚ)⟩, ⟨0, 1, ⊤⟩]

/-- **C77** fails for an infinite distance between finite rows: all rows are finite, but row 0 is taken for a row with NaN and dropped. -/
theorem C77_infinite_distance :
    (match fitModel Option.isSome (fastHdbscan lamq exFarMst id (exOpts .eom 0)) [] [some 0, some 1, some 2, some 3, some 4] [1, 1, 1, 1, 1] with
    | .ok r => decide (recoverFinite 5 r.condensed = some [1, 2, 3, 4])
    | .error _ => false) = true := by decide +kernel

end Verif
