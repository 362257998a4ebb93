import Verif.Props.Barcode
import Mathlib.Algebra.BigOperators.Intervals
import Mathlib.Algebra.Order.BigOperators.Group.Finset
import Mathlib.Algebra.Order.Field.Basic

/-!
# C68: total persistence
-/

namespace Verif
variable {K : Type*} [Field K] [LinearOrder K]

theorem uniqueBirths_sorted (m : ℕ) (births : ℕ → K) : (uniqueBirths m births).Pairwise (· < ·) := by
  have h1 : (uniqueBirths m births).Pairwise (· ≤ ·) := List.pairwise_insertionSort (· ≤ ·) _
  have h2 : (uniqueBirths m births).Nodup := (List.perm_insertionSort (· ≤ ·) _).nodup_iff.2 (List.nodup_dedup _)
  exact (h1.and h2).imp fun h => lt_of_le_of_ne h.1 h.2

theorem mem_uniqueBirths {m : ℕ} {births : ℕ → K} {x : K} : x ∈ uniqueBirths m births ↔ ∃ i, i < m ∧ births i = x := by
  unfold uniqueBirths
  rw [(List.perm_insertionSort (· ≤ ·) _).mem_iff, List.mem_dedup, List.mem_map]
  simp

/-- In a sorted list the entries of at least `x` are those from the first one on. -/
theorem findIdx_le_iff {sizes : List K} (hs : sizes.Pairwise (· < ·)) {x y : K} {j : ℕ} (hj : sizes[j]? = some y) :
    sizes.findIdx (fun y => decide (x ≤ y)) ≤ j ↔ x ≤ y := by
  obtain ⟨hlt, hy⟩ := List.getElem?_eq_some_iff.1 hj
  subst hy
  constructor
  · intro h
    have hlt' : sizes.findIdx (fun y => decide (x ≤ y)) < sizes.length := by omega
    have h1 := of_decide_eq_true (List.findIdx_getElem (w := hlt'))
    rcases h.eq_or_lt with h2 | h2
    · simpa only [h2] using h1
    · exact h1.trans (List.pairwise_iff_getElem.1 hs _ _ hlt' hlt h2).le
  · intro h
    by_contra hcon
    have := List.not_of_lt_findIdx (p := fun y => decide (x ≤ y)) (xs := sizes) (i := j) (by omega)
    simp [h] at this

theorem foldl_addRange (v : K) : ∀ (len lo : ℕ) (t : ℕ → K) (j : ℕ),
    (List.range' lo len).foldl (fun t k => Function.update t k (t k + v)) t j = t j + if lo ≤ j ∧ j < lo + len then v else 0
  | 0, lo, t, j => by simp
  | len + 1, lo, t, j => by
    rw [List.range'_succ, List.foldl_cons, foldl_addRange v len (lo + 1)]
    by_cases h : j = lo
    · subst h
      rw [Function.update_self, if_neg (by omega), if_pos (by omega), add_zero]
    · rw [Function.update_of_ne h]
      by_cases h2 : lo ≤ j ∧ j < lo + (len + 1)
      · rw [if_pos (by omega), if_pos h2]
      · rw [if_neg (by omega), if_neg h2]

theorem persistenceStep_eq {m : ℕ} {births deaths lamDeaths total : ℕ → K} {i j : ℕ} {s : K} (hi : i < m)
    (hj : (uniqueBirths m births)[j]? = some s) :
    persistenceStep (uniqueBirths m births) births deaths lamDeaths total i j =
      total j + if births i ≤ s ∧ s < deaths i then deaths i - births i * lamDeaths i else 0 := by
  have hs := uniqueBirths_sorted m births
  have hjl := (List.getElem?_eq_some_iff.1 hj).1
  unfold persistenceStep
  by_cases h1 : deaths i ≤ births i
  · rw [if_pos h1, if_neg (fun h => absurd (h.1.trans_lt h.2) (not_lt.2 h1)), add_zero]
  · rw [if_neg h1, foldl_addRange]
    congr 1
    have hmem : (uniqueBirths m births).findIdx (fun y => decide (births i ≤ y)) < (uniqueBirths m births).length :=
      List.findIdx_lt_length_of_exists ⟨births i, mem_uniqueBirths.2 ⟨i, hi, rfl⟩, by simp⟩
    have e1 : firstAtLeast (uniqueBirths m births) (births i) 0 ≤ j ↔ births i ≤ s := by
      rw [firstAtLeast, if_pos hmem]; exact findIdx_le_iff hs hj
    have e2 : j < firstAtLeast (uniqueBirths m births) (deaths i) (uniqueBirths m births).length ↔ s < deaths i := by
      rw [← not_le, ← not_le, not_iff_not]
      unfold firstAtLeast
      by_cases h2 : (uniqueBirths m births).findIdx (fun y => decide (deaths i ≤ y)) < (uniqueBirths m births).length
      · rw [if_pos h2]; exact findIdx_le_iff hs hj
      · rw [if_neg h2, ← findIdx_le_iff hs hj]; omega
    by_cases h2 : births i ≤ s ∧ s < deaths i
    · have g1 := e1.2 h2.1
      have g2 := e2.2 h2.2
      rw [if_pos h2, if_pos (by omega)]
    · rw [if_neg h2, if_neg (fun h => h2 ⟨e1.1 h.1, e2.1 (by omega)⟩)]

/-- **C68.**  The sizes are the births, ascending and without repetition; the persistence at a size is the sum, over the clusters other than the top
one that are active there, of the death size minus the birth size times the lambda term. -/
theorem C68_total_persistence (m : ℕ) (births deaths lamDeaths : ℕ → K) :
    (uniqueBirths m births).Pairwise (· < ·) ∧ (∀ x, x ∈ uniqueBirths m births ↔ ∃ i, i < m ∧ births i = x) ∧
    ∀ j s, (uniqueBirths m births)[j]? = some s → totalPersistence m births deaths lamDeaths j =
      ((Finset.Ico 1 m).filter fun i => births i ≤ s ∧ s < deaths i).sum fun i => deaths i - births i * lamDeaths i := by
  refine ⟨uniqueBirths_sorted m births, fun x => mem_uniqueBirths, fun j s hj => ?_⟩
  unfold totalPersistence
  have key : ∀ (len lo : ℕ) (t : ℕ → K), lo + len ≤ m →
      (List.range' lo len).foldl (persistenceStep (uniqueBirths m births) births deaths lamDeaths) t j =
        t j + (Finset.Ico lo (lo + len)).sum fun i => if births i ≤ s ∧ s < deaths i then deaths i - births i * lamDeaths i else 0 := by
    intro len
    induction len with
    | zero => intro lo t _; simp
    | succ len ih =>
      intro lo t hle
      rw [List.range'_succ, List.foldl_cons, ih (lo + 1) _ (by omega), persistenceStep_eq (by omega) hj,
        Finset.sum_eq_sum_Ico_succ_bot (by omega : lo < lo + (len + 1)), add_assoc, show lo + 1 + len = lo + (len + 1) by omega]
  rcases Nat.eq_zero_or_pos m with rfl | hm
  · simp
  · rw [key (m - 1) 1 _ (by omega), zero_add, show 1 + (m - 1) = m by omega, Finset.sum_filter]

/-- **C68.**  With lambda terms in `[0, 1]` and births that are not negative, persistence is never negative, and it is positive exactly where a cluster
other than the top one is active. -/
theorem C68_positive [IsStrictOrderedRing K] (m : ℕ) (births deaths lamDeaths : ℕ → K) (h0 : ∀ i, i < m → 0 ≤ births i)
    (h1 : ∀ i, i < m → lamDeaths i ≤ 1) (j : ℕ) (s : K) (hj : (uniqueBirths m births)[j]? = some s) :
    0 ≤ totalPersistence m births deaths lamDeaths j ∧
    (0 < totalPersistence m births deaths lamDeaths j ↔ ∃ i, 1 ≤ i ∧ i < m ∧ births i ≤ s ∧ s < deaths i) := by
  rw [(C68_total_persistence m births deaths lamDeaths).2.2 j s hj]
  have hpos : ∀ i ∈ (Finset.Ico 1 m).filter (fun i => births i ≤ s ∧ s < deaths i), 0 < deaths i - births i * lamDeaths i := by
    intro i hi
    obtain ⟨hi, h2, h3⟩ := Finset.mem_filter.1 hi
    have hm := (Finset.mem_Ico.1 hi).2
    have := mul_le_mul_of_nonneg_left (h1 i hm) (h0 i hm)
    rw [mul_one] at this
    exact sub_pos.2 (this.trans_lt (h2.trans_lt h3))
  refine ⟨Finset.sum_nonneg fun i hi => (hpos i hi).le, ?_⟩
  constructor
  · intro h
    obtain ⟨i, hi, _⟩ := Finset.exists_ne_zero_of_sum_ne_zero h.ne'
    obtain ⟨hi, h2⟩ := Finset.mem_filter.1 hi
    exact ⟨i, (Finset.mem_Ico.1 hi).1, (Finset.mem_Ico.1 hi).2, h2⟩
  · rintro ⟨i, g1, g2, g3⟩
    exact Finset.sum_pos hpos ⟨i, Finset.mem_filter.2 ⟨Finset.mem_Ico.2 ⟨g1, g2⟩, g3⟩⟩

/-- The twelve samples: the persistence is highest at size 3. -/
example :
    let b := sizeBarcode exExpInv 12 (2 : ℚ) (clusterRows 12 (searchTree invLam exTwelveLinkage 2))
    uniqueBirths 7 b.births = [2, 3, 6] ∧ (List.range 3).map (totalPersistence 7 b.births b.deaths b.lamDeaths) = [29 / 3, 54 / 5, 0] := by
  decide +kernel

/-- Its births and lambda terms are as `C68_positive` asks. -/
example :
    let b := sizeBarcode exExpInv 12 (2 : ℚ) (clusterRows 12 (searchTree invLam exTwelveLinkage 2))
    ∀ i, i < 7 → 0 ≤ b.births i ∧ b.lamDeaths i ≤ 1 := by decide +kernel

end Verif
