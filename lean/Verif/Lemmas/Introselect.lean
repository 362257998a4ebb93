import Verif.Lemmas.Heap
import Verif.Model.KdTree

/-! # Selection in place -/

namespace Verif
variable {R α K : Type*} [LinearOrder K]

/-- Ascending on `[l, r)`. -/
def SortedOn (f : α → K) (l r : ℕ) (a : ℕ → α) : Prop := ∀ x y, l ≤ x → x ≤ y → y < r → f (a x) ≤ f (a y)

/-- The entry at `nth` separates `[l, r)`. -/
structure SplitAt (f : α → K) (l r nth : ℕ) (a : ℕ → α) : Prop where
  below : ∀ x, l ≤ x → x ≤ nth → f (a x) ≤ f (a nth)
  above : ∀ y, nth ≤ y → y < r → f (a nth) ≤ f (a y)

theorem SortedOn.splitAt {f : α → K} {l r nth : ℕ} {a : ℕ → α} (h : SortedOn f l r a) (h1 : l ≤ nth) (h2 : nth < r) :
    SplitAt f l r nth a := ⟨fun x hx hn => h x nth hx hn h2, fun y hy hr => h nth y h1 hy hr⟩

theorem swap_of_update (a : ℕ → α) (j : ℕ) (key : α) :
    Function.update (Function.update a (j + 1) (a j)) j key = swapAt (Function.update a (j + 1) key) (j + 1) j := by
  funext x
  rw [swapAt_apply]
  by_cases h1 : x = j
  · subst h1; simp
  · rw [if_neg h1, Function.update_of_ne h1]
    by_cases h2 : x = j + 1
    · subst h2; simp
    · rw [if_neg h2, Function.update_of_ne h2, Function.update_of_ne h2]

theorem insertLoop_spec (f : α → K) (left i : ℕ) (key : α) (j : ℕ) (a : ℕ → α) (hl : left ≤ j) (hj : j ≤ i)
    (hs : ∀ x y, left ≤ x → x ≤ y → y ≤ i → x ≠ j → y ≠ j → f (a x) ≤ f (a y))
    (hk : ∀ y, j < y → y ≤ i → f key ≤ f (a y)) :
    SortedOn f left (i + 1) (insertLoop f left key j a) ∧
      PermOn left (i + 1) (Function.update a j key) (insertLoop f left key j a) := by
  have fin : ∀ j (a : ℕ → α), left ≤ j → j ≤ i →
      (∀ x y, left ≤ x → x ≤ y → y ≤ i → x ≠ j → y ≠ j → f (a x) ≤ f (a y)) →
      (∀ y, j < y → y ≤ i → f key ≤ f (a y)) → (∀ x, left ≤ x → x < j → f (a x) ≤ f key) →
      SortedOn f left (i + 1) (Function.update a j key) := by
    intro j a _ _ hs hk hb x y hx hxy hy
    by_cases h1 : x = j
    · subst h1
      by_cases h2 : y = x
      · subst h2; exact le_refl _
      · rw [Function.update_self, Function.update_of_ne h2]
        exact hk y (by omega) (by omega)
    · rw [Function.update_of_ne h1]
      by_cases h2 : y = j
      · subst h2
        rw [Function.update_self]
        exact hb x hx (by omega)
      · rw [Function.update_of_ne h2]
        exact hs x y hx hxy (by omega) h1 h2
  induction j generalizing a with
  | zero =>
    unfold insertLoop
    exact ⟨fin 0 a hl hj hs hk (fun x _ h => by omega), PermOn.refl _ _ _⟩
  | succ j ih =>
    unfold insertLoop
    by_cases hc : left ≤ j ∧ f key < f (a j)
    · rw [if_pos hc]
      have hx1 : ∀ x y, left ≤ x → x ≤ y → y ≤ i → x ≠ j → y ≠ j →
          f (Function.update a (j + 1) (a j) x) ≤ f (Function.update a (j + 1) (a j) y) := by
        intro x y hx hxy hy hxj hyj
        by_cases h1 : x = j + 1
        · rw [h1, Function.update_self]
          by_cases h2 : y = j + 1
          · rw [h2, Function.update_self]
          · rw [Function.update_of_ne h2]
            exact hs j y hc.1 (by omega) hy (by omega) h2
        · rw [Function.update_of_ne h1]
          by_cases h2 : y = j + 1
          · rw [h2, Function.update_self]
            exact hs x j hx (by omega) (by omega) h1 (by omega)
          · rw [Function.update_of_ne h2]
            exact hs x y hx hxy hy h1 h2
      have hx2 : ∀ y, j < y → y ≤ i → f key ≤ f (Function.update a (j + 1) (a j) y) := by
        intro y hy hyi
        by_cases h2 : y = j + 1
        · rw [h2, Function.update_self]; exact hc.2.le
        · rw [Function.update_of_ne h2]; exact hk y (by omega) hyi
      obtain ⟨h1, h2⟩ := ih (Function.update a (j + 1) (a j)) hc.1 (by omega) hx1 hx2
      refine ⟨h1, ?_⟩
      rw [swap_of_update] at h2
      exact (PermOn.swapAt _ (by omega) (by omega)).trans h2
    · rw [if_neg hc]
      refine ⟨fin (j + 1) a hl hj hs hk fun x hx hxj => ?_, PermOn.refl _ _ _⟩
      have h1 : f (a j) ≤ f key := by
        by_contra h
        exact hc ⟨by omega, not_le.1 h⟩
      exact (hs x j hx (by omega) (by omega) (by omega) (by omega)).trans h1

theorem insertionSortArr_spec (f : α → K) (left right : ℕ) (a : ℕ → α) (hlr : left ≤ right) :
    SortedOn f left right (insertionSortArr f left right a) ∧ PermOn left right a (insertionSortArr f left right a) := by
  unfold insertionSortArr
  have key : ∀ m, left + 1 + m ≤ right →
      let b := (List.range' (left + 1) m).foldl (fun a i => insertLoop f left (a i) i a) a
      SortedOn f left (left + 1 + m) b ∧ PermOn left right a b := by
    intro m
    induction m with
    | zero =>
      intro _
      refine ⟨fun x y h1 h2 h3 => ?_, PermOn.refl _ _ _⟩
      have : x = y := by omega
      rw [this]
    | succ m ih =>
      intro hm
      obtain ⟨h1, h2⟩ := ih (by omega)
      rw [List.range'_1_concat, List.foldl_append]
      simp only [List.foldl_cons, List.foldl_nil]
      set b := (List.range' (left + 1) m).foldl (fun a i => insertLoop f left (a i) i a) a
      obtain ⟨h3, h4⟩ := insertLoop_spec f left (left + 1 + m) (b (left + 1 + m)) (left + 1 + m) b (by omega) le_rfl
        (fun x y a1 a2 a3 a4 a5 => h1 x y a1 a2 (by omega)) (fun y a1 a2 => by omega)
      rw [Function.update_eq_self] at h4
      exact ⟨by rw [show left + 1 + (m + 1) = left + 1 + m + 1 by omega]; exact h3,
        h2.trans (h4.mono le_rfl (by omega) (by omega))⟩
  by_cases h : left < right
  · obtain ⟨h1, h2⟩ := key (right - (left + 1)) (by omega)
    rw [show left + 1 + (right - (left + 1)) = right by omega] at h1
    exact ⟨h1, h2⟩
  · rw [show right - (left + 1) = 0 by omega]
    exact ⟨fun x y h1 h2 h3 => by omega, PermOn.refl _ _ _⟩

theorem medianOfThree_spec (f : α → K) (left right : ℕ) (a : ℕ → α) (hlr : left < right) :
    PermOn left right a (medianOfThree f left right a).1 ∧ left ≤ (medianOfThree f left right a).2 ∧
      (medianOfThree f left right a).2 < right := by
  have hm1 : left ≤ (left + right - 1) / 2 := by omega
  have hm2 : (left + right - 1) / 2 < right := by omega
  unfold medianOfThree
  simp only
  refine ⟨?_, hm1, hm2⟩
  generalize (left + right - 1) / 2 = mid at *
  have s1 : ∀ b : ℕ → α, PermOn left right b (swapAt b left mid) := fun b => PermOn.swapAt b (by omega) (by omega)
  have s2 : ∀ b : ℕ → α, PermOn left right b (swapAt b mid (right - 1)) := fun b => PermOn.swapAt b (by omega) (by omega)
  have h1 : PermOn left right a (if f (a mid) < f (a left) then swapAt a left mid else a) := by
    split_ifs
    · exact s1 a
    · exact PermOn.refl _ _ _
  refine h1.trans ?_
  generalize (if f (a mid) < f (a left) then swapAt a left mid else a) = b
  split_ifs
  · exact (s2 b).trans (s1 _)
  · exact s2 b
  · exact PermOn.refl _ _ _

theorem scanUp_spec (f : α → K) (pv : K) (a : ℕ → α) (g i jj : ℕ) (hg : jj ≤ g + i) (hij : i ≤ jj) :
    i ≤ scanUp f pv a g i jj ∧ scanUp f pv a g i jj ≤ jj ∧ (∀ x, i ≤ x → x < scanUp f pv a g i jj → f (a x) < pv) ∧
      (scanUp f pv a g i jj < jj → pv ≤ f (a (scanUp f pv a g i jj))) := by
  induction g generalizing i with
  | zero => unfold scanUp; exact ⟨le_rfl, by omega, fun x _ _ => by omega, fun _ => by omega⟩
  | succ g ih =>
    unfold scanUp
    by_cases hc : i < jj ∧ f (a i) < pv
    · rw [if_pos hc]
      obtain ⟨h1, h2, h3, h4⟩ := ih (i + 1) (by omega) (by omega)
      refine ⟨by omega, h2, fun x hx hx2 => ?_, h4⟩
      rcases Nat.eq_or_lt_of_le hx with rfl | hx'
      · exact hc.2
      · exact h3 x hx' hx2
    · rw [if_neg hc]
      exact ⟨le_rfl, hij, fun x _ _ => by omega, fun h => not_lt.1 fun h' => hc ⟨h, h'⟩⟩

theorem scanDown_spec (f : α → K) (pv : K) (a : ℕ → α) (g i jj : ℕ) (hg : jj ≤ g + i) (hij : i ≤ jj) :
    i ≤ scanDown f pv a g i jj ∧ scanDown f pv a g i jj ≤ jj ∧ (∀ x, scanDown f pv a g i jj ≤ x → x < jj → pv ≤ f (a x)) ∧
      (i < scanDown f pv a g i jj → f (a (scanDown f pv a g i jj - 1)) < pv) := by
  induction g generalizing jj with
  | zero => unfold scanDown; exact ⟨by omega, by omega, fun x _ _ => by omega, fun _ => by omega⟩
  | succ g ih =>
    unfold scanDown
    by_cases hc : i < jj ∧ pv ≤ f (a (jj - 1))
    · rw [if_pos hc]
      obtain ⟨h1, h2, h3, h4⟩ := ih (jj - 1) (by omega) (by omega)
      refine ⟨h1, by omega, fun x hx hx2 => ?_, h4⟩
      by_cases hx' : x = jj - 1
      · rw [hx']; exact hc.2
      · exact h3 x hx (by omega)
    · rw [if_neg hc]
      exact ⟨hij, le_rfl, fun x _ _ => by omega, fun h => not_le.1 fun h' => hc ⟨h, h'⟩⟩

theorem partLoop_spec (f : α → K) (pv : K) (left last g : ℕ) (a : ℕ → α) (i jj : ℕ) (hg : jj < g + i) (h1 : left ≤ i)
    (h2 : i ≤ jj) (h3 : jj ≤ last) (hlow : ∀ x, left ≤ x → x < i → f (a x) < pv) (hhigh : ∀ x, jj ≤ x → x < last → pv ≤ f (a x)) :
    left ≤ (partLoop f pv g a i jj).2 ∧ (partLoop f pv g a i jj).2 ≤ last ∧ PermOn left last a (partLoop f pv g a i jj).1 ∧
      (∀ x, left ≤ x → x < (partLoop f pv g a i jj).2 → f ((partLoop f pv g a i jj).1 x) < pv) ∧
      (∀ x, (partLoop f pv g a i jj).2 ≤ x → x < last → pv ≤ f ((partLoop f pv g a i jj).1 x)) := by
  induction g generalizing a i jj with
  | zero => omega
  | succ g ih =>
    unfold partLoop
    simp only
    obtain ⟨u1, u2, u3, u4⟩ := scanUp_spec f pv a jj i jj (by omega) h2
    generalize scanUp f pv a jj i jj = i' at *
    obtain ⟨d1, d2, d3, d4⟩ := scanDown_spec f pv a jj i' jj (by omega) u2
    generalize scanDown f pv a jj i' jj = j' at *
    have hlow' : ∀ x, left ≤ x → x < i' → f (a x) < pv := by
      intro x hx hxi
      by_cases h : x < i
      · exact hlow x hx h
      · exact u3 x (by omega) hxi
    have hhigh' : ∀ x, j' ≤ x → x < last → pv ≤ f (a x) := by
      intro x hx hxl
      by_cases h : x < jj
      · exact d3 x hx h
      · exact hhigh x (by omega) hxl
    by_cases hc : j' ≤ i' + 1
    · rw [if_pos hc]
      have hji : j' = i' := by
        by_contra hne
        have h5 : i' < j' := by omega
        have h6 := d4 h5
        rw [show j' - 1 = i' by omega] at h6
        exact absurd h6 (not_lt.2 (u4 (by omega)))
      subst hji
      exact ⟨by omega, by omega, PermOn.refl _ _ _, hlow', hhigh'⟩
    · rw [if_neg hc]
      have hi := u4 (by omega)
      have hj := d4 (by omega)
      obtain ⟨r1, r2, r3, r4, r5⟩ := ih (swapAt a i' (j' - 1)) (i' + 1) (j' - 1) (by omega) (by omega) (by omega) (by omega)
        (by
          intro x hx hxi
          rw [swapAt_apply, if_neg (by omega)]
          by_cases h : x = i'
          · rw [if_pos h]; exact hj
          · rw [if_neg h]; exact hlow' x hx (by omega))
        (by
          intro x hx hxl
          rw [swapAt_apply]
          by_cases h : x = j' - 1
          · rw [if_pos h]; exact hi
          · rw [if_neg h, if_neg (by omega)]; exact hhigh' x (by omega) hxl)
      exact ⟨r1, r2, (PermOn.swapAt a (by omega) (by omega)).trans r3, r4, r5⟩

theorem partitionArr_spec (f : α → K) (left right pivot : ℕ) (a : ℕ → α) (h1 : left ≤ pivot) (h2 : pivot < right) :
    left ≤ (partitionArr f left right pivot a).2 ∧ (partitionArr f left right pivot a).2 < right ∧
      PermOn left right a (partitionArr f left right pivot a).1 ∧
      SplitAt f left right (partitionArr f left right pivot a).2 (partitionArr f left right pivot a).1 := by
  unfold partitionArr
  simp only
  have hp1 : PermOn left right a (swapAt a pivot (right - 1)) := PermOn.swapAt a (by omega) (by omega)
  generalize swapAt a pivot (right - 1) = b at *
  obtain ⟨r1, r2, r3, r4, r5⟩ := partLoop_spec f (f (b (right - 1))) left (right - 1) right b left (right - 1) (by omega) le_rfl
    (by omega) le_rfl (fun x _ _ => by omega) (fun x _ _ => by omega)
  generalize partLoop f (f (b (right - 1))) right b left (right - 1) = r at *
  have hlast : r.1 (right - 1) = b (right - 1) := r3.out _ (by omega)
  have hpos : swapAt r.1 r.2 (right - 1) r.2 = b (right - 1) := by
    rw [swapAt_apply]
    by_cases h : r.2 = right - 1
    · rw [if_pos h, h, hlast]
    · rw [if_neg h, if_pos rfl, hlast]
  refine ⟨r1, by omega, hp1.trans ((r3.mono le_rfl (by omega) (by omega)).trans (PermOn.swapAt _ (by omega) (by omega))), ?_⟩
  constructor
  · intro x hx hxr
    rw [hpos]
    rcases Nat.eq_or_lt_of_le hxr with rfl | hlt
    · rw [hpos]
    · rw [swapAt_apply, if_neg (by omega), if_neg (by omega)]
      exact (r4 x hx hlt).le
  · intro y hy hyr
    rw [hpos]
    rcases Nat.eq_or_lt_of_le hy with rfl | hlt
    · rw [hpos]
    · rw [swapAt_apply]
      by_cases h : y = right - 1
      · rw [if_pos h]; exact r5 _ le_rfl (by omega)
      · rw [if_neg h, if_neg (by omega)]
        exact r5 y (by omega) (by omega)

theorem introImpl_spec (f : α → K) (depth : ℕ) (a : ℕ → α) (left right nth : ℕ) (h1 : left ≤ nth) (h2 : nth < right) :
    PermOn left right a (introImpl f depth a left right nth) ∧ SplitAt f left right nth (introImpl f depth a left right nth) := by
  have small : ∀ (a : ℕ → α) l r, l ≤ nth → nth < r → PermOn l r a (insertionSortArr f l r a) ∧
      SplitAt f l r nth (insertionSortArr f l r a) := by
    intro a l r hl hr
    obtain ⟨h3, h4⟩ := insertionSortArr_spec f l r a (by omega)
    exact ⟨h4, h3.splitAt hl hr⟩
  induction depth generalizing a left right with
  | zero =>
    unfold introImpl
    split_ifs
    · obtain ⟨h3, h4⟩ := heapSort_spec f left right (by omega) a
      exact ⟨h4, SortedOn.splitAt h3 h1 h2⟩
    · exact small a left right h1 h2
  | succ depth ih =>
    unfold introImpl
    by_cases hs : right - left > 16
    · rw [if_pos hs]
      simp only
      obtain ⟨m1, m2, m3⟩ := medianOfThree_spec f left right a (by omega)
      generalize medianOfThree f left right a = m at *
      obtain ⟨p1, p2, p3, p4⟩ := partitionArr_spec f left right m.2 m.1 m2 m3
      generalize partitionArr f left right m.2 m.1 = r at *
      have hp := m1.trans p3
      by_cases hlt : nth < r.2
      · rw [if_pos hlt]
        obtain ⟨q1, q2⟩ := ih r.1 left r.2 h1 hlt
        generalize introImpl f depth r.1 left r.2 nth = c at *
        refine ⟨hp.trans (q1.mono le_rfl (by omega) (by omega)), q2.below, fun y hy hyr => ?_⟩
        by_cases hyp : y < r.2
        · exact q2.above y hy hyp
        · obtain ⟨z, z1, z2, z3⟩ := q1.exists_old (x := nth) ⟨h1, hlt⟩
          rw [← z3, q1.out y (by omega)]
          exact (p4.below z z1 z2.le).trans (p4.above y (by omega) hyr)
      · rw [if_neg hlt]
        by_cases hgt : nth > r.2
        · rw [if_pos hgt]
          obtain ⟨q1, q2⟩ := ih r.1 (r.2 + 1) right hgt h2
          generalize introImpl f depth r.1 (r.2 + 1) right nth = c at *
          refine ⟨hp.trans (q1.mono (by omega) le_rfl (by omega)), fun x hx hxn => ?_, q2.above⟩
          by_cases hxp : r.2 + 1 ≤ x
          · exact q2.below x hxp hxn
          · obtain ⟨z, z1, z2, z3⟩ := q1.exists_old (x := nth) ⟨hgt, h2⟩
            rw [← z3, q1.out x (by omega)]
            exact (p4.below x hx (by omega)).trans (p4.above z (by omega) z2)
        · rw [if_neg hgt]
          have : nth = r.2 := by omega
          rw [this]
          exact ⟨hp, p4⟩
    · rw [if_neg hs]
      exact small a left right h1 h2

theorem introselect_spec (f : α → K) (a : ℕ → α) (left right nth : ℕ) (h1 : left ≤ nth) (h2 : nth < right) :
    PermOn left right a (introselect f left right nth a) ∧ SplitAt f left right nth (introselect f left right nth a) := by
  unfold introselect
  split_ifs
  · obtain ⟨h3, h4⟩ := insertionSortArr_spec f left right a (by omega)
    exact ⟨h4, h3.splitAt h1 h2⟩
  · exact introImpl_spec f _ a left right nth h1 h2

theorem compareIndices_neg [LinearOrder R] (pts : ℕ → ℕ → R) (axis i j : ℕ) :
    compareIndices pts axis i j < 0 ↔ idxKey pts axis i < idxKey pts axis j := by
  unfold compareIndices idxKey
  rw [Prod.Lex.toLex_lt_toLex]
  simp only
  split_ifs with h1 h2 h3 h4
  · simp [h1]
  · have h2' : pts i axis ≠ pts j axis := ne_of_gt h2
    simp [h1, h2']
  · have : pts i axis = pts j axis := le_antisymm (not_lt.1 h2) (not_lt.1 h1)
    simp [this, h3]
  · simp [h1, h3]
  · simp [h1, h3]

theorem compareIndices_pos [LinearOrder R] (pts : ℕ → ℕ → R) (axis i j : ℕ) :
    compareIndices pts axis i j > 0 ↔ idxKey pts axis j < idxKey pts axis i := by
  unfold compareIndices idxKey
  rw [Prod.Lex.toLex_lt_toLex]
  simp only
  split_ifs with h1 h2 h3 h4
  · have h2' : pts j axis ≠ pts i axis := ne_of_gt h1
    simp [not_lt.2 h1.le, h2']
  · simp [h2]
  · simp only [h2, gt_iff_lt] at *
    have : ¬ j < i := by omega
    simp [this]
  · have : pts j axis = pts i axis := le_antisymm (not_lt.1 h1) (not_lt.1 h2)
    have h4' : j < i := h4
    simp [this, h4']
  · have h4' : ¬ j < i := h4
    simp only [gt_iff_lt] at h2
    simp [h2, h4']

end Verif
