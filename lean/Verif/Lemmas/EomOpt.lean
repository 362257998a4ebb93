import Verif.Lemmas.Eom
import Mathlib.Algebra.BigOperators.Group.Finset.Basic
import Mathlib.Algebra.Order.BigOperators.Group.Finset
import Mathlib.Algebra.BigOperators.Group.List.Basic

/-!
# Lemmas: optimality of the excess-of-mass recursion in exact arithmetic
-/

namespace Verif
variable {L S V : Type*} {n k : ℕ} {ct : List (CRow L S)}

section
variable [AddCommMonoid V] [LinearOrder V] [IsOrderedAddMonoid V] (score : ℕ → V) (tooLarge : ℕ → Bool)

local notation "ex" => ScoreOps.exact V

theorem ClTree.total_exact (h : ClTree n k ct) (c : ℕ) :
    h.total ex score tooLarge c = ∑ d ∈ (kidsOf ct c).toFinset, h.val ex score tooLarge d := by
  rw [List.sum_toFinset _ (h.kids_nodup c), ClTree.total, List.sum_eq_foldl, List.foldl_map]
  rfl

open Classical in
/-- The clusters selected below `node`. -/
noncomputable def ClTree.tops (h : ClTree n k ct) (node : ℕ) : Finset ℕ :=
  (Finset.range (n + k)).filter fun x => h.Top ex score tooLarge node x

theorem ClTree.mem_tops (h : ClTree n k ct) {node x : ℕ} (h1 : n ≤ node) (h2 : node < n + k) :
    x ∈ h.tops score tooLarge node ↔ h.Top ex score tooLarge node x := by
  unfold ClTree.tops
  simp only [Finset.mem_filter, Finset.mem_range, and_iff_right_iff_imp]
  intro hT
  exact (h.desc_range hT.1 h1 h2).2

theorem ClTree.Top.of_take {V : Type*} {o : ScoreOps V} {score : ℕ → V} {tooLarge : ℕ → Bool} {h : ClTree n k ct}
    {node x : ℕ} (ht : h.take o score tooLarge node = true) : h.Top o score tooLarge node x ↔ x = node := by
  constructor
  · intro hT
    by_contra hne
    have := hT.2.2 node .refl hT.1 (Ne.symm hne)
    rw [ht] at this; cases this
  · rintro rfl
    exact ⟨.refl, ht, fun d h1 h2 h3 => absurd (h.desc_antisymm h2 h1) h3⟩

theorem ClTree.Top.of_not_take {V : Type*} {o : ScoreOps V} {score : ℕ → V} {tooLarge : ℕ → Bool} {h : ClTree n k ct}
    {node x : ℕ} (ht : h.take o score tooLarge node = false) :
    h.Top o score tooLarge node x ↔ ∃ c ∈ kidsOf ct node, h.Top o score tooLarge c x := by
  constructor
  · intro hT
    rcases desc_cases hT.1 with h1 | ⟨c, h1, h2⟩
    · subst h1; rw [hT.2.1] at ht; cases ht
    · exact ⟨c, h1, h2, hT.2.1, fun d h3 h4 h5 => hT.2.2 d (desc_of_kid h1 h3) h4 h5⟩
  · rintro ⟨c, h1, h2⟩
    refine ⟨desc_of_kid h1 h2.1, h2.2.1, fun d h3 h4 h5 => ?_⟩
    rcases desc_cases h3 with h6 | ⟨e, h6, h7⟩
    · subst h6; exact ht
    · have := h.kids_disjoint h1 h6 h2.1 (h7.trans h4)
      subst this
      exact h2.2.2 d h7 h4 h5

theorem ClTree.sum_tops_kids (h : ClTree n k ct) {node : ℕ} (h1 : n ≤ node)
    (ih : ∀ c ∈ kidsOf ct node, ∑ x ∈ h.tops score tooLarge c, max (score x) 0 = h.val ex score tooLarge c)
    (B : Finset ℕ) (hB : ∀ x, x ∈ B ↔ ∃ c ∈ kidsOf ct node, h.Top ex score tooLarge c x) :
    ∑ x ∈ B, max (score x) 0 = h.total ex score tooLarge node := by
  have hk : ∀ c ∈ kidsOf ct node, n ≤ c ∧ c < n + k := fun c hc => by have := h.kid_lt hc; omega
  have : B = (kidsOf ct node).toFinset.biUnion (h.tops score tooLarge) := by
    ext x
    rw [hB, Finset.mem_biUnion]
    constructor
    · rintro ⟨c, h3, h4⟩
      exact ⟨c, List.mem_toFinset.2 h3, (h.mem_tops score tooLarge (hk c h3).1 (hk c h3).2).2 h4⟩
    · rintro ⟨c, h3, h4⟩
      have h3 := List.mem_toFinset.1 h3
      exact ⟨c, h3, (h.mem_tops score tooLarge (hk c h3).1 (hk c h3).2).1 h4⟩
  rw [this, Finset.sum_biUnion, h.total_exact]
  · exact Finset.sum_congr rfl fun c hc => ih c (List.mem_toFinset.1 hc)
  · intro c hc d hd hne
    rw [Function.onFun, Finset.disjoint_left]
    intro x hx hx'
    have hc := List.mem_toFinset.1 hc
    have hd := List.mem_toFinset.1 hd
    exact hne (h.kids_disjoint hc hd ((h.mem_tops score tooLarge (hk c hc).1 (hk c hc).2).1 hx).1
      ((h.mem_tops score tooLarge (hk d hd).1 (hk d hd).2).1 hx').1)

theorem ClTree.sum_tops (h : ClTree n k ct) {node : ℕ} (h1 : n ≤ node) (h2 : node < n + k) :
    ∑ x ∈ h.tops score tooLarge node, max (score x) 0 = h.val ex score tooLarge node := by
  induction hj : n + k - node using Nat.strong_induction_on generalizing node with
  | _ j ih =>
    rw [h.val_eq]
    cases ht : h.take ex score tooLarge node
    · simp only [Bool.false_eq_true, if_false]
      refine h.sum_tops_kids score tooLarge h1 (fun c hc => ?_) _ fun x => ?_
      · have := h.kid_lt hc
        exact ih (n + k - c) (by omega) (by omega) (by omega) rfl
      · rw [h.mem_tops score tooLarge h1 h2, ClTree.Top.of_not_take ht]
    · have : h.tops score tooLarge node = {node} := by
        ext x
        rw [h.mem_tops score tooLarge h1 h2, ClTree.Top.of_take ht, Finset.mem_singleton]
      rw [this, Finset.sum_singleton]
      rfl

theorem ClTree.antichain_kids (h : ClTree n k ct) {node : ℕ}
    (ih : ∀ c ∈ kidsOf ct node, ∀ A : Finset ℕ, (∀ x ∈ A, CDesc ct c x) → (∀ x ∈ A, tooLarge x = false) →
      (∀ x ∈ A, ∀ y ∈ A, CDesc ct x y → x = y) → ∑ x ∈ A, max (score x) 0 ≤ h.val ex score tooLarge c)
    (A : Finset ℕ) (hA : ∀ x ∈ A, CDesc ct node x) (hnode : node ∉ A) (hl : ∀ x ∈ A, tooLarge x = false)
    (ha : ∀ x ∈ A, ∀ y ∈ A, CDesc ct x y → x = y) :
    ∑ x ∈ A, max (score x) 0 ≤ h.total ex score tooLarge node := by
  classical
  have : A = (kidsOf ct node).toFinset.biUnion fun c => A.filter fun x => CDesc ct c x := by
    ext x
    simp only [Finset.mem_biUnion, Finset.mem_filter, List.mem_toFinset]
    constructor
    · intro hx
      rcases desc_cases (hA x hx) with h1 | ⟨c, h1, h2⟩
      · subst h1; exact absurd hx hnode
      · exact ⟨c, h1, hx, h2⟩
    · rintro ⟨c, _, hx, _⟩; exact hx
  rw [this, Finset.sum_biUnion, h.total_exact]
  · refine Finset.sum_le_sum fun c hc => ih c (List.mem_toFinset.1 hc) _ ?_ ?_ ?_
    · intro x hx; exact (Finset.mem_filter.1 hx).2
    · intro x hx; exact hl x (Finset.mem_filter.1 hx).1
    · intro x hx y hy; exact ha x (Finset.mem_filter.1 hx).1 y (Finset.mem_filter.1 hy).1
  · intro c hc d hd hne
    rw [Function.onFun, Finset.disjoint_left]
    intro x hx hx'
    exact hne (h.kids_disjoint (List.mem_toFinset.1 hc) (List.mem_toFinset.1 hd) (Finset.mem_filter.1 hx).2
      (Finset.mem_filter.1 hx').2)

theorem ClTree.antichain_le (h : ClTree n k ct) {node : ℕ} (A : Finset ℕ)
    (hA : ∀ x ∈ A, CDesc ct node x) (hl : ∀ x ∈ A, tooLarge x = false)
    (ha : ∀ x ∈ A, ∀ y ∈ A, CDesc ct x y → x = y) :
    ∑ x ∈ A, max (score x) 0 ≤ h.val ex score tooLarge node := by
  induction hj : n + k - node using Nat.strong_induction_on generalizing node A with
  | _ j ih =>
    have hbound : h.total ex score tooLarge node ≤ h.val ex score tooLarge node ∧
        (tooLarge node = false → max (score node) 0 ≤ h.val ex score tooLarge node) := by
      rw [h.val_eq]
      cases ht : h.take ex score tooLarge node
      · simp only [Bool.false_eq_true, if_false, le_refl, true_and]
        intro htl
        simp only [ClTree.take, htl, Bool.or_false, Bool.not_eq_false', ScoreOps.exact,
          decide_eq_true_eq] at ht
        exact ht.le
      · simp only [if_true]
        refine ⟨?_, fun _ => le_rfl⟩
        simp only [ClTree.take, Bool.not_eq_true', Bool.or_eq_false_iff, ScoreOps.exact,
          decide_eq_false_iff_not, not_lt] at ht
        exact ht.1
    by_cases hn : node ∈ A
    · have : A = {node} := by
        ext x
        rw [Finset.mem_singleton]
        exact ⟨fun hx => (ha node hn x hx (hA x hx)).symm, fun hx => hx ▸ hn⟩
      rw [this, Finset.sum_singleton]
      exact hbound.2 (hl node hn)
    · refine le_trans (h.antichain_kids score tooLarge (fun c hc B hB hlB haB => ?_) A hA hn hl ha) hbound.1
      have := h.kid_lt hc
      exact ih (n + k - c) (by omega) B hB hlB haB rfl

end
end Verif
