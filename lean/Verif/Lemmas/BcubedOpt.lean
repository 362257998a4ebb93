import Verif.Lemmas.RTree
import Mathlib.Algebra.BigOperators.Group.Finset.Basic
import Mathlib.Algebra.Order.BigOperators.Group.Finset
import Mathlib.Algebra.BigOperators.Group.List.Basic
import Mathlib.Algebra.Order.Monoid.Prod

/-!
# Lemmas: optimality of the semi-supervised recursion in exact arithmetic
-/

namespace Verif
variable {L S V : Type*} {ct : List (CRow L S)} {rk : ℕ → ℕ}

/-- Exact arithmetic in an ordered monoid. -/
def plainOps (V : Type*) [AddCommMonoid V] [LinearOrder V] : ScoreOps V := ⟨0, id, fun x y => x + y, fun x y => decide (y < x)⟩

section
variable [AddCommMonoid V] [LinearOrder V] [IsOrderedAddMonoid V] (score : ℕ → V)

local notation "ex" => plainOps V

theorem RTree.total_plain (h : RTree rk ct) (c : ℕ) :
    h.total ex score c = ∑ d ∈ (kidsOf ct c).toFinset, h.val ex score d := by
  rw [List.sum_toFinset _ (h.kids_nodup c), RTree.total, List.sum_eq_foldl, List.foldl_map]
  rfl

theorem RTree.sum_kids (h : RTree rk ct) {node : ℕ}
    (ih : ∀ c ∈ kidsOf ct node, ∀ B : Finset ℕ, (∀ x, x ∈ B ↔ h.Top ex score c x) → ∑ x ∈ B, score x = h.val ex score c)
    (B : Finset ℕ) (hB : ∀ x, x ∈ B ↔ ∃ c ∈ kidsOf ct node, h.Top ex score c x) :
    ∑ x ∈ B, score x = h.total ex score node := by
  classical
  have : B = (kidsOf ct node).toFinset.biUnion fun c => B.filter fun x => h.Top ex score c x := by
    ext x
    simp only [Finset.mem_biUnion, Finset.mem_filter, List.mem_toFinset]
    constructor
    · intro hx
      obtain ⟨c, h1, h2⟩ := (hB x).1 hx
      exact ⟨c, h1, hx, h2⟩
    · rintro ⟨c, _, hx, _⟩; exact hx
  rw [this, Finset.sum_biUnion, h.total_plain]
  · refine Finset.sum_congr rfl fun c hc => ih c (List.mem_toFinset.1 hc) _ fun x => ?_
    rw [Finset.mem_filter]
    exact ⟨fun h => h.2, fun h => ⟨(hB x).2 ⟨c, List.mem_toFinset.1 hc, h⟩, h⟩⟩
  · intro c hc d hd hne
    rw [Function.onFun, Finset.disjoint_left]
    intro x hx hx'
    exact hne (h.kids_disjoint (List.mem_toFinset.1 hc) (List.mem_toFinset.1 hd) (Finset.mem_filter.1 hx).2.1
      (Finset.mem_filter.1 hx').2.1)

theorem RTree.sum_tops (h : RTree rk ct) {node : ℕ} (B : Finset ℕ) (hB : ∀ x, x ∈ B ↔ h.Top ex score node x) :
    ∑ x ∈ B, score x = h.val ex score node := by
  induction hj : rk node using Nat.strong_induction_on generalizing node B with
  | _ j ih =>
    rw [h.val_eq]
    cases ht : h.take ex score node
    · simp only [Bool.false_eq_true, if_false]
      refine h.sum_kids score (fun c hc B hB => ?_) _ fun x => ?_
      · have := h.kid_lt hc
        exact ih (rk c) (by omega) B hB rfl
      · rw [hB, RTree.Top.of_not_take ht]
    · have : B = {node} := by
        ext x
        rw [hB, RTree.Top.of_take ht, Finset.mem_singleton]
      rw [this, Finset.sum_singleton]
      rfl

theorem RTree.antichain_kids (h : RTree rk ct) {node : ℕ}
    (ih : ∀ c ∈ kidsOf ct node, ∀ A : Finset ℕ, (∀ x ∈ A, CDesc ct c x) →
      (∀ x ∈ A, ∀ y ∈ A, CDesc ct x y → x = y) → ∑ x ∈ A, score x ≤ h.val ex score c)
    (A : Finset ℕ) (hA : ∀ x ∈ A, CDesc ct node x) (hnode : node ∉ A)
    (ha : ∀ x ∈ A, ∀ y ∈ A, CDesc ct x y → x = y) :
    ∑ x ∈ A, score x ≤ h.total ex score node := by
  classical
  have : A = (kidsOf ct node).toFinset.biUnion fun c => A.filter fun x => CDesc ct c x := by
    ext x
    simp only [Finset.mem_biUnion, Finset.mem_filter, List.mem_toFinset]
    constructor
    · intro hx
      rcases desc_cases (hA x hx) with h1 | ⟨c, h1, h2⟩
      · subst h1; exact absurd hx hnode
      · exact ⟨c, h1, hx, h2⟩
    · rintro ⟨c, _, hx, _⟩; exact hx
  rw [this, Finset.sum_biUnion, h.total_plain]
  · refine Finset.sum_le_sum fun c hc => ih c (List.mem_toFinset.1 hc) _ ?_ ?_
    · intro x hx; exact (Finset.mem_filter.1 hx).2
    · intro x hx y hy; exact ha x (Finset.mem_filter.1 hx).1 y (Finset.mem_filter.1 hy).1
  · intro c hc d hd hne
    rw [Function.onFun, Finset.disjoint_left]
    intro x hx hx'
    exact hne (h.kids_disjoint (List.mem_toFinset.1 hc) (List.mem_toFinset.1 hd) (Finset.mem_filter.1 hx).2
      (Finset.mem_filter.1 hx').2)

theorem RTree.antichain_le (h : RTree rk ct) {node : ℕ} (A : Finset ℕ)
    (hA : ∀ x ∈ A, CDesc ct node x) (ha : ∀ x ∈ A, ∀ y ∈ A, CDesc ct x y → x = y) :
    ∑ x ∈ A, score x ≤ h.val ex score node := by
  induction hj : rk node using Nat.strong_induction_on generalizing node A with
  | _ j ih =>
    have hbound : h.total ex score node ≤ h.val ex score node ∧ score node ≤ h.val ex score node := by
      rw [h.val_eq]
      cases ht : h.take ex score node
      · simp only [Bool.false_eq_true, if_false, le_refl, true_and]
        simp only [RTree.take, Bool.not_eq_false', plainOps, decide_eq_true_eq] at ht
        exact ht.le
      · simp only [if_true, le_refl, and_true]
        simp only [RTree.take, Bool.not_eq_true', plainOps, decide_eq_false_iff_not, not_lt] at ht
        exact ht
    by_cases hn : node ∈ A
    · have : A = {node} := by
        ext x
        rw [Finset.mem_singleton]
        exact ⟨fun hx => (ha node hn x hx (hA x hx)).symm, fun hx => hx ▸ hn⟩
      rw [this, Finset.sum_singleton]
      exact hbound.2
    · refine le_trans (h.antichain_kids score (fun c hc B hB haB => ?_) A hA hn ha) hbound.1
      have := h.kid_lt hc
      exact ih (rk c) (by omega) B hB haB rfl

end

/-! ## Mapping scores -/

theorem bVal_map {V' : Type*} (o : ScoreOps V) (o' : ScoreOps V') (e : V → V') (h0 : e o.zero = o'.zero)
    (ha : ∀ x y, e (o.add x y) = o'.add (e x) (e y)) (hg : ∀ x y, o.gt x y = o'.gt (e x) (e y)) (score : ℕ → V) (f c : ℕ) :
    e (bVal ct o score f c) = bVal ct o' (fun c => e (score c)) f c := by
  induction f generalizing c with
  | zero => exact h0
  | succ f ih =>
    have hf : ∀ (cs : List ℕ) (a : V), e (cs.foldl (fun acc c => o.add acc (bVal ct o score f c)) a) =
        cs.foldl (fun acc c => o'.add acc (bVal ct o' (fun c => e (score c)) f c)) (e a) := by
      intro cs
      induction cs with
      | nil => intro a; rfl
      | cons c cs ihc => intro a; rw [List.foldl_cons, List.foldl_cons, ihc, ha, ih]
    simp only [bVal]
    rw [apply_ite e, hf, h0, hg, hf, h0]

theorem RTree.take_map {V' : Type*} (h : RTree rk ct) (o : ScoreOps V) (o' : ScoreOps V') (e : V → V')
    (h0 : e o.zero = o'.zero) (ha : ∀ x y, e (o.add x y) = o'.add (e x) (e y))
    (hg : ∀ x y, o.gt x y = o'.gt (e x) (e y)) (score : ℕ → V) (c : ℕ) :
    h.take o score c = h.take o' (fun c => e (score c)) c := by
  have hf : ∀ (cs : List ℕ) (a : V), e (cs.foldl (fun acc c => o.add acc (h.val o score c)) a) =
      cs.foldl (fun acc c => o'.add acc (h.val o' (fun c => e (score c)) c)) (e a) := by
    intro cs
    induction cs with
    | nil => intro a; rfl
    | cons c cs ihc =>
      intro a
      rw [List.foldl_cons, List.foldl_cons, ihc, ha, RTree.val, RTree.val, bVal_map o o' e h0 ha hg]
  simp only [RTree.take, RTree.total]
  rw [hg, hf, h0]

/-- (stability, B-cubed) as a point of the lexicographic order, B-cubed first. -/
def lexOf {K : Type*} (p : K × K) : K ×ₗ K := toLex (p.2, p.1)

theorem RTree.take_lex {K : Type*} [AddCommMonoid K] [LinearOrder K] [IsOrderedCancelAddMonoid K] (h : RTree rk ct)
    (score : ℕ → K × K) (c : ℕ) :
    h.take (pairOps K) score c = h.take (plainOps (K ×ₗ K)) (fun c => lexOf (score c)) c := by
  apply h.take_map
  · rfl
  · intro x y; rfl
  · intro x y
    simp only [pairOps, plainOps, lexOf]
    by_cases h1 : y.2 < x.2
    · rw [if_pos h1]
      symm
      rw [decide_eq_true_eq, Prod.Lex.toLex_lt_toLex]
      exact .inl h1
    · rw [if_neg h1]
      by_cases h2 : x.2 < y.2
      · rw [if_pos h2]
        symm
        rw [decide_eq_false_iff_not, Prod.Lex.toLex_lt_toLex]
        rintro (h3 | h3)
        · exact h1 h3
        · exact absurd h3.1 h2.ne'
      · rw [if_neg h2, decide_eq_decide, Prod.Lex.toLex_lt_toLex]
        have : y.2 = x.2 := le_antisymm (not_lt.1 h2) (not_lt.1 h1)
        simp [this]

theorem RTree.top_lex {K : Type*} [AddCommMonoid K] [LinearOrder K] [IsOrderedCancelAddMonoid K] (h : RTree rk ct)
    (score : ℕ → K × K) (node c : ℕ) :
    h.Top (pairOps K) score node c ↔ h.Top (plainOps (K ×ₗ K)) (fun c => lexOf (score c)) node c := by
  simp only [RTree.Top, h.take_lex]

end Verif
