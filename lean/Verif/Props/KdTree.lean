import Verif.Lemmas.KdQuery
import Mathlib.Algebra.Order.Ring.Defs
import Mathlib.Algebra.Order.Ring.Int
import Mathlib.Algebra.Order.Monoid.WithTop
import Mathlib.Algebra.Order.Group.Unbundled.Basic
import Mathlib.Tactic.Linarith

/-!
# C37, C38, C58, C59: the KD-tree
-/

namespace Verif
variable {R W : Type*} [LinearOrder R] [LinearOrder W]

/-! ### The assumptions on the arithmetic are met -/

section
variable {R : Type*} [CommRing R] [LinearOrder R] [IsStrictOrderedRing R]

/-- Arithmetic in which every result is rounded by `rnd`; the distance +inf is added to the numbers.  `rnd = id` is exact
arithmetic. -/
def roundedArith (rnd : R → R) : Arith R (WithTop R) where
  diff a b := ((rnd (a - b) : R) : WithTop R)
  sq x := x.map fun x => rnd (x * x)
  add x y := WithTop.map rnd (x + y)
  zero := ((0 : R) : WithTop R)

/-- Rounding that is monotone, idempotent and symmetric about 0 satisfies everything the theorems below assume. -/
theorem roundedArith_lawful {rnd : R → R} (hm : Monotone rnd) (hi : ∀ x, rnd (rnd x) = rnd x) (hs : ∀ x, rnd (-x) = -rnd x) :
    (roundedArith rnd).Lawful := by
  have h0 : rnd 0 = 0 := by
    have := hs 0
    rw [neg_zero] at this
    linarith
  have hpos : ∀ x : R, 0 ≤ x → 0 ≤ rnd x := fun x hx => by rw [← h0]; exact hm hx
  have mm : Monotone (WithTop.map rnd) := hm.withTop_map
  constructor
  · intro a b c h1 h2
    exact ⟨WithTop.coe_le_coe.2 (hm (by linarith)), WithTop.coe_le_coe.2 (hm (by linarith))⟩
  · intro a b h
    exact WithTop.coe_le_coe.2 (hpos _ (by linarith))
  · intro a b
    show ((rnd (rnd (a - b) * rnd (a - b)) : R) : WithTop R) = ((rnd (rnd (b - a) * rnd (b - a)) : R) : WithTop R)
    have : rnd (a - b) = -rnd (b - a) := by rw [← hs, neg_sub]
    rw [this, neg_mul_neg]
  · intro x hx
    induction x using WithTop.recTopCoe with
    | top => exact le_top
    | coe x => exact WithTop.coe_le_coe.2 (hpos _ (mul_self_nonneg x))
  · intro x y hx hxy
    induction y using WithTop.recTopCoe with
    | top => exact le_top
    | coe y =>
      induction x using WithTop.recTopCoe with
      | top => simp at hxy
      | coe x =>
        have h1 : 0 ≤ x := WithTop.coe_le_coe.1 hx
        have h2 : x ≤ y := WithTop.coe_le_coe.1 hxy
        exact WithTop.coe_le_coe.2 (hm (mul_self_le_mul_self h1 h2))
  · intro a b c d _ h1 _ h2
    exact mm (add_le_add h1 h2)
  · intro a b h1 h2
    have h3 : ((0 : R) : WithTop R) ≤ a + b := by
      have := add_le_add h1 h2
      simpa [roundedArith] using this
    have := mm h3
    simpa [roundedArith, h0] using this
  · intro a b _
    show WithTop.map rnd (((rnd (b - a) : R) : WithTop R) + ((0 : R) : WithTop R)) ≤ ((rnd (b - a) : R) : WithTop R)
    rw [← WithTop.coe_add, add_zero, WithTop.map_coe, hi]
  · intro a b _
    show WithTop.map rnd (((0 : R) : WithTop R) + ((rnd (b - a) : R) : WithTop R)) ≤ ((rnd (b - a) : R) : WithTop R)
    rw [← WithTop.coe_add, zero_add, WithTop.map_coe, hi]
  · show WithTop.map rnd (((0 : R) : WithTop R) + ((0 : R) : WithTop R)) ≤ ((0 : R) : WithTop R)
    rw [← WithTop.coe_add, zero_add, WithTop.map_coe, h0]

theorem exactArith_lawful : (roundedArith (id : R → R)).Lawful := roundedArith_lawful monotone_id (fun _ => rfl) fun _ => rfl

end

/-! ### C38 -/

/-- C38: for every non-empty data set and every leaf size, construction succeeds, the index array is a permutation of the
samples, and the nodes split it in halves down to the leaves; the box of every node is the smallest around its points. -/
theorem C38_build (ar : Arith R W) (zero : R) (pts : ℕ → ℕ → R) (dims n leafSize : ℕ) (hn : 0 < n) (hl : 1 ≤ leafSize) :
    ∃ t, buildKdTree ar zero pts dims n leafSize = some t ∧ t.Valid pts dims n (numNodes n leafSize) :=
  buildKdTree_valid ar zero pts dims n leafSize hn hl

/-- A leaf size of 0 is rejected. -/
theorem C38_rejects (ar : Arith R W) (zero : R) (pts : ℕ → ℕ → R) (dims n leafSize : ℕ) :
    buildKdTree ar zero pts dims n leafSize = none ↔ leafSize < 1 := by
  unfold buildKdTree
  split_ifs with h <;> simp [h]

/-- Seven points in the plane, as integers. -/
def sevenPts (i j : ℕ) : ℤ := if j = 0 then [5, 2, 9, 1, 7, 7, 3].getD i 0 else [1, 8, 4, 4, 0, 6, 2].getD i 0

/-- Case: seven points, leaf size 1. -/
example : ∃ t, buildKdTree (roundedArith (id : ℤ → ℤ)) 0 sevenPts 2 7 1 = some t ∧ entries 7 t.idx = [6, 3, 1, 4, 0, 2, 5] ∧
    numNodes 7 1 = 7 ∧ (List.range 7).map t.start = [0, 0, 3, 0, 1, 3, 5] ∧ t.lo 1 0 = 1 ∧ t.hi 1 0 = 3 := ⟨_, rfl, by decide +kernel⟩

/-! ### C58: selection -/

/-- C58: `_introselect` rearranges the range and puts the entry of rank `nth` in place: nothing before it is larger, nothing
after it is smaller, in the order of `_compare_indices`. -/
theorem C58_introselect (pts : ℕ → ℕ → R) (axis : ℕ) (a : ℕ → ℕ) (left right nth : ℕ) (h1 : left ≤ nth) (h2 : nth < right) :
    let a' := introselect (idxKey pts axis) left right nth a
    ((List.range' left (right - left)).map a').Perm ((List.range' left (right - left)).map a) ∧
      (∀ x, ¬ (left ≤ x ∧ x < right) → a' x = a x) ∧
      (∀ x, left ≤ x → x ≤ nth → compareIndices pts axis (a' x) (a' nth) ≤ 0) ∧
      (∀ x, nth ≤ x → x < right → compareIndices pts axis (a' x) (a' nth) ≥ 0) := by
  obtain ⟨p, s⟩ := introselect_spec (idxKey pts axis) a left right nth h1 h2
  refine ⟨p.perm, p.out, fun x h3 h4 => ?_, fun x h3 h4 => ?_⟩
  · have := s.below x h3 h4
    by_contra hc
    exact absurd ((compareIndices_pos pts axis _ _).1 (not_le.1 hc)) (not_lt.2 this)
  · have := s.above x h3 h4
    by_contra hc
    exact absurd ((compareIndices_neg pts axis _ _).1 (not_le.1 hc)) (not_lt.2 this)

/-- Case: twenty numbers, so that the pivoting branch is taken. -/
example : (introselect (idxKey (fun i _ => (i * 7) % 20) 0) 0 20 10 id) 10 = 10 * 3 % 20 := by decide +kernel

/-! ### C59: occupancy -/

/-- C59: with more samples than the leaf size, every leaf holds at least `leafSize` and at most `2 * leafSize` points. -/
theorem C59_leaf_occupancy (ar : Arith R W) (zero : R) (pts : ℕ → ℕ → R) (dims n leafSize : ℕ) (hl : 1 ≤ leafSize) (hn : leafSize < n)
    (t : KdTree R) (ht : buildKdTree ar zero pts dims n leafSize = some t) (v d : ℕ) (hv : t.Node v d) (hleaf : t.leaf v = true) :
    leafSize ≤ t.stop v - t.start v ∧ t.stop v - t.start v ≤ 2 * leafSize := by
  obtain ⟨t', e, h⟩ := buildKdTree_valid ar zero pts dims n leafSize (by omega) hl
  rw [ht] at e
  cases e
  exact leaf_occupancy hl hn h hv hleaf

/-- Case: the leaves of seven points with leaf size 2 are nodes 1 and 2, with three and four points. -/
example : ∃ t, buildKdTree (roundedArith (id : ℤ → ℤ)) 0 sevenPts 2 7 2 = some t ∧ (List.range 3).map t.leaf = [false, true, true] ∧
    (List.range 3).map (fun v => t.stop v - t.start v) = [7, 3, 4] := ⟨_, rfl, by decide +kernel⟩

/-! ### C37 -/

/-- C37, for at most 32768 neighbours: on a tree built over any data, the query returns `k` candidates in ascending order.  They
are the smallest among the distances from the query point to all `n` samples, each with its sample, and `k` paddings
`(rt +inf, -1)`.  `rt` is the square root, or the identity.  For more neighbours see `C56_push_hangs`. -/
theorem C37_knn_partial [OrderTop W] {ar : Arith R W} (ha : ar.Lawful) {rt : W → W} (hrt : Monotone rt) (zero : R) (pts : ℕ → ℕ → R)
    (dims n leafSize : ℕ) (hn : 0 < n) (hl : 1 ≤ leafSize) (k : ℕ) (hk : k ≤ 32768) (h0 : 0 < k) (pt : ℕ → R) :
    ∃ t out, buildKdTree ar zero pts dims n leafSize = some t ∧
      treeQuery ar rt dims pts t (numNodes n leafSize) k pt = some out ∧ out.length = k ∧ out.Pairwise (fun x y => x.1 ≤ y.1) ∧
      SmallestOf out (List.replicate k (rt ⊤, none) ++ (List.range n).map fun q => (rt (rdist ar dims pt (pts q)), some q)) := by
  obtain ⟨t, e, h⟩ := buildKdTree_valid ar zero pts dims n leafSize hn hl
  obtain ⟨out, e', h'⟩ := treeQuery_spec ha hrt dims pts h hk h0 pt
  exact ⟨t, out, e, e', h'⟩

/-- Case: the three nearest of seven points, and padding when there are too few. -/
example : ∃ t, buildKdTree (roundedArith (id : ℤ → ℤ)) 0 sevenPts 2 7 1 = some t ∧
    treeQuery (roundedArith (id : ℤ → ℤ)) id 2 sevenPts t 7 3 (sevenPts 0) = some [(0, some 0), (5, some 4), (5, some 6)] ∧
    (treeQuery (roundedArith (id : ℤ → ℤ)) id 2 sevenPts t 7 8 (sevenPts 0)).map (fun l => l.getD 7 (0, some 0)) = some (⊤, none) :=
  ⟨_, rfl, by decide +kernel⟩

end Verif
