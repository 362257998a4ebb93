import Verif.Model.KdTree
import Verif.Spec.Nearest

/-!
# Specification of the KD-tree
-/

namespace Verif
variable {R W : Type*} [LinearOrder R] [LinearOrder W]

/-- What is assumed of the arithmetic.  Exact arithmetic satisfies this, and so does arithmetic that rounds every result, as long as
rounding is monotone, idempotent and symmetric about 0 (`roundedArith_lawful`). -/
structure Arith.Lawful (ar : Arith R W) : Prop where
  diff_mono : ∀ a b c, a ≤ b → b ≤ c → ar.diff b a ≤ ar.diff c a ∧ ar.diff c b ≤ ar.diff c a
  diff_nonneg : ∀ a b, a ≤ b → ar.zero ≤ ar.diff b a
  sq_symm : ∀ a b, ar.sq (ar.diff a b) = ar.sq (ar.diff b a)
  sq_nonneg : ∀ x, ar.zero ≤ x → ar.zero ≤ ar.sq x
  sq_mono : ∀ x y, ar.zero ≤ x → x ≤ y → ar.sq x ≤ ar.sq y
  add_mono : ∀ a b c d, ar.zero ≤ a → a ≤ b → ar.zero ≤ c → c ≤ d → ar.add a c ≤ ar.add b d
  add_nonneg : ∀ a b, ar.zero ≤ a → ar.zero ≤ b → ar.zero ≤ ar.add a b
  add_zero : ∀ a b, a ≤ b → ar.add (ar.diff b a) ar.zero ≤ ar.diff b a
  zero_add : ∀ a b, a ≤ b → ar.add ar.zero (ar.diff b a) ≤ ar.diff b a
  zero_zero : ar.add ar.zero ar.zero ≤ ar.zero

/-- The box of node `v` is the smallest that contains the points `idx[s:e]`. -/
structure KdTree.Box (t : KdTree R) (pts : ℕ → ℕ → R) (dims v s e : ℕ) : Prop where
  inside : ∀ i, s ≤ i → i < e → ∀ j < dims, t.lo v j ≤ pts (t.idx i) j ∧ pts (t.idx i) j ≤ t.hi v j
  tight : ∀ j < dims, (∃ i, s ≤ i ∧ i < e ∧ pts (t.idx i) j = t.lo v j) ∧ (∃ i, s ≤ i ∧ i < e ∧ pts (t.idx i) j = t.hi v j)

/-- Some feature separates the points `idx[s:m]` from the points `idx[m:e]`. -/
def KdTree.Split (t : KdTree R) (pts : ℕ → ℕ → R) (dims s m e : ℕ) : Prop :=
  ∃ axis, (axis < dims ∨ axis = 0) ∧
    ∀ i i', s ≤ i → i < m → m ≤ i' → i' < e → pts (t.idx i) axis ≤ pts (t.idx i') axis

/-- The tree below node `v` is stored within the arrays of length `nNodes` and splits the range `[s, e)`, which is not empty,
in halves down to the leaves; a node is a leaf only if there is no room for children or only one point. -/
inductive KdTree.Covers (t : KdTree R) (pts : ℕ → ℕ → R) (dims nNodes : ℕ) : (v s e : ℕ) → Prop
  | leaf (v s e : ℕ) : v < nNodes → s < e → t.start v = s → t.stop v = e → t.leaf v = true → t.Box pts dims v s e →
      (nNodes ≤ 2 * v + 1 ∨ e = s + 1) → KdTree.Covers t pts dims nNodes v s e
  | node (v s m e : ℕ) : v < nNodes → t.start v = s → t.stop v = e → t.leaf v = false → t.Box pts dims v s e →
      m = s + (e - s) / 2 → t.Split pts dims s m e →
      KdTree.Covers t pts dims nNodes (2 * v + 1) s m → KdTree.Covers t pts dims nNodes (2 * v + 2) m e →
      KdTree.Covers t pts dims nNodes v s e

/-- Everything that is claimed of a tree over `n` points. -/
structure KdTree.Valid (t : KdTree R) (pts : ℕ → ℕ → R) (dims n nNodes : ℕ) : Prop where
  perm : (entries n t.idx).Perm (List.range n)
  covers : t.Covers pts dims nNodes 0 0 n

/-- The nodes of the tree, with their depth. -/
inductive KdTree.Node (t : KdTree R) : (v depth : ℕ) → Prop
  | root : KdTree.Node t 0 0
  | left (v k : ℕ) : KdTree.Node t v k → t.leaf v = false → KdTree.Node t (2 * v + 1) (k + 1)
  | right (v k : ℕ) : KdTree.Node t v k → t.leaf v = false → KdTree.Node t (2 * v + 2) (k + 1)

end Verif
