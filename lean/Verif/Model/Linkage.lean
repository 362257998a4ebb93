import Verif.Spec.Dendrogram
import Mathlib.Data.List.Sort
import Mathlib.Logic.Function.Basic

/-!
# Model of the single linkage part of `fast_hdbscan/cluster_trees.py`
-/

namespace Verif
variable {W S : Type*}

/-- `LinkageMergeData`, cluster_trees.py:15 with the rows written so far; `-1` in `parent` is `none`. -/
structure LinkState (W S : Type*) where
  parent : ℕ → Option ℕ
  size : ℕ → S
  next : ℕ
  rows : List (LRow W S)

/-- First loop of `linkage_merge_find`, cluster_trees.py:41-42 (fuel first). -/
def linkRoot : ℕ → (ℕ → Option ℕ) → ℕ → ℕ
  | 0, _, x => x
  | f + 1, p, x =>
    match p x with
    | none => x
    | some y => if y ≠ x then linkRoot f p y else x

/-- Second loop of `linkage_merge_find`, cluster_trees.py:47-50 (fuel first).  Reading `-1` as next node cannot happen here;
the model then stops. -/
def linkRelabel : ℕ → (ℕ → Option ℕ) → ℕ → ℕ → (ℕ → Option ℕ)
  | 0, p, _, _ => p
  | f + 1, p, node, x =>
    if p x ≠ some node then
      match p x with
      | none => p
      | some y => linkRelabel f (Function.update p x (some node)) node y
    else p

/-- `linkage_merge_find`, cluster_trees.py:38-52, on arrays of length `m`. -/
def linkFind (m : ℕ) (p : ℕ → Option ℕ) (x : ℕ) : (ℕ → Option ℕ) × ℕ :=
  let node := linkRoot m p x
  (linkRelabel m (Function.update p node (some node)) node x, node)

/-- Loop body of `mst_to_linkage_tree` with `linkage_merge_join`, cluster_trees.py:56-62, 72-93 and, for sample weights,
105-125.  `m = 2n - 1` is the length of the arrays. -/
def linkStep [Add S] (m : ℕ) (st : LinkState W S) (e : Edge W) : LinkState W S :=
  let fl := linkFind m st.parent e.u
  let fr := linkFind m fl.1 e.v
  let a := fl.2
  let b := fr.2
  let row : LRow W S :=
    if a > b then ⟨a, b, e.w, st.size a + st.size b⟩ else ⟨b, a, e.w, st.size a + st.size b⟩
  { parent := Function.update (Function.update fr.1 a (some st.next)) b (some st.next)
    size := Function.update st.size st.next (st.size a + st.size b)
    next := st.next + 1
    rows := st.rows ++ [row] }

/-- `create_linkage_merge_data`, `create_linkage_merge_data_w_sample_weights`, cluster_trees.py:18-35. -/
def linkInit [Zero S] (n : ℕ) (wt : ℕ → S) : LinkState W S :=
  ⟨fun _ => none, fun x => if x < n then wt x else 0, n, []⟩

/-- `mst_to_linkage_tree_w_sample_weights`, cluster_trees.py:98-127; `mst_to_linkage_tree` (65-95) is the case of
constant weight one. -/
def mstToLinkage [Add S] [Zero S] (wt : ℕ → S) (mst : List (Edge W)) : List (LRow W S) :=
  let n := mst.length + 1
  (mst.foldl (linkStep (2 * n - 1)) (linkInit n wt)).rows

/-- The row order of `np.lexsort((v, u, weight))`, hdbscan.py:511-519: by weight, then first, then second endpoint. -/
def lexLe [LinearOrder W] (a b : Edge W) : Prop :=
  a.w < b.w ∨ a.w = b.w ∧ (a.u < b.u ∨ a.u = b.u ∧ a.v ≤ b.v)

instance [LinearOrder W] : DecidableRel (lexLe (W := W)) := fun a b => by
  unfold lexLe; infer_instance

/-- `sorted_mst`, hdbscan.py:511-519. -/
def lexsortMst [LinearOrder W] (mst : List (Edge W)) : List (Edge W) := mst.insertionSort lexLe

end Verif
