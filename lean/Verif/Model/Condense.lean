import Verif.Model.Linkage
import Verif.Spec.Condensed
import Mathlib.Order.Lattice

/-!
# Model of `condense_tree` in `fast_hdbscan/cluster_trees.py`

The hierarchy (linkage table) is read through four column arrays; `m` is the number of its rows.  Not modelled: float32
rounding of counts and lambdas, `fastmath` rewriting.
-/

namespace Verif
variable {W S L : Type*}

/-- A linkage table as column arrays (total functions, rows `0 … m-1`). -/
structure Hier (W S : Type*) where
  m : ℕ
  l : ℕ → ℕ
  r : ℕ → ℕ
  d : ℕ → W
  s : ℕ → S

/-- Reading the columns of a list of rows (defaults are never used for indices in range). -/
def Hier.ofRows [Inhabited W] [Inhabited S] (rows : List (LRow W S)) : Hier W S where
  m := rows.length
  l i := (rows[i]?.map LRow.l).getD 0
  r i := (rows[i]?.map LRow.r).getD 0
  d i := (rows[i]?.map LRow.d).getD default
  s i := (rows[i]?.map LRow.s).getD default

/-- `num_points`, cluster_trees.py:215. -/
def Hier.n (H : Hier W S) : ℕ := H.m + 1

/-- `root`, cluster_trees.py:214. -/
def Hier.root (H : Hier W S) : ℕ := 2 * H.m

/-- The two appends of `bfs_from_hierarchy`, cluster_trees.py:139-142. -/
def Hier.kids (H : Hier W S) (v : ℕ) : List ℕ :=
  if H.n ≤ v then [H.l (v - H.n), H.r (v - H.n)] else []

/-- The `while` loop of `bfs_from_hierarchy`, cluster_trees.py:135-143 (fuel first). -/
def Hier.bfsAux (H : Hier W S) : ℕ → List ℕ → List ℕ
  | 0, _ => []
  | _ + 1, [] => []
  | f + 1, a :: as => (a :: as) ++ H.bfsAux f ((a :: as).flatMap H.kids)

/-- `bfs_from_hierarchy`, cluster_trees.py:130-145. Children have smaller ids, so `v + 1` levels suffice. -/
def Hier.bfs (H : Hier W S) (v : ℕ) : List ℕ := H.bfsAux (v + 1) [v]

/-- Variables of `condense_tree`; the four output arrays up to `idx` are the list `rows`. -/
structure CondState (L S : Type*) where
  relabel : ℕ → ℕ
  ignore : ℕ → Bool
  rows : List (CRow L S)
  next : ℕ

/-- One iteration of the loop of `eliminate_branch`, cluster_trees.py:168-175.  `sizes[idx]` keeps its initial value 1. -/
def elimStep [One S] (n p : ℕ) (lv : L) (st : CondState L S) (u : ℕ) : CondState L S :=
  if u < n then { st with rows := st.rows ++ [⟨p, u, lv, 1⟩] }
  else { st with ignore := Function.update st.ignore u true }

/-- `eliminate_branch`, cluster_trees.py:148-177. -/
def eliminateBranch [One S] (H : Hier W S) (p : ℕ) (lv : L) (st : CondState L S) (v : ℕ) : CondState L S :=
  if v < H.n then { st with rows := st.rows ++ [⟨p, v, lv, 1⟩] }
  else (H.bfs v).foldl (elimStep H.n p lv) st

/-- `left_count`, `right_count`, cluster_trees.py:250-259. -/
def Hier.count (H : Hier W S) (wt : ℕ → S) (v : ℕ) : S := if H.n ≤ v then H.s (v - H.n) else wt v

/-- Loop body of `condense_tree`, cluster_trees.py:236-350.  `mx = none` is `max_cluster_size = inf`; `lam` is
`hdbscan_lambda_value` or `plscan_lambda_value`. -/
def condenseStep [LinearOrder S] [One S] (H : Hier W S) (wt : ℕ → S) (mcs : S) (mx : Option S) (lam : W → L)
    (st : CondState L S) (v : ℕ) : CondState L S :=
  if st.ignore v ∨ v < H.n then st else
  let p := st.relabel v
  let a := H.l (v - H.n)
  let b := H.r (v - H.n)
  let lv := lam (H.d (v - H.n))
  let ca := H.count wt a
  let cb := H.count wt b
  if a < H.n ∧ mcs ≤ cb then
    { st with relabel := Function.update st.relabel b p, rows := st.rows ++ [⟨p, a, lv, 1⟩] }
  else if ca < mcs ∧ mcs ≤ cb then
    eliminateBranch H p lv { st with relabel := Function.update st.relabel b p } a
  else if mcs ≤ ca ∧ cb < mcs then
    eliminateBranch H p lv { st with relabel := Function.update st.relabel a p } b
  else if ca < mcs ∧ cb < mcs then
    eliminateBranch H p lv (eliminateBranch H p lv st a) b
  else if mx.any (fun x => x < ca ∧ x < cb) then
    { st with relabel := Function.update (Function.update st.relabel a p) b p }
  else
    { st with
      relabel := Function.update (Function.update st.relabel a st.next) b (st.next + 1)
      rows := st.rows ++ [⟨p, st.next, lv, ca⟩, ⟨p, st.next + 1, lv, cb⟩]
      next := st.next + 2 }

/-- Initial values, cluster_trees.py:214-234. -/
def condenseInit (H : Hier W S) : CondState L S :=
  ⟨Function.update (fun _ => 0) H.root H.n, fun _ => false, [], H.n + 1⟩

/-- `condense_tree`, cluster_trees.py:205-352. -/
def condenseTree [LinearOrder S] [One S] (H : Hier W S) (wt : ℕ → S) (mcs : S) (mx : Option S) (lam : W → L) :
    List (CRow L S) :=
  ((H.bfs H.root).foldl (condenseStep H wt mcs mx lam) (condenseInit H)).rows

end Verif
