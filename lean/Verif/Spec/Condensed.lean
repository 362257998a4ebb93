import Mathlib.Logic.Relation
import Mathlib.Data.Nat.Notation
import Mathlib.Order.Defs.LinearOrder

/-!
# Independent specification: condensed trees

A condensed tree over samples `0 … n-1` is a list of rows; clusters have ids `n, n+1, …`, the top cluster is `n`.
-/

namespace Verif
variable {L S : Type*}

/-- One row of the condensed tree (`CondensedTree`, cluster_trees.py:180-182): `child` (a sample or a cluster) leaves
cluster `parent` at `lam`. -/
structure CRow (L S : Type*) where
  parent : ℕ
  child : ℕ
  lam : L
  size : S
deriving DecidableEq, Repr

/-- `b` is listed directly below `a`. -/
def CStep (rows : List (CRow L S)) (a b : ℕ) : Prop := ∃ row ∈ rows, row.parent = a ∧ row.child = b

/-- `b` is listed somewhere below `a`, or is `a`. -/
def CDesc (rows : List (CRow L S)) : ℕ → ℕ → Prop := Relation.ReflTransGen (CStep rows)

/-- `rows` is a condensed tree over the samples `0 … n-1` with the `k` clusters `n … n+k-1`. -/
structure CondTree (n k : ℕ) (rows : List (CRow L S)) : Prop where
  /-- there is a top cluster -/
  pos : 0 < k
  /-- nothing is listed twice -/
  nodup : (rows.map CRow.child).Nodup
  /-- exactly the samples and the clusters other than the top one are listed as children -/
  children : ∀ c, c ∈ rows.map CRow.child ↔ c < n ∨ (n < c ∧ c < n + k)
  /-- clusters are listed in ascending order -/
  asc : (rows.map CRow.child).filter (fun c => decide (n ≤ c)) = List.range' (n + 1) (k - 1)
  /-- parents are clusters -/
  parents : ∀ row ∈ rows, n ≤ row.parent ∧ row.parent < n + k
  /-- a parent's id is below that of its child cluster -/
  down : ∀ row ∈ rows, n ≤ row.child → row.parent < row.child
  /-- a cluster's own row precedes the rows below it -/
  order : ∀ (i : ℕ) (row : CRow L S), rows[i]? = some row →
    row.parent = n ∨ ∃ (j : ℕ) (row' : CRow L S), j < i ∧ rows[j]? = some row' ∧ row'.child = row.parent

/-- Every cluster has no child cluster, or exactly two, with consecutive ids, leaving at the same lambda. -/
def CBinary (n k : ℕ) (rows : List (CRow L S)) : Prop :=
  ∀ c, n ≤ c → c < n + k →
    (rows.filter fun row => decide (n ≤ row.child ∧ row.parent = c)) = [] ∨
    ∃ a lv s t, (a - n) % 2 = 1 ∧
      (rows.filter fun row => decide (n ≤ row.child ∧ row.parent = c)) = [⟨c, a, lv, s⟩, ⟨c, a + 1, lv, t⟩]

/-- Nothing leaves a cluster at a smaller lambda than the cluster itself appeared at. -/
def CMono [LE L] (rows : List (CRow L S)) : Prop :=
  ∀ row ∈ rows, ∀ row' ∈ rows, row'.parent = row.child → row.lam ≤ row'.lam

end Verif
