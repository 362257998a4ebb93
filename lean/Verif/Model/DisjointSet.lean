import Mathlib.Logic.Function.Basic
import Mathlib.Data.Nat.Notation

/-!
# Model of `fast_hdbscan/disjoint_set.py`

Arrays are total functions; `n` is the number of elements.  Entries at indices `≥ n` keep
their initial value (the code never touches them).
-/

namespace Verif

/-- `RankDisjointSet`, disjoint_set.py:7. -/
structure RankDS where
  parent : ℕ → ℕ
  rank : ℕ → ℕ

/-- `SizeDisjointSet`, disjoint_set.py:8. -/
structure SizeDS where
  parent : ℕ → ℕ
  size : ℕ → ℕ

/-- `ds_rank_create`, disjoint_set.py:11-13 (`np.arange`, `np.zeros`). -/
def dsRankCreate : RankDS := ⟨fun x => x, fun _ => 0⟩

/-- `ds_size_create`, disjoint_set.py:16-18 (`np.arange`, `np.ones`). -/
def dsSizeCreate : SizeDS := ⟨fun x => x, fun _ => 1⟩

/-- The body of the `while` loop of `ds_find`, disjoint_set.py:24:
`x, parent[x] = parent[x], parent[parent[x]]`.  Python evaluates the right-hand sides first and
then assigns from left to right, so the store uses the *new* `x`. -/
def dsFindStep (p : ℕ → ℕ) (x : ℕ) : (ℕ → ℕ) × ℕ :=
  let a := p x
  let b := p (p x)
  (Function.update p a b, a)

/-- `ds_find`, disjoint_set.py:21-26; the first argument is the fuel for the `while` loop.
Returns the parent array after the call together with the result. -/
def dsFindAux : ℕ → (ℕ → ℕ) → ℕ → (ℕ → ℕ) × ℕ
  | 0, p, x => (p, x)
  | f + 1, p, x => if p x ≠ x then dsFindAux f (dsFindStep p x).1 (dsFindStep p x).2 else (p, x)

/-- `ds_find`, disjoint_set.py:21-26, on a structure of `n` elements. -/
def dsFind (n : ℕ) (p : ℕ → ℕ) (x : ℕ) : (ℕ → ℕ) × ℕ := dsFindAux n p x

/-- `ds_union_by_rank`, disjoint_set.py:29-42. -/
def dsUnionByRank (n : ℕ) (d : RankDS) (x y : ℕ) : RankDS :=
  let rx := dsFind n d.parent x
  let ry := dsFind n rx.1 y
  let p := ry.1
  if rx.2 = ry.2 then { d with parent := p } else
  let sw := d.rank rx.2 < d.rank ry.2
  let a := if sw then ry.2 else rx.2
  let b := if sw then rx.2 else ry.2
  { parent := Function.update p b a
    rank := if d.rank a = d.rank b then Function.update d.rank a (d.rank a + 1) else d.rank }

/-- `ds_union_by_size`, disjoint_set.py:45-57. -/
def dsUnionBySize (n : ℕ) (d : SizeDS) (x y : ℕ) : SizeDS :=
  let rx := dsFind n d.parent x
  let ry := dsFind n rx.1 y
  let p := ry.1
  if rx.2 = ry.2 then { d with parent := p } else
  let sw := d.size rx.2 < d.size ry.2
  let a := if sw then ry.2 else rx.2
  let b := if sw then rx.2 else ry.2
  { parent := Function.update p b a
    size := Function.update d.size a (d.size a + d.size b) }

end Verif
