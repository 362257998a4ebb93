import Verif.Model.Fit

/-!
# Model of the checks of sample weights and labels, hdbscan.py

Single-precision numbers are elements of any type with the two tests that the code makes: finite, and equal to zero.
-/

namespace Verif
variable {α F : Type*}

/-- A value for `sample_weight`: a number, or an array with its shape. -/
inductive SwInput (F : Type*)
  | scalar (x : F)
  | array (shape : List ℕ) (vals : List F)

/-- The errors raised for sample weights: by `check_array` (too many dimensions, entries not finite, no dimension, empty), and by
`_check_sample_weight` itself. -/
inductive SwError
  | tooManyDims
  | notFinite
  | noDims
  | empty
  | notOneDim
  | wrongLength
  | allZero
  deriving DecidableEq

/-- `check_array` of scikit-learn with `ensure_2d=False`, called in hdbscan.py:58-66 (the tests in their order; conversion to single precision is left out). -/
def checkArray1 (isFinite : F → Bool) (shape : List ℕ) (vals : List F) : Except SwError (List F) :=
  if 3 ≤ shape.length then .error .tooManyDims
  else if !vals.all isFinite then .error .notFinite
  else match shape with
    | [] => .error .noDims
    | 0 :: _ => .error .empty
    | _ => .ok vals

/-- `_check_sample_weight`, hdbscan.py:44-90, with the default options, which all callers use. -/
def checkSampleWeight (isFinite isZero : F → Bool) (sw : SwInput F) (n : ℕ) : Except SwError (List F) :=
  let r : Except SwError (List F) := match sw with
    | .scalar x => .ok (List.replicate n x)
    | .array shape vals =>
      match checkArray1 isFinite shape vals with
      | .error e => .error e
      | .ok v => if shape.length ≠ 1 then .error .notOneDim else if shape ≠ [n] then .error .wrongLength else .ok v
  match r with
  | .error e => .error e
  | .ok v => if v.all isZero then .error .allZero else .ok v

/-- The sample weights on their way through `HDBSCAN.fit`, hdbscan.py:744-757, 765-778, and `fast_hdbscan`, hdbscan.py:234-237: checked, reduced to the finite
rows, and checked again. -/
def fitWeights (isFinite isZero : F → Bool) (finite : α → Bool) (sw : SwInput F) (X : List α) : Except SwError (List F) :=
  match checkSampleWeight isFinite isZero sw X.length with
  | .error e => .error e
  | .ok v =>
    let idx := finiteIndex finite X
    let P := if X.all finite then X else takeRows X idx
    let v := if X.all finite then v else takeRows v idx
    checkSampleWeight isFinite isZero (.array [v.length] v) P.length

/-- The errors raised for labels. -/
inductive LabelError
  | wrongLength
  | notFinite
  | noLabel
  deriving DecidableEq

/-- The labels on their way through `HDBSCAN.fit` with `semi_supervised=True`, hdbscan.py:733-763; `none` is a label that is not finite.  (`check_X_y` compares the
lengths.) -/
def fitLabels (finite : α → Bool) (y : List (Option ℤ)) (X : List α) : Except LabelError (List ℤ) :=
  if y.length ≠ X.length then .error .wrongLength
  else
    let y := y.map fun l => l.getD (-1)
    if !y.any (fun l => decide (l ≠ -1)) then .error .noLabel
    else .ok (if X.all finite then y else takeRows y (finiteIndex finite X))

/-- The same for `metric='precomputed'` with `n` nodes, hdbscan.py:700-729, for a one-dimensional array of labels. -/
def precomputedLabels (y : List (Option ℤ)) (n : ℕ) : Except LabelError (List ℤ) :=
  if !y.all Option.isSome then .error .notFinite
  else
    let l := y.map fun l => l.getD (-1)
    if l.length ≠ n then .error .wrongLength
    else if !l.any (fun l => decide (l ≠ -1)) then .error .noLabel
    else .ok l

end Verif
