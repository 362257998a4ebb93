import Mathlib.Algebra.Order.Field.Basic
import Mathlib.Order.WithBot
import Mathlib.Analysis.Complex.Exponential

/-!
# Model of the lambda functions, cluster_trees.py:192-202

Distances are elements of `WithTop K` (`⊤` is `+inf`); exact arithmetic, no float32 rounding, no `fastmath` rewriting
(`fastmath` formally allows the compiler to assume that no infinities occur, which the code relies on).
-/

namespace Verif

/-- `hdbscan_lambda_value`, cluster_trees.py:192-197; `1 / inf = 0`. -/
def hdbscanLam {K : Type*} [Field K] [LinearOrder K] : WithTop K → WithTop K
  | ⊤ => 0
  | (d : K) => if 0 < d then ((1 / d : K) : WithTop K) else ⊤

/-- `plscan_lambda_value`, cluster_trees.py:200-202; `exp(-inf) = 0`. -/
noncomputable def plscanLam : WithTop ℝ → ℝ
  | ⊤ => 0
  | (d : ℝ) => Real.exp (-d)

end Verif
