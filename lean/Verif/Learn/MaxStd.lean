import Verif.Common
import Mathlib.Analysis.Real.Sqrt

/-!
# Model of the limit on standard deviations

`NumericVariable._max_std` (variables.py 262-271), `get_max_variances_from_tree` and `check_max_variances`
(learning/impurity.pyx 621-626, 643-654).  The only call of the latter is commented out (impurity.pyx 836).  Numbers are
real.
-/

namespace Verif.Learn

/-- A numeric variable: the setting `max_std`, and the mean and scale of its domain if that is a `ScaledNumeric`. -/
structure NumVar where
  maxStd : ℝ
  scaler : Option (ℝ × ℝ)

/-- `_max_std` (variables.py 262-267). -/
noncomputable def NumVar.maxStdValue (v : NumVar) : ℝ :=
  match v.scaler with
  | some (_, scale) => v.maxStd / √scale
  | none => v.maxStd

/-- `get_max_variances_from_tree` (impurity.pyx 621-626) for the numeric variables of a tree. -/
noncomputable def maxVariances (vs : List NumVar) : List ℝ := vs.map fun v => v.maxStdValue ^ 2

open Classical in
/-- `check_max_variances` (impurity.pyx 643-654), with one variance for each numeric variable. -/
noncomputable def checkMaxVariances (limits variances : List ℝ) : Bool :=
  (variances.zip limits).any fun p => decide (p.1 > p.2)

end Verif.Learn
