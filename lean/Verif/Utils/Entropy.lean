import Verif.Common
import Mathlib.Analysis.SpecialFunctions.Log.Base

/-!
# Model of the entropy and the Gini index (`base/utils.py` 185-231)

Probabilities and logarithms are real numbers.
-/

namespace Verif.Ut

open Classical

/-- `entropy` (utils.py 188-196); of a dict the values are taken.  `math.log` of a negative number raises `ValueError`. -/
noncomputable def entropy (p : List ℝ) : Except Err ℝ :=
  if ∃ q ∈ p, q < 0 then .error .valueError
  else .ok |-(p.map (fun q => if q = 0 then 0 else Real.logb 2 q * q)).sum|

/-- `max_entropy` (utils.py 199-205). -/
noncomputable def maxEntropy (n : ℤ) : Except Err ℝ := entropy ((List.range n.toNat).map fun _ => 1 / (n : ℝ))

/-- `rel_entropy` (utils.py 208-215). -/
noncomputable def relEntropy (p : List ℝ) : Except Err ℝ :=
  if p.length = 1 then .ok 0
  else do
    let e ← entropy p
    let m ← maxEntropy p.length
    if m = 0 then .error .zeroDivision else .ok (e / m)

/-- `gini` (utils.py 222-226): the mean; `none` is the NaN that `np.mean` returns for an empty list. -/
noncomputable def gini (p : List ℝ) : Option ℝ :=
  if p.length = 0 then none else some ((p.map (fun q => q * (1 - q))).sum / p.length)

end Verif.Ut
