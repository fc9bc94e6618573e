import Verif.Model.Arith
import Mathlib.Analysis.SpecialFunctions.Pow.Real
import Mathlib.Analysis.SpecialFunctions.Log.Basic

/-! The functions of numpy on the reals. -/

namespace Bart

/-- `np.log`, `np.sqrt`, `np.power` on finite floats: `log 0 = -inf`, `log x = nan` for `x < 0`, `sqrt x = nan` for `x < 0`. The code raises
only nonnegative numbers to a power, except when `n_trees`, the depth or a variance is negative (never) or a gamma draw is; for a negative
base the result is given as NaN (numpy's answer for a non-integer exponent). -/
noncomputable instance realFns : MathFns ℝ where
  log x := if 0 < x then .fin (Real.log x) else if x = 0 then .ninf else .nan
  sqrt x := if 0 ≤ x then .fin (Real.sqrt x) else .nan
  pow x y := if 0 < x then .fin (x ^ y) else if x = 0 then (if 0 < y then .fin 0 else if y = 0 then .fin 1 else .pinf) else .nan

end Bart
