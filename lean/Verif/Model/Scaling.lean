import Verif.Model.Double

/-! Scaling of the target with rounding (bartpy/data.py:231-258). `fl` is what a float operation makes of its exact result; 0.5 is a float. -/

namespace Bart.Rounding
variable {K : Type} [Field K]

/-- bartpy/data.py:252-253 `normalize_y` for one target, with the least and the largest target `lo` and `hi`. -/
def normalize (fl : K → K) (lo hi y : K) : K := fl (-(1 / 2) + fl (fl (y - lo) / fl (hi - lo)))

/-- bartpy/data.py:255-258 `unnormalize_y` for one number. -/
def unnormalize (fl : K → K) (lo hi z : K) : K := fl (lo + fl (fl (z - -(1 / 2)) * fl (hi - lo)))

end Bart.Rounding
