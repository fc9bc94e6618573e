import Mathlib.Data.Int.Log
import Mathlib.Data.Rat.Floor

/-! Rounding of the arithmetic of Python floats (IEEE 754, 53 binary digits, to the nearest, ties to even). Overflow and numbers so small that they have fewer digits are not modelled. The rest of the model
computes exactly; this file is for the places where rounding changes what can be observed. -/

namespace Bart

/-- The nearest integer, the even one of two. -/
def roundEven (x : ℚ) : ℤ := if x - ⌊x⌋ < 1 / 2 ∨ (x - ⌊x⌋ = 1 / 2 ∧ ⌊x⌋ % 2 = 0) then ⌊x⌋ else ⌊x⌋ + 1

/-- The exponent of the last of the 53 digits. -/
def lastDigit (x : ℚ) : ℤ := Int.log 2 |x| - 52

/-- What a float operation with the exact result `x` returns. -/
def round64 (x : ℚ) : ℚ := roundEven (x / 2 ^ lastDigit x) * 2 ^ lastDigit x

/-- bartpy/samplers/modelsampler.py:49 `thin_inverse = 1. / thin`. (`ss % thin_inverse` in line 53 is exact for floats.) -/
def thinInverse (thin : ℚ) : ℚ := round64 (1 / thin)

end Bart
