import Mathlib.Data.Int.Log
import Mathlib.Data.Rat.Floor

/-! Floats (specification): the numbers with 53 binary digits. -/

namespace Bart.Spec

/-- A number with at most 53 binary digits. -/
def IsDouble (x : ℚ) : Prop := ∃ m e : ℤ, |m| < 2 ^ 53 ∧ x = m * 2 ^ e

/-- The float that is written as the decimal number `x`, or the result of an operation whose exact result is `x`: no float is nearer to `x` than `d`, and no other is as near. (There is none for the `x` in the
middle between two floats, where IEEE 754 takes the one whose last digit is 0.) -/
def IsNearest (x d : ℚ) : Prop := IsDouble d ∧ ∀ d', IsDouble d' → d' ≠ d → |x - d| < |x - d'|

end Bart.Spec
