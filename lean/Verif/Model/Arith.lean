import Verif.Model.Base
import Mathlib.Algebra.Order.Field.Basic

/-! IEEE-style arithmetic on `Fl K` and the mathematical functions of numpy that the code calls.

Simplifications: no rounding, no overflow, and a single zero (`x / 0` is `+inf` for `x > 0`, `-inf` for `x < 0`). -/

namespace Bart

/-- The functions `np.log`, `np.sqrt`, `np.power(_, _)` on finite arguments. Theorems that do not depend on their meaning are proved
for every implementation; the others use the instance for the reals in `Verif/Model/RealFns.lean`. -/
class MathFns (K : Type) where
  log : K → Fl K
  sqrt : K → Fl K
  pow : K → K → Fl K

namespace Fl
variable {K : Type} [Field K] [LinearOrder K]

/-- IEEE `-a`. -/
def neg : Fl K → Fl K
  | .nan => .nan
  | .ninf => .pinf
  | .pinf => .ninf
  | .fin a => .fin (-a)

/-- IEEE `a + b`. -/
def add : Fl K → Fl K → Fl K
  | .nan, _ => .nan
  | _, .nan => .nan
  | .pinf, .ninf => .nan
  | .ninf, .pinf => .nan
  | .pinf, _ => .pinf
  | _, .pinf => .pinf
  | .ninf, _ => .ninf
  | _, .ninf => .ninf
  | .fin a, .fin b => .fin (a + b)

/-- IEEE `a - b`. -/
def sub (a b : Fl K) : Fl K := add a (neg b)

/-- An infinity with the sign of `a` (NaN for 0). -/
def infSign (a : K) : Fl K := if 0 < a then .pinf else if a < 0 then .ninf else .nan

/-- IEEE `a * b`. -/
def mul : Fl K → Fl K → Fl K
  | .nan, _ => .nan
  | _, .nan => .nan
  | .fin a, .fin b => .fin (a * b)
  | .fin a, .pinf => infSign a
  | .fin a, .ninf => infSign (-a)
  | .pinf, .fin b => infSign b
  | .ninf, .fin b => infSign (-b)
  | .pinf, .pinf => .pinf
  | .ninf, .ninf => .pinf
  | .pinf, .ninf => .ninf
  | .ninf, .pinf => .ninf

/-- IEEE `a / b`. -/
def div : Fl K → Fl K → Fl K
  | .nan, _ => .nan
  | _, .nan => .nan
  | .fin a, .fin b => if b = 0 then infSign a else .fin (a / b)
  | .fin _, .pinf => .fin 0
  | .fin _, .ninf => .fin 0
  | .pinf, .fin b => if b < 0 then .ninf else .pinf
  | .ninf, .fin b => if b < 0 then .pinf else .ninf
  | .pinf, .pinf => .nan
  | .ninf, .ninf => .nan
  | .pinf, .ninf => .nan
  | .ninf, .pinf => .nan

/-- `np.log`. -/
def log [MathFns K] : Fl K → Fl K
  | .fin a => MathFns.log a
  | .pinf => .pinf
  | .ninf => .nan
  | .nan => .nan

/-- `np.sqrt`. -/
def sqrt [MathFns K] : Fl K → Fl K
  | .fin a => MathFns.sqrt a
  | .pinf => .pinf
  | .ninf => .nan
  | .nan => .nan

/-- An integer as a float. -/
def ofInt (k : Int) : Fl K := .fin (k : K)

end Fl

/-- A finite number; storing NaN or an infinity as a leaf value or sigma is reported as the error `nonFinite` (numpy would carry on
with it; such states are not modelled). -/
def Fl.toFinite {K : Type} : Fl K → Except PyErr K
  | .fin a => .ok a
  | _ => .error .nonFinite

end Bart
