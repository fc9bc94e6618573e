import Mathlib.Order.Defs.LinearOrder
import Mathlib.Order.Basic

/-!
# Base types of the model

* `PyErr`: the Python exceptions that the modelled code can raise.
* `Fl K`: a feature value / float: NaN, -inf, a finite number from `K`, +inf, with IEEE comparisons.
* `choice`: `np.random.choice(l)` driven by an explicit draw.

Rounding of floats is not modelled: finite numbers are exact elements of `K`.
-/

namespace Bart

/-- Python exceptions (and, for loops that need not end, `outOfDraws`: the supplied list of random draws is used up
while the code is still looping; `recursionError`: unbounded recursion). -/
inductive PyErr where
  | typeError
  | valueError
  | keyError
  | indexError
  | attributeError
  | recursionError
  | zeroDivision
  | notImplemented
  | runtimeError
  | noSplittableVariable   -- bartpy/errors.py:2-3
  | noPrunableNode         -- bartpy/errors.py:6-7
  | outOfDraws
  | nonFinite              -- a NaN or infinity would be stored (not a Python exception, see Verif/Model/Arith.lean)
  deriving DecidableEq, Repr

/-- Extended floats with exact finite part. -/
inductive Fl (K : Type) where
  | nan
  | ninf
  | fin (k : K)
  | pinf
  deriving DecidableEq, Repr

namespace Fl
variable {K : Type} [LinearOrder K]

/-- IEEE `a < b` (false as soon as one side is NaN). -/
def lt : Fl K → Fl K → Bool
  | .nan, _ => false
  | _, .nan => false
  | .ninf, .ninf => false
  | .ninf, _ => true
  | .fin _, .ninf => false
  | .fin a, .fin b => decide (a < b)
  | .fin _, .pinf => true
  | .pinf, _ => false

/-- IEEE `a <= b` (false as soon as one side is NaN). -/
def le : Fl K → Fl K → Bool
  | .nan, _ => false
  | _, .nan => false
  | .ninf, _ => true
  | .fin _, .ninf => false
  | .fin a, .fin b => decide (a ≤ b)
  | .fin _, .pinf => true
  | .pinf, .pinf => true
  | .pinf, _ => false

/-- IEEE `a > b`. -/
def gt (a b : Fl K) : Bool := lt b a

/-- IEEE `a == b` (NaN differs from everything). -/
def eq : Fl K → Fl K → Bool
  | .nan, _ => false
  | _, .nan => false
  | a, b => decide (a = b)

/-- IEEE `a != b`. -/
def ne (a b : Fl K) : Bool := !(eq a b)

/-- `isNaN` -/
def isNan : Fl K → Bool
  | .nan => true
  | _ => false

end Fl

/-- `np.random.choice(l)` (also `np.random.choice(l, 1)[0]`): the draw `u` selects the entry `u mod len(l)`; every entry is
selected by some draw. `np.random.choice([])` raises ValueError. -/
def choice {α : Type} (l : List α) (u : Nat) : Except PyErr α :=
  match l[u % l.length]? with
  | some a => .ok a
  | none => .error .valueError

end Bart
