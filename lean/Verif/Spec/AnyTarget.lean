import Verif.Model.Base
import Mathlib.Algebra.Field.Defs

/-! Which targets can be scaled to an interval (specification). -/

namespace Bart.Spec
variable {K : Type} {n : Nat}

/-- The target cannot be scaled to an interval: it contains NaN or an infinity, or all its entries are equal. -/
def Unscalable (y : Fin n → Fl K) : Prop := (∃ r, ∀ v, y r ≠ .fin v) ∨ ∃ v, ∀ r, y r = .fin v

/-- A number, that is, neither NaN nor an infinity. -/
def IsNumber (v : Fl K) : Prop := ∃ k, v = .fin k

end Bart.Spec
