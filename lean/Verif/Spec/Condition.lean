import Verif.Model.SplitCondition

/-! Meaning of a split condition (specification). -/

namespace Bart.Spec
variable {K : Type} [LinearOrder K] {p : Nat}

/-- `x <= v`, `x > v`, or no restriction. -/
def holdsOp (op : Op) (x v : Fl K) : Bool :=
  match op with
  | .le => Fl.le x v
  | .gt => Fl.gt x v
  | .other => true

/-- A row satisfies a condition `x_j <= v` or `x_j > v`. -/
def sat (c : SplitCondition K p) (x : Fin p → Fl K) : Bool := holdsOp c.operator (x c.splittingVariable) c.splittingValue

/-- A row without NaN and -inf. -/
def GoodRow (x : Fin p → Fl K) : Prop := ∀ v, x v ≠ .nan ∧ x v ≠ .ninf

end Bart.Spec
