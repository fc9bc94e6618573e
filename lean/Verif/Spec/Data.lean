import Verif.Model.Data

/-! Cache-free reference semantics of the data layer (specification). -/

namespace Bart.Spec
variable {K : Type} [Field K] [LinearOrder K] {n p : Nat}

/-- `x` is not NaN. -/
def NotNan (x : Fl K) : Prop := x ≠ .nan

/-- No entry of the matrix is NaN. -/
def NoNan (X : Fin n → Fin p → Fl K) : Prop := ∀ r i, X r i ≠ .nan

/-- The values of column `i` in the rows of a node, in row order. -/
def column (X : Fin n → Fin p → Fl K) (rows : Fin n → Bool) (i : Fin p) : List (Fl K) :=
  ((List.finRange n).filter rows).map (fun r => X r i)

/-- The number of rows of a node. -/
def count (rows : Fin n → Bool) : Nat := (Finset.univ.filter (fun r => rows r = true)).card

/-- The sum of the target over the rows of a node. -/
def total (y : Fin n → K) (rows : Fin n → Bool) : K := ∑ r ∈ Finset.univ.filter (fun r => rows r = true), y r

/-- A list with at least two different values. -/
def HasTwoValues (l : List (Fl K)) : Prop := ∃ a ∈ l, ∃ b ∈ l, a ≠ b

/-- The state of a node's data without any cache: the training matrix, the rows in the node and the current target. -/
structure Ref (K : Type) (n p : Nat) where
  X : Fin n → Fin p → Fl K
  rows : Fin n → Bool
  y : Option (Fin n → K)

end Bart.Spec
