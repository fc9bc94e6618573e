import Verif.Spec.Double
import Mathlib.Algebra.Order.Field.Basic
import Mathlib.Algebra.BigOperators.Group.List.Basic

/-! The target a tree should have (specification). -/

namespace Bart.Spec
variable {K : Type} [Field K] {n : Nat}

/-- The predictions of all trees: before the first sweep (0), and after each of the sweeps. -/
def predictionsAt (nTrees : Nat) (wss : List (List (Fin n → K))) (k : Nat) : List (Fin n → K) := ((List.replicate nTrees fun _ => 0) :: wss).getD k []

/-- In sweep `k` (from 0), when the turn of tree `j` comes, the trees before it have their new predictions, the trees after it those of the sweep before: the sum over the other trees. -/
def others (nTrees : Nat) (wss : List (List (Fin n → K))) (k j : Nat) (i : Fin n) : K :=
  (((predictionsAt nTrees wss (k + 1)).take j).map (fun w => w i)).sum + (((predictionsAt nTrees wss k).drop (j + 1)).map (fun v => v i)).sum

end Bart.Spec
