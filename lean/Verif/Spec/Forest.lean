import Verif.Spec.TreeHistory

/-! The value a tree gives to a training row (specification, free of caches). -/

namespace Bart.Spec
variable {K : Type} [Field K] [LinearOrder K] {n p : Nat}

/-- The value of the leaf that contains training row `r` (0 if there is none). -/
def rowValue (t : Tree K n p) (r : Fin n) : K :=
  match t.leafNodes.find? (fun i => rowsOf (t.heap.dataOf i) r) with
  | some i => (t.heap.node i).value
  | none => 0

/-- The sum of the values of some trees at row `r`. -/
def sumValue (ts : List (Tree K n p)) (r : Fin n) : K := (ts.map (fun t => rowValue t r)).sum

/-- Every node of the tree has a training row. -/
def NoEmptyNode (t : Tree K n p) : Prop := ∀ i ∈ t.nodes, ∃ r, rowsOf (t.heap.dataOf i) r = true

end Bart.Spec
