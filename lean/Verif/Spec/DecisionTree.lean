import Verif.Model.Base

/-! Decision trees as textbooks have them (specification). -/

namespace Bart.Spec
variable {K : Type} [LinearOrder K] {p : Nat}

/-- A regression tree: a value, or a comparison of column `j` with a cut and two trees. -/
inductive DecTree (K : Type) (p : Nat) where
  | leaf (value : K)
  | node (j : Fin p) (cut : Fl K) (left right : DecTree K p)

namespace DecTree

/-- The value for a row: go left if the entry is at most the cut, right otherwise. -/
def eval : DecTree K p → (Fin p → Fl K) → K
  | .leaf v, _ => v
  | .node j cut l r, x => if Fl.le (x j) cut then l.eval x else r.eval x

/-- The comparisons made anywhere in the tree. -/
def cuts : DecTree K p → List (Fin p × Fl K)
  | .leaf _ => []
  | .node j cut l r => (j, cut) :: (l.cuts ++ r.cuts)

/-- The number of leaves. -/
def leaves : DecTree K p → Nat
  | .leaf _ => 1
  | .node _ _ l r => l.leaves + r.leaves

/-- The number of comparisons on the longest way down. -/
def height : DecTree K p → Nat
  | .leaf _ => 0
  | .node _ _ l r => max l.height r.height + 1

/-- The depths of all nodes (comparisons and leaves), when the tree hangs at depth `k`. -/
def depths : DecTree K p → Nat → List Nat
  | .leaf _, k => [k]
  | .node _ _ l r, k => k :: (l.depths (k + 1) ++ r.depths (k + 1))

end DecTree
end Bart.Spec
