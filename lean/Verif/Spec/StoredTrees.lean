import Verif.Spec.Reference

/-! What can be read off the trees of a stored sample, and the same for a tree of the reference implementation (specification). -/

namespace Bart.Spec
open Reference
variable {K : Type} [Field K] [LinearOrder K] {n p : Nat}

/-- A node of a stored tree: the comparisons on the way to it, the column of the last of them, its depth, and its value if it is a leaf. -/
structure ShownNode (K : Type) (p : Nat) where
  path : List (Cond K p)
  column : Option (Fin p)
  depth : Nat
  value : Option K

/-- A comparison `x_column <= value` or `x_column > value`. -/
def shownCond (c : SplitCondition K p) : Cond K p := ⟨c.splittingVariable, c.splittingValue, decide (c.operator = .le)⟩

/-- What the attributes of a node show. -/
def shownNode (v : NodeView K p) : ShownNode K p := ⟨v.condition.conditions.map shownCond, v.condition.splittingVariable, v.depth, v.value⟩

/-- The trees of a stored sample, node by node. -/
def shownTrees (x : Sample K p) : List (List (ShownNode K p)) := (storedContent x.live x.stored).map (List.map shownNode)

/-- A node of the reference implementation: its depth is the number of comparisons on the way to it. -/
def referenceNode (nd : RNode K p) : ShownNode K p := ⟨nd.path, nd.path.getLast?.map Cond.column, nd.path.length, match nd.content with
  | .leaf v => some v
  | .split _ _ => none⟩

/-- The trees of a state of the reference implementation, node by node. -/
def referenceTrees (s : State K p) : List (List (ShownNode K p)) := s.trees.map (List.map referenceNode)

/-- The number of splits by column `j` in a tree of the reference implementation. -/
def splitsOn (t : RTree K p) (j : Fin p) : Nat := t.countP (fun nd =>
  match nd.content with
  | .leaf _ => false
  | .split i _ => decide (i = j))

/-- The number of splits by column `j` in several states. -/
def totalSplitsOn (ss : List (State K p)) (j : Fin p) : Nat := (ss.map (fun s => (s.trees.map (fun t => splitsOn t j)).sum)).sum

/-- The number of nodes in several states. -/
def nodesIn (ss : List (State K p)) : Nat := (ss.map (fun s => (s.trees.map List.length).sum)).sum

end Bart.Spec
