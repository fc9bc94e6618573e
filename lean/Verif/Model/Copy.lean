import Verif.Model.Tree

/-! Model of the copies of trees that are stored as samples: bartpy/node.py:102-110 `deep_copy_node` and bartpy/tree.py:160-174 `deep_copy_tree`.

The copies are new objects in the same heap as the live tree, so that what the live tree does later could change them. -/

namespace Bart
variable {K : Type} [Field K] [LinearOrder K] {n p : Nat}

/-- bartpy/node.py:102-110 `deep_copy_node`. The copy of a leaf has its value; the copy of a decision node points to the children of the original (not to
their copies). The split of a copy is the bare `CombinedCondition` of the original (bartpy/split.py:42-43), it has no data: the field `data` of the copy is filled with that of
the original but is not read by anything that is modelled for copies (in Python it would be an AttributeError). -/
def Heap.deepCopyNode (h : Heap K n p) (i : NodeId) : NodeId × Heap K n p :=
  let nd := h.node i
  match nd.kind with
  | .leaf => h.allocNode { kind := .leaf, depth := nd.depth, split := nd.split, left := none, right := none, value := nd.value }
  | .decision => h.allocNode { kind := .decision, depth := nd.depth, split := nd.split, left := nd.left, right := nd.right, value := 0 }

namespace Tree

/-- The list comprehension of bartpy/tree.py:174. -/
def copyNodes : List NodeId → Heap K n p → List NodeId × Heap K n p
  | [], h => ([], h)
  | i :: is, h =>
    let r := h.deepCopyNode i
    let rest := copyNodes is r.2
    (r.1 :: rest.1, rest.2)

/-- bartpy/tree.py:160-174 `deep_copy_tree`: the nodes of the copy and the tree with the new objects in its heap. -/
def deepCopy (t : Tree K n p) : List NodeId × Tree K n p :=
  let r := copyNodes t.nodes t.heap
  (r.1, { t with heap := r.2 })

/-- The stored tree with the nodes `ids`, seen now, when the heap it shares with the live tree `t` is `t.heap`. -/
def stored (t : Tree K n p) (ids : List NodeId) : Tree K n p :=
  { heap := t.heap, nodes := ids, cacheUpToDate := false, prediction := .none }

end Tree
end Bart
