import Verif.Model.Data

/-! Model of bartpy/split.py and bartpy/node.py: a heap of node objects and data objects.

Python compares and removes nodes by identity, relinks child pointers, and lets a decision node, the leaf it replaced and the
leaf that replaces it after pruning share one `Split`/`Data` object. Nodes and data objects are therefore numbered and stored in a heap. -/

namespace Bart

/-- Identities of node objects. -/
macro "NodeId" : term => `(Nat)
/-- Identities of data objects. -/
macro "DataId" : term => `(Nat)

/-- bartpy/split.py:10-24 `Split`: a reference to a `Data` object and a `CombinedCondition`. -/
structure Split (K : Type) (p : Nat) where
  data : DataId
  combined : CombinedCondition K p

/-- The class of a node: `type(node) == LeafNode` or `type(node) == DecisionNode` (bartpy/node.py:43, 69). -/
inductive NodeKind where
  | leaf
  | decision
  deriving DecidableEq, Repr

/-- bartpy/node.py:7-18, 43-53, 69-76 `TreeNode`, `LeafNode`, `DecisionNode`. `value` is `_value` of a leaf (unused for decision nodes). -/
structure Node (K : Type) (p : Nat) where
  kind : NodeKind
  depth : Nat
  split : Split K p
  left : Option NodeId
  right : Option NodeId
  value : K

/-- All objects of one tree. `node`/`data` are only meaningful below `nextNode`/`nextData` (fresh names). -/
structure Heap (K : Type) (n p : Nat) where
  node : NodeId → Node K p
  nextNode : Nat
  data : DataId → Data K n p
  nextData : Nat

namespace Heap
variable {K : Type} [Field K] [LinearOrder K] {n p : Nat}

/-- Object creation. -/
def allocNode (h : Heap K n p) (nd : Node K p) : NodeId × Heap K n p :=
  (h.nextNode, { h with node := Function.update h.node h.nextNode nd, nextNode := h.nextNode + 1 })

/-- Object creation. -/
def allocData (h : Heap K n p) (d : Data K n p) : DataId × Heap K n p :=
  (h.nextData, { h with data := Function.update h.data h.nextData d, nextData := h.nextData + 1 })

/-- In-place change of a node. -/
def setNode (h : Heap K n p) (i : NodeId) (nd : Node K p) : Heap K n p :=
  { h with node := Function.update h.node i nd }

/-- In-place change of a data object. -/
def setData (h : Heap K n p) (i : DataId) (d : Data K n p) : Heap K n p :=
  { h with data := Function.update h.data i d }

/-- `node.data` (bartpy/node.py:20-22). -/
def dataOf (h : Heap K n p) (i : NodeId) : Data K n p := h.data (h.node i).split.data

/-- In-place change of `node.data`. -/
def setDataOf (h : Heap K n p) (i : NodeId) (d : Data K n p) : Heap K n p := h.setData (h.node i).split.data d

/-- bartpy/split.py:45-48 `Split.__add__`: allocates the new `Data`. -/
def splitAdd (h : Heap K n p) (s : Split K p) (other : SplitCondition K p) :
    Except PyErr (Split K p × Heap K n p) :=
  match (h.data s.data).add other with
  | .error e => .error e
  | .ok d =>
    let r := h.allocData d
    .ok ({ data := r.1, combined := s.combined.add other }, r.2)

/-- bartpy/split.py:33-37 `Split.condition()` on the training rows: `~self._data.mask`. -/
def inSample (h : Heap K n p) (s : Split K p) (r : Fin n) : Bool := !(h.data s.data).mask r

/-- bartpy/split.py:33-43 `Split.condition(X)` on a row of a new X. -/
def outOfSample (s : Split K p) (x : Fin p → Fl K) : Bool := s.combined.condition x

/-- `node.data.y.summed_y()`. -/
def sumYOf (h : Heap K n p) (i : DataId) : Except PyErr (K × Heap K n p) :=
  match (h.data i).sumY with
  | .error e => .error e
  | .ok (s, d) => .ok (s, h.setData i d)

/-- bartpy/node.py:36-40 `TreeNode.update_y`; recursion depth bounded by `fuel` (RecursionError when exceeded). -/
def nodeUpdateY (y : Option (Fin n → K)) : Nat → NodeId → Heap K n p → Except PyErr (Heap K n p)
  | 0, _, _ => .error .recursionError
  | fuel + 1, i, h =>
    let h1 := h.setDataOf i ((h.dataOf i).updateY y)
    match (h1.node i).left with
    | none => .ok h1
    | some l =>
      match nodeUpdateY y fuel l h1 with
      | .error e => .error e
      | .ok h2 =>
        match (h2.node i).right with
        | none => .error .attributeError
        | some r => nodeUpdateY y fuel r h2

/-- bartpy/node.py:51-53 `LeafNode.__init__`. -/
def newLeaf (h : Heap K n p) (s : Split K p) (depth : Nat) (value : K := 0) : NodeId × Heap K n p :=
  h.allocNode { kind := .leaf, depth := depth, split := s, left := none, right := none, value := value }

/-- bartpy/node.py:75-76 `DecisionNode.__init__`. -/
def newDecision (h : Heap K n p) (s : Split K p) (l r : NodeId) (depth : Nat) : NodeId × Heap K n p :=
  h.allocNode { kind := .decision, depth := depth, split := s, left := some l, right := some r, value := 0 }

/-- bartpy/node.py:55-56 `LeafNode.set_value`. -/
def setValue (h : Heap K n p) (i : NodeId) (v : K) : Heap K n p :=
  h.setNode i { h.node i with value := v }

/-- bartpy/node.py:65-66 `LeafNode.is_splittable` (fills caches). -/
def isSplittable (h : Heap K n p) (i : NodeId) : Bool × Heap K n p :=
  let d := h.dataOf i
  let r := d.X.isAtLeastOneSplittable
  (r.1, h.setDataOf i { d with X := r.2 })

/-- `type(h.node i) == LeafNode` for an optional child. -/
def isLeafPtr (h : Heap K n p) (i : Option NodeId) : Bool :=
  match i with
  | none => false
  | some j => decide ((h.node j).kind = .leaf)

/-- bartpy/node.py:78-79 `DecisionNode.is_prunable`. -/
def isPrunable (h : Heap K n p) (i : NodeId) : Bool :=
  h.isLeafPtr (h.node i).left && h.isLeafPtr (h.node i).right

/-- bartpy/node.py:81-82 `DecisionNode.most_recent_split_condition`: that of the left child's split. AttributeError if there is no
left child. -/
def mostRecentSplitCondition (h : Heap K n p) (i : NodeId) : Except PyErr (Option (SplitCondition K p)) :=
  match (h.node i).left with
  | none => .error .attributeError
  | some l => .ok (h.node l).split.combined.mostRecentSplitCondition

/-- bartpy/node.py:85-99 `split_node`. The carried values of the second condition are overwritten in place before it is used. -/
def splitNode (h : Heap K n p) (i : NodeId) (c0 c1 : SplitCondition K p) : Except PyErr (NodeId × Heap K n p) :=
  let nd := h.node i
  match h.splitAdd nd.split c0 with
  | .error e => .error e
  | .ok (leftSplit, h1) =>
    let carryN : Int := (h1.data nd.split.data).X.nObsv - (h1.data leftSplit.data).X.nObsv
    match h1.sumYOf nd.split.data with
    | .error e => .error e
    | .ok (sNode, h2) =>
      match h2.sumYOf leftSplit.data with
      | .error e => .error e
      | .ok (sLeft, h3) =>
        match h3.splitAdd nd.split { c1 with carryNObsv := some carryN, carryYSum := some (sNode - sLeft) } with
        | .error e => .error e
        | .ok (rightSplit, h4) =>
          let l := h4.newLeaf leftSplit (nd.depth + 1)
          let r := l.2.newLeaf rightSplit (nd.depth + 1)
          .ok (r.2.newDecision nd.split l.1 r.1 nd.depth)

end Heap
end Bart
