import Verif.Model.Node

/-! Model of bartpy/tree.py and bartpy/mutation.py -/

namespace Bart

/-- The attribute `Tree._prediction`: `None`, an array with one entry per training row, or an array of another length
(bartpy/tree.py:88 sizes it by `nodes[0]`). -/
inductive PredBuf (K : Type) (n : Nat) where
  | none
  | sized (f : Fin n → K)
  | wrong (m : Int)

/-- bartpy/tree.py:9-27 `Tree`, together with the objects it refers to. Simplification: every tree has its own heap, since
bartpy/model.py:45 builds each tree from its own deepcopy of the data and nodes are never shared between trees. -/
structure Tree (K : Type) (n p : Nat) where
  heap : Heap K n p
  nodes : List NodeId
  cacheUpToDate : Bool
  prediction : PredBuf K n

/-- bartpy/mutation.py:13-16: the `kind` string. -/
inductive MutationKind where
  | grow
  | prune
  | other
  deriving DecidableEq, Repr

/-- bartpy/mutation.py:4-16 `TreeMutation`. -/
structure TreeMutation where
  kind : MutationKind
  existing : NodeId
  updated : NodeId
  deriving DecidableEq, Repr

namespace Tree
variable {K : Type} [Field K] [LinearOrder K] {n p : Nat}

/-- `Tree([LeafNode(Split(data))])` (bartpy/model.py:45, tests/test_tree.py:161). -/
def ofData (d : Data K n p) : Tree K n p where
  heap := { node := fun _ => { kind := .leaf, depth := 0, split := { data := 0, combined := CombinedCondition.init [] },
                               left := none, right := none, value := 0 }
            nextNode := 1
            data := fun _ => d
            nextData := 1 }
  nodes := [0]
  cacheUpToDate := false
  prediction := .none

/-- bartpy/tree.py:36-41 `leaf_nodes`. -/
def leafNodes (t : Tree K n p) : List NodeId := t.nodes.filter (fun i => decide ((t.heap.node i).kind = .leaf))

/-- bartpy/tree.py:51-57 `decision_nodes`. -/
def decisionNodes (t : Tree K n p) : List NodeId := t.nodes.filter (fun i => decide ((t.heap.node i).kind = .decision))

/-- bartpy/tree.py:59-65 `prunable_decision_nodes`. -/
def prunableDecisionNodes (t : Tree K n p) : List NodeId := t.decisionNodes.filter (fun i => t.heap.isPrunable i)

/-- The list comprehension of bartpy/tree.py:49 over the given nodes (each query fills caches). -/
def filterSplittable : List NodeId → Heap K n p → List NodeId × Heap K n p
  | [], h => ([], h)
  | i :: is, h =>
    let r := h.isSplittable i
    let rest := filterSplittable is r.2
    (if r.1 then i :: rest.1 else rest.1, rest.2)

/-- bartpy/tree.py:43-49 `splittable_leaf_nodes`. -/
def splittableLeafNodes (t : Tree K n p) : List NodeId × Tree K n p :=
  let r := filterSplittable t.leafNodes t.heap
  (r.1, { t with heap := r.2 })

/-- The loop bartpy/tree.py:73-74. -/
def updateNodes (y : Option (Fin n → K)) (fuel : Nat) : List NodeId → Heap K n p → Except PyErr (Heap K n p)
  | [], h => .ok h
  | i :: is, h =>
    match h.nodeUpdateY y fuel i with
    | .error e => .error e
    | .ok h' => updateNodes y fuel is h'

/-- bartpy/tree.py:67-74 `update_y`. The recursion in the nodes is given one unit of fuel per allocated node. -/
def updateY (t : Tree K n p) (y : Option (Fin n → K)) : Except PyErr (Tree K n p) :=
  match updateNodes y (t.heap.nextNode + 1) t.nodes t.heap with
  | .error e => .error e
  | .ok h => .ok { t with heap := h, cacheUpToDate := false }

/-- `prediction[cond] = v` for a boolean index of length `n`: IndexError if the array has another length. -/
def assignMask (b : PredBuf K n) (cond : Fin n → Bool) (v : K) : Except PyErr (PredBuf K n) :=
  match b with
  | .none => .error .typeError
  | .wrong _ => .error .indexError
  | .sized f => .ok (.sized (fun r => if cond r then v else f r))

/-- `np.zeros(self.nodes[0].data.X.n_obsv)` (bartpy/tree.py:88). -/
def zerosBuf (t : Tree K n p) : Except PyErr (PredBuf K n) :=
  match t.nodes.head? with
  | none => .error .indexError
  | some i =>
    let k := (t.heap.dataOf i).X.nObsv
    if k = (n : Int) then .ok (.sized (fun _ => 0)) else if k < 0 then .error .valueError else .ok (.wrong k)

/-- The loop bartpy/tree.py:86-89. -/
def predictLoop (t : Tree K n p) : List NodeId → PredBuf K n → Except PyErr (PredBuf K n)
  | [], b => .ok b
  | i :: is, b =>
    let b1 := match b with
      | .none => t.zerosBuf
      | b => .ok b
    match b1 with
    | .error e => .error e
    | .ok b2 =>
      match assignMask b2 (t.heap.inSample (t.heap.node i).split) (t.heap.node i).value with
      | .error e => .error e
      | .ok b3 => predictLoop t is b3

/-- bartpy/tree.py:76-91 `predict()` without X. The result is `_prediction` (`PredBuf.none` is Python's `None`). If an
exception is raised the partly updated tree is not modelled. -/
def predict (t : Tree K n p) : Except PyErr (PredBuf K n × Tree K n p) :=
  if t.cacheUpToDate then .ok (t.prediction, t)
  else
    match t.predictLoop t.leafNodes t.prediction with
    | .error e => .error e
    | .ok b => .ok (b, { t with cacheUpToDate := true, prediction := b })

/-- bartpy/tree.py:81-82, 93-110 `predict(X)`: X has `m` rows. -/
def predictX {m : Nat} (t : Tree K n p) (X : Fin m → Fin p → Fl K) : Fin m → K :=
  t.leafNodes.foldl
    (fun pred i r => if Heap.outOfSample (t.heap.node i).split (X r) then (t.heap.node i).value else pred r)
    (fun _ => 0)

/-- bartpy/tree.py:112-117 `remove_node`: `list.remove` by identity, ValueError if absent. -/
def removeNode (l : List NodeId) (i : NodeId) : Except PyErr (List NodeId) :=
  if i ∈ l then .ok (l.erase i) else .error .valueError

/-- bartpy/tree.py:153-157: relinking of one node. -/
def relinkNode (h : Heap K n p) (m : TreeMutation) (i : NodeId) : Heap K n p :=
  let h1 := if (h.node i).right = some m.existing then h.setNode i { h.node i with right := some m.updated } else h
  if (h1.node i).left = some m.existing then h1.setNode i { h1.node i with left := some m.updated } else h1

/-- `mutation.updated_node.left_child` as list element: `None` can be appended in Python but is never a node; reported as AttributeError. -/
def childOf (c : Option NodeId) : Except PyErr NodeId :=
  match c with
  | some i => .ok i
  | none => .error .attributeError

/-- bartpy/tree.py:141-151: the change of the node list. `tree.remove_node(None)` raises ValueError. -/
def mutateNodes (h : Heap K n p) (nodes : List NodeId) (m : TreeMutation) : Except PyErr (List NodeId) :=
  match m.kind with
  | .prune =>
    match removeNode nodes m.existing with
    | .error e => .error e
    | .ok l1 =>
      match (h.node m.existing).left, (h.node m.existing).right with
      | some l, some r =>
        match removeNode l1 l with
        | .error e => .error e
        | .ok l2 =>
          match removeNode l2 r with
          | .error e => .error e
          | .ok l3 => .ok (l3 ++ [m.updated])
      | _, _ => .error .valueError
  | .grow =>
    match removeNode nodes m.existing with
    | .error e => .error e
    | .ok l1 =>
      match childOf (h.node m.updated).left, childOf (h.node m.updated).right with
      | .ok l, .ok r => .ok (l1 ++ [l] ++ [r] ++ [m.updated])
      | .error e, _ => .error e
      | _, .error e => .error e
  | .other => .ok nodes

/-- bartpy/tree.py:127-157 `mutate`. -/
def mutate (t : Tree K n p) (m : TreeMutation) : Except PyErr (Tree K n p) :=
  match mutateNodes t.heap t.nodes m with
  | .error e => .error e
  | .ok ns => .ok { t with cacheUpToDate := false, nodes := ns, heap := ns.foldl (fun h i => relinkNode h m i) t.heap }

/-- bartpy/mutation.py:22-27 `PruneMutation`. -/
def pruneMutation (h : Heap K n p) (existing updated : NodeId) : Except PyErr TreeMutation :=
  if (h.node existing).kind ≠ .decision ∨ h.isPrunable existing = false then .error .typeError
  else .ok { kind := .prune, existing := existing, updated := updated }

/-- bartpy/mutation.py:30-35 `GrowMutation`. -/
def growMutation (h : Heap K n p) (existing updated : NodeId) : Except PyErr TreeMutation :=
  if (h.node existing).kind ≠ .leaf then .error .typeError
  else .ok { kind := .grow, existing := existing, updated := updated }

end Tree
end Bart
