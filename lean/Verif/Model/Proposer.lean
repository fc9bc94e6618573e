import Verif.Model.Tree

/-! Model of bartpy/samplers/unconstrainedtree/proposer.py

Randomness: `us : List Nat` are the draws of `np.random.choice` (see `choice`), in the order in which they are made; a list of
`Method`s are the values delivered by `method_sampler.sample()` (bartpy/samplers/scalar.py). -/

namespace Bart

/-- The two entries of `prob_method_lookup` (bartpy/samplers/unconstrainedtree/proposer.py:37). -/
inductive Method where
  | grow
  | prune
  deriving DecidableEq, Repr

namespace Tree
variable {K : Type} [Field K] [LinearOrder K] {n p : Nat}

/-- bartpy/samplers/unconstrainedtree/proposer.py:76-90 `sample_split_condition` for the leaf `i`. -/
def sampleSplitCondition (h : Heap K n p) (i : NodeId) (us : List Nat) :
    Heap K n p × List Nat × Except PyErr (SplitCondition K p × SplitCondition K p) :=
  let d := h.dataOf i
  let s := d.X.splittable
  let h1 := h.setDataOf i { d with X := s.2 }
  match us with
  | [] => (h1, [], .error .outOfDraws)
  | u :: us =>
    match choice s.1 u with
    | .error e => (h1, us, .error e)
    | .ok v =>
      match (h1.dataOf i).X.randomSplittableValue v us with
      | .error e => (h1, us, .error e)
      | .ok (x, us', c) =>
        (h1.setDataOf i { h1.dataOf i with X := c }, us',
          .ok ({ splittingVariable := v, splittingValue := x, operator := .le },
               { splittingVariable := v, splittingValue := x, operator := .gt }))

/-- bartpy/samplers/unconstrainedtree/proposer.py:93-99 `sample_split_node`. -/
def sampleSplitNode (h : Heap K n p) (i : NodeId) (us : List Nat) : Heap K n p × List Nat × Except PyErr NodeId :=
  match sampleSplitCondition h i us with
  | (h1, us1, .error e) => (h1, us1, .error e)
  | (h1, us1, .ok (c0, c1)) =>
    match h1.splitNode i c0 c1 with
    | .error e => (h1, us1, .error e)
    | .ok (d, h2) => (h2, us1, .ok d)

/-- bartpy/samplers/unconstrainedtree/proposer.py:15-18, 53-62 `uniformly_sample_grow_mutation` and `random_splittable_leaf_node`. -/
def sampleGrow (t : Tree K n p) (us : List Nat) : Tree K n p × List Nat × Except PyErr TreeMutation :=
  let r := t.splittableLeafNodes
  if r.1.length = 0 then (r.2, us, .error .noSplittableVariable)
  else
    match us with
    | [] => (r.2, [], .error .outOfDraws)
    | u :: us =>
      match choice r.1 u with
      | .error e => (r.2, us, .error e)
      | .ok i =>
        match sampleSplitNode r.2.heap i us with
        | (h, us1, .error e) => ({ r.2 with heap := h }, us1, .error e)
        | (h, us1, .ok d) => ({ r.2 with heap := h }, us1, growMutation h i d)

/-- bartpy/samplers/unconstrainedtree/proposer.py:21-24, 65-73 `uniformly_sample_prune_mutation` and `random_prunable_decision_node`. -/
def samplePrune (t : Tree K n p) (us : List Nat) : Tree K n p × List Nat × Except PyErr TreeMutation :=
  if t.prunableDecisionNodes.length = 0 then (t, us, .error .noPrunableNode)
  else
    match us with
    | [] => (t, [], .error .outOfDraws)
    | u :: us =>
      match choice t.prunableDecisionNodes u with
      | .error e => (t, us, .error e)
      | .ok i =>
        let r := t.heap.newLeaf (t.heap.node i).split (t.heap.node i).depth
        ({ t with heap := r.2 }, us, pruneMutation r.2 i r.1)

/-- bartpy/samplers/unconstrainedtree/proposer.py:37, 44: the method selected by the sampler. -/
def sampleMethod (t : Tree K n p) : Method → List Nat → Tree K n p × List Nat × Except PyErr TreeMutation
  | .grow, us => t.sampleGrow us
  | .prune, us => t.samplePrune us

/-- bartpy/samplers/unconstrainedtree/proposer.py:43-50 `UniformMutationProposer.propose`. The recursive calls consume the drawn methods one by one; if they are used up
the recursion has not ended (`outOfDraws`; Python's RecursionError after about a thousand of them). -/
def propose (t : Tree K n p) (us : List Nat) : List Method → Except PyErr (TreeMutation × Tree K n p × List Nat × List Method)
  | [] => .error .outOfDraws
  | m :: ms =>
    match t.sampleMethod m us with
    | (t1, us1, .ok mu) => .ok (mu, t1, us1, ms)
    | (t1, us1, .error .noSplittableVariable) => propose t1 us1 ms
    | (t1, us1, .error .noPrunableNode) => propose t1 us1 ms
    | (_, _, .error e) => .error e

end Tree
end Bart
