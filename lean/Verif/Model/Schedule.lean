import Verif.Model.BartModel

/-! Model of bartpy/samplers/schedule.py:36-55 `SampleSchedule.steps` as what it is: a generator (around the generator
bartpy/model.py:71-78 `refreshed_trees`) that yields callables. The callables read the variables `tree` and `leaf_node` of the generator when they are
called, not when they are yielded. -/

namespace Bart

/-- The three lambdas of bartpy/samplers/schedule.py:51, 54, 55. -/
inductive Closure where
  | tree
  | leaf
  | sigma
  deriving DecidableEq, Repr

/-- The first component of what is yielded (bartpy/samplers/schedule.py:51, 54, 55): `"Tree"` or `"Node"` (also for sigma). -/
inductive StepKind where
  | tree
  | node
  deriving DecidableEq, Repr

/-- Where the generator is suspended. -/
inductive Phase where
  | start                                     -- not started
  | tree (i : Nat)                            -- after the yield of bartpy/samplers/schedule.py:51 for tree number `i`
  | leaf (i : Nat) (rest : List NodeId)       -- after a yield of bartpy/samplers/schedule.py:54; `rest` are the leaves still to come
  | last                                      -- after the yield of bartpy/samplers/schedule.py:55
  | stopped                                   -- StopIteration was raised

/-- The generator: the model it works on, where it is suspended and its variables `tree` (number of the tree in `model.trees`) and `leaf_node`
(number of the tree it belongs to and name of the node). -/
structure Gen (K : Type) (n p : Nat) where
  model : BModel K n p
  phase : Phase
  treeVar : Option Nat
  leafVar : Option (Nat × NodeId)

/-- What running a callable did: a tree step on tree number `i` with its result, a leaf step, a sigma step. -/
inductive Event where
  | tree (i : Nat) (result : Option TreeMutation)
  | leaf (i : Nat) (node : NodeId)
  | sigma
  deriving DecidableEq

namespace Gen
variable {K : Type} [Field K] [LinearOrder K] {n p : Nat}

/-- `schedule.steps(model)`: nothing is run yet. -/
def steps (m : BModel K n p) : Gen K n p := { model := m, phase := .start, treeVar := none, leafVar := none }

/-- Change of the running prediction and of tree number `i` of the model in place. -/
def put (g : Gen K n p) (i : Nat) (pred : Fin n → K) (t : Tree K n p) : Gen K n p :=
  { g with model := { g.model with prediction := some pred, trees := g.model.trees.set i t } }

/-- bartpy/model.py:74-77 and bartpy/samplers/schedule.py:50-51: the head of the loop with the next tree `i`, up to the yield; bartpy/samplers/schedule.py:55 when there is none. -/
def enterTree (g : Gen K n p) (i : Nat) : Except PyErr (Option (StepKind × Closure) × Gen K n p) :=
  match g.model.trees[i]? with
  | none => .ok (some (.node, .sigma), { g with phase := .last })
  | some t =>
    match g.model.data.y.y, g.model.prediction with
    | some y, some pred =>
      match BModel.refreshBegin y pred t with
      | .error e => .error e
      | .ok (pred1, t1) => .ok (some (.tree, .tree), { g.put i pred1 t1 with phase := .tree i, treeVar := some i })
    | _, _ => .error .typeError

/-- bartpy/samplers/schedule.py:53-54 and, when the leaves are exhausted, bartpy/model.py:78. -/
def enterLeaf (g : Gen K n p) (i : Nat) : List NodeId → Except PyErr (Option (StepKind × Closure) × Gen K n p)
  | l :: rest => .ok (some (.node, .leaf), { g with phase := .leaf i rest, leafVar := some (i, l) })
  | [] =>
    match g.model.trees[i]?, g.model.prediction with
    | some t, some pred =>
      match BModel.refreshEnd pred t with
      | .error e => .error e
      | .ok (pred1, t1) => (g.put i pred1 t1).enterTree (i + 1)
    | _, _ => .error .typeError

/-- `next(generator)`: `none` is StopIteration. The list `tree.leaf_nodes` is computed when the generator is resumed after the yield of the tree step. -/
def next (g : Gen K n p) : Except PyErr (Option (StepKind × Closure) × Gen K n p) :=
  match g.phase with
  | .start =>
    match g.model.startPrediction with
    | .error e => .error e
    | .ok (f, m1) => { g with model := { m1 with prediction := some f } }.enterTree 0
  | .tree i =>
    match g.model.trees[i]? with
    | none => .error .typeError
    | some t => g.enterLeaf i t.leafNodes
  | .leaf i rest => g.enterLeaf i rest
  | .last => .ok (none, { g with phase := .stopped })
  | .stopped => .ok (none, g)

variable [MathFns K]

/-- Running a callable: the variables of the generator have the values they have now. An unset variable is a NameError (not reached: a callable is
yielded after the variable was set); modelled as a TypeError. -/
def call (g : Gen K n p) (pGrow pPrune : K) (c : Closure) (r : Rand K) : Except PyErr (Event × Gen K n p × Rand K) :=
  match c with
  | .tree =>
    match g.treeVar with
    | none => .error .typeError
    | some i =>
      match g.model.trees[i]? with
      | none => .error .typeError
      | some t =>
        match Sampler.treeStep g.model.params pGrow pPrune t r with
        | .error e => .error e
        | .ok (mu, t1, r1) => .ok (.tree i mu, { g with model := { g.model with trees := g.model.trees.set i t1 } }, r1)
  | .leaf =>
    match g.leafVar with
    | none => .error .typeError
    | some (i, l) =>
      match g.model.trees[i]? with
      | none => .error .typeError
      | some t =>
        match Sampler.leafStep g.model.params t l r with
        | .error e => .error e
        | .ok (t1, r1) => .ok (.leaf i l, { g with model := { g.model with trees := g.model.trees.set i t1 } }, r1)
  | .sigma =>
    match g.model.sigmaStep r with
    | .error e => .error e
    | .ok (m1, r1) => .ok (.sigma, { g with model := m1 }, r1)

/-- The loop bartpy/samplers/modelsampler.py:25-29 (`for step_kind, step in self.schedule.steps(model): result = step()`) from a suspended generator: the
callables are run when they are yielded. The loop ends when the generator stops or an exception is raised; `res` is the list of what was done with
the yielded labels, the model and the draws left. -/
inductive Runs (pGrow pPrune : K) : Gen K n p → Rand K → Except PyErr (List (StepKind × Event) × BModel K n p × Rand K) → Prop
  | nextError {g r e} : g.next = .error e → Runs pGrow pPrune g r (.error e)
  | stop {g g' r} : g.next = .ok (none, g') → Runs pGrow pPrune g r (.ok ([], g'.model, r))
  | callError {g g1 r k c e} : g.next = .ok (some (k, c), g1) → g1.call pGrow pPrune c r = .error e → Runs pGrow pPrune g r (.error e)
  | laterError {g g1 g2 r r1 k c ev e} : g.next = .ok (some (k, c), g1) → g1.call pGrow pPrune c r = .ok (ev, g2, r1) →
      Runs pGrow pPrune g2 r1 (.error e) → Runs pGrow pPrune g r (.error e)
  | step {g g1 g2 r r1 k c ev es m' r'} : g.next = .ok (some (k, c), g1) → g1.call pGrow pPrune c r = .ok (ev, g2, r1) →
      Runs pGrow pPrune g2 r1 (.ok (es, m', r')) → Runs pGrow pPrune g r (.ok ((k, ev) :: es, m', r'))

/-- `list(generator)`: the generator is run to its end without running the callables. -/
inductive Collects : Gen K n p → List Closure → Gen K n p → Prop
  | stop {g g'} : g.next = .ok (none, g') → Collects g [] g'
  | step {g g1 g' k c cs} : g.next = .ok (some (k, c), g1) → Collects g1 cs g' → Collects g (c :: cs) g'

/-- Running collected callables one after the other. -/
def callAll (pGrow pPrune : K) : List Closure → Gen K n p → Rand K → Except PyErr (List Event × Gen K n p × Rand K)
  | [], g, r => .ok ([], g, r)
  | c :: cs, g, r =>
    match g.call pGrow pPrune c r with
    | .error e => .error e
    | .ok (ev, g1, r1) =>
      match callAll pGrow pPrune cs g1 r1 with
      | .error e => .error e
      | .ok (es, g2, r2) => .ok (ev :: es, g2, r2)

end Gen

/-- bartpy/trace.py:14, 20-27 (default `TraceLogger`): the result of a "Tree" callable is logged as `x is not None`, that of a "Node" callable is not logged. -/
def logMessage : StepKind × Event → Option Bool
  | (.tree, .tree _ mu) => some mu.isSome
  | (.tree, _) => some false
  | (.node, _) => none

/-- bartpy/samplers/modelsampler.py:26-30 with the default `TraceLogger`: the returned dictionary has the mean of the flags under the key "Tree", and no key when nothing was logged. -/
def stepResult {K : Type} [Field K] (es : List (StepKind × Event)) : Option K :=
  let flags : List Bool := es.filterMap logMessage
  if flags = [] then none else some (((flags.countP id : Nat) : K) / (flags.length : K))

end Bart
