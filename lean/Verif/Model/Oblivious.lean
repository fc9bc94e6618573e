import Verif.Model.Samplers

/-! Model of bartpy/samplers/oblivioustrees/{proposer,likihoodratio,treemutation}.py. What is the same as in bartpy/samplers/unconstrainedtree is taken from there. -/

namespace Bart.Oblivious
open Bart

section
variable {K : Type} [Field K] [LinearOrder K] {n p : Nat}

/-- bartpy/samplers/oblivioustrees/proposer.py:42-56 `sample_split_condition` for the leaf `i`. -/
def sampleSplitCondition (h : Heap K n p) (i : NodeId) (us : List Nat) :
    Heap K n p × List Nat × Except PyErr (SplitCondition K p × SplitCondition K p) :=
  match us with
  | [] => (h, [], .error .outOfDraws)
  | u :: us =>
    match (h.dataOf i).X.randomSplittableVariable u with
    | .error e => (h, us, .error e)
    | .ok (v, c) =>
      let h1 := h.setDataOf i { h.dataOf i with X := c }
      match (h1.dataOf i).X.randomSplittableValue v us with
      | .error e => (h1, us, .error e)
      | .ok (x, us', c') =>
        (h1.setDataOf i { h1.dataOf i with X := c' }, us',
          .ok ({ splittingVariable := v, splittingValue := x, operator := .le },
               { splittingVariable := v, splittingValue := x, operator := .gt }))

/-- bartpy/samplers/oblivioustrees/proposer.py:59-71 `sample_split_node`. A leaf that cannot be split becomes a decision node with two leaves that have the same split. -/
def sampleSplitNode (h : Heap K n p) (i : NodeId) (us : List Nat) : Heap K n p × List Nat × Except PyErr NodeId :=
  let b := h.isSplittable i
  if b.1 then
    match sampleSplitCondition b.2 i us with
    | (h1, us1, .error e) => (h1, us1, .error e)
    | (h1, us1, .ok (c0, c1)) =>
      match h1.splitNode i c0 c1 with
      | .error e => (h1, us1, .error e)
      | .ok (d, h2) => (h2, us1, .ok d)
  else
    let nd := b.2.node i
    let l := b.2.newLeaf nd.split (nd.depth + 1)
    let r := l.2.newLeaf nd.split (nd.depth + 1)
    let d := r.2.newDecision nd.split l.1 r.1 nd.depth
    (d.2, us, .ok d.1)

/-- bartpy/samplers/oblivioustrees/proposer.py:15-16 `grow_mutations`, for the leaves `is`. -/
def growMutations : List NodeId → Heap K n p → List Nat → Heap K n p × List Nat × Except PyErr (List TreeMutation)
  | [], h, us => (h, us, .ok [])
  | i :: is, h, us =>
    match sampleSplitNode h i us with
    | (h1, us1, .error e) => (h1, us1, .error e)
    | (h1, us1, .ok d) =>
      match Tree.growMutation h1 i d with
      | .error e => (h1, us1, .error e)
      | .ok m =>
        match growMutations is h1 us1 with
        | (h2, us2, .error e) => (h2, us2, .error e)
        | (h2, us2, .ok ms) => (h2, us2, .ok (m :: ms))

/-- bartpy/samplers/oblivioustrees/proposer.py:19-20 `prune_mutations`, for the nodes `is`. -/
def pruneMutations : List NodeId → Heap K n p → Heap K n p × Except PyErr (List TreeMutation)
  | [], h => (h, .ok [])
  | i :: is, h =>
    let r := h.newLeaf (h.node i).split (h.node i).depth
    match Tree.pruneMutation r.2 i r.1 with
    | .error e => (r.2, .error e)
    | .ok m =>
      match pruneMutations is r.2 with
      | (h2, .error e) => (h2, .error e)
      | (h2, .ok ms) => (h2, .ok (m :: ms))

/-- The method selected by the sampler (bartpy/samplers/oblivioustrees/proposer.py:28, 33, 35). -/
def sampleMethod (t : Tree K n p) : Method → List Nat → Tree K n p × List Nat × Except PyErr (List TreeMutation)
  | .grow, us =>
    match growMutations t.leafNodes t.heap us with
    | (h, us1, r) => ({ t with heap := h }, us1, r)
  | .prune, us =>
    match pruneMutations t.prunableDecisionNodes t.heap with
    | (h, r) => ({ t with heap := h }, us, r)

/-- bartpy/samplers/oblivioustrees/proposer.py:32-39 `UniformMutationProposer.propose`. -/
def propose (t : Tree K n p) (us : List Nat) : List Method → Except PyErr (List TreeMutation × Tree K n p × List Nat × List Method)
  | [] => .error .outOfDraws
  | m :: ms =>
    match sampleMethod t m us with
    | (t1, us1, .ok mu) => .ok (mu, t1, us1, ms)
    | (t1, us1, .error .noSplittableVariable) => propose t1 us1 ms
    | (t1, us1, .error .noPrunableNode) => propose t1 us1 ms
    | (_, _, .error e) => .error e

/-- The loop bartpy/samplers/oblivioustrees/treemutation.py:51-52. -/
def mutateAll : List TreeMutation → Tree K n p → Except PyErr (Tree K n p)
  | [], t => .ok t
  | m :: ms, t =>
    match t.mutate m with
    | .error e => .error e
    | .ok t1 => mutateAll ms t1

end

section
variable {K : Type} [Field K] [LinearOrder K] [MathFns K] {n p : Nat}

/-- bartpy/samplers/oblivioustrees/likihoodratio.py:130-140 `log_probability_split_within_node` (and :119-127 `log_probability_split_within_tree`, which only calls it). -/
def logSplitWithinNode (h : Heap K n p) (existing updated : NodeId) : Except PyErr (Fl K × Heap K n p) :=
  match h.mostRecentSplitCondition updated with
  | .error e => .error e
  | .ok none => .error .attributeError
  | .ok (some c) =>
    let d := h.dataOf existing
    let q := d.X.proportionOfValue c.splittingVariable c.splittingValue
    .ok (Fl.log (Fl.div (Fl.ofInt q.1.1) (Fl.ofInt q.1.2)), h.setDataOf existing { d with X := q.2 })

/-- bartpy/samplers/oblivioustrees/likihoodratio.py:13-29 `log_grow_ratio`: the arithmetic of the unconstrained one, the sums are taken in another order. -/
def logGrowRatio (h : Heap K n p) (combined left right : NodeId) (sigma : K) (sigmaMu : Fl K) : Except PyErr (Fl K × Heap K n p) :=
  let nn := (h.dataOf combined).X.nObsv
  let nl := (h.dataOf left).X.nObsv
  let nr := (h.dataOf right).X.nObsv
  match h.sumYOf (h.node left).split.data with
  | .error e => .error e
  | .ok (sl, h1) =>
    match h1.sumYOf (h1.node right).split.data with
    | .error e => .error e
    | .ok (sr, h2) =>
      match h2.sumYOf (h2.node combined).split.data with
      | .error e => .error e
      | .ok (s, h3) =>
        .ok (Lik.growRatioValue (.fin sigma) sigmaMu (Fl.ofInt nn) (Fl.ofInt nl) (Fl.ofInt nr) (.fin s) (.fin sl) (.fin sr), h3)

/-- bartpy/samplers/oblivioustrees/likihoodratio.py:58-77 `log_likihood_ratio`. The sums are numbers, so the result is never numpy's masked constant (:67-68). For another kind the
local variable is unbound; reported as `notImplemented`, no such mutation is ever proposed. -/
def logLikihoodRatio (m : Params K) (h : Heap K n p) (mu : TreeMutation) : Except PyErr (Fl K × Heap K n p) :=
  match mu.kind with
  | .grow =>
    match Lik.children h mu.updated with
    | .error e => .error e
    | .ok (l, r) => logGrowRatio h mu.existing l r m.sigma (Lik.sigmaM m)
  | .prune =>
    match Lik.children h mu.existing with
    | .error e => .error e
    | .ok (l, r) =>
      match logGrowRatio h mu.updated l r m.sigma (Lik.sigmaM m) with
      | .error e => .error e
      | .ok (v, h1) => .ok (Fl.neg v, h1)
  | .other => .error .notImplemented

/-- bartpy/samplers/oblivioustrees/likihoodratio.py:40-48, 79-92 `log_transition_ratio`, `log_grow_transition_ratio`, `log_prune_transition_ratio`. -/
def logTransitionRatio (pGrow pPrune : K) (h : Heap K n p) (mu : TreeMutation) : Except PyErr (Fl K × Heap K n p) :=
  match mu.kind with
  | .grow =>
    match logSplitWithinNode h mu.existing mu.updated with
    | .error e => .error e
    | .ok (probGrow, h1) =>
      match Lik.pyDiv pPrune pGrow with
      | .error e => .error e
      | .ok q => .ok (Fl.add (Fl.log (.fin q)) (Fl.sub (Fl.neg (Fl.log (.fin 1))) probGrow), h1)
  | .prune =>
    match Tree.growMutation h mu.updated mu.existing with
    | .error e => .error e
    | .ok g =>
      match logSplitWithinNode h g.existing g.updated with
      | .error e => .error e
      | .ok (v, h1) =>
        match Lik.pyDiv pGrow pPrune with
        | .error e => .error e
        | .ok q => .ok (Fl.add (Fl.log (.fin q)) v, h1)
  | .other => .error .notImplemented

/-- bartpy/samplers/oblivioustrees/likihoodratio.py:50-56, 95-116 `log_tree_ratio`, `log_tree_ratio_grow`, `log_tree_ratio_prune`. -/
def logTreeRatio (m : Params K) (h : Heap K n p) (mu : TreeMutation) : Except PyErr (Fl K × Heap K n p) :=
  match mu.kind with
  | .grow =>
    let denominator := Lik.logNodeNotSplit m (h.node mu.existing).depth
    match Lik.children h mu.updated with
    | .error e => .error e
    | .ok (l, r) =>
      let pl := Lik.logNodeNotSplit m (h.node l).depth
      let pr := Lik.logNodeNotSplit m (h.node r).depth
      let ps := Lik.logNodeSplit m (h.node mu.updated).depth
      match logSplitWithinNode h mu.existing mu.updated with
      | .error e => .error e
      | .ok (pc, h1) => .ok (Fl.sub (Fl.add (Fl.add (Fl.add pl pr) ps) pc) denominator, h1)
  | .prune =>
    let numerator := Lik.logNodeNotSplit m (h.node mu.updated).depth
    match (h.node mu.existing).left with
    | none => .error .attributeError
    | some l =>
      let pl := Lik.logNodeNotSplit m (h.node l).depth
      let pr := Lik.logNodeNotSplit m (h.node l).depth
      let ps := Lik.logNodeSplit m (h.node mu.existing).depth
      match Tree.growMutation h mu.updated mu.existing with
      | .error e => .error e
      | .ok g =>
        match logSplitWithinNode h g.existing g.updated with
        | .error e => .error e
        | .ok (pc, h1) => .ok (Fl.sub numerator (Fl.add (Fl.add (Fl.add pl pr) ps) pc), h1)
  | .other => .error .typeError

/-- bartpy/samplers/treemutation.py:57-77 `log_probability_ratio` with the functions above. -/
def logProbabilityRatio (m : Params K) (pGrow pPrune : K) (h : Heap K n p) (mu : TreeMutation) : Except PyErr (Fl K × Heap K n p) :=
  match logTransitionRatio pGrow pPrune h mu with
  | .error e => .error e
  | .ok (a, h1) =>
    match logLikihoodRatio m h1 mu with
    | .error e => .error e
    | .ok (b, h2) =>
      match logTreeRatio m h2 mu with
      | .error e => .error e
      | .ok (c, h3) => .ok (Fl.add (Fl.add a b) c, h3)

/-- bartpy/samplers/oblivioustrees/treemutation.py:42 `np.sum([... for x in proposals])`; the sum of no numbers is 0. -/
def sumRatios (m : Params K) (pGrow pPrune : K) : List TreeMutation → Heap K n p → Except PyErr (Fl K × Heap K n p)
  | [], h => .ok (.fin 0, h)
  | mu :: mus, h =>
    match logProbabilityRatio m pGrow pPrune h mu with
    | .error e => .error e
    | .ok (a, h1) =>
      match sumRatios m pGrow pPrune mus h1 with
      | .error e => .error e
      | .ok (b, h2) => .ok (Fl.add a b, h2)

/-- bartpy/samplers/oblivioustrees/treemutation.py:40-46 `sample`. -/
def treeSample (m : Params K) (pGrow pPrune : K) (t : Tree K n p) (r : Rand K) :
    Except PyErr (Option (List TreeMutation) × Tree K n p × Rand K) :=
  match propose t r.picks r.methods with
  | .error e => .error e
  | .ok (mus, t1, us, ms) =>
    match sumRatios m pGrow pPrune mus t1.heap with
    | .error e => .error e
    | .ok (ratio, h2) =>
      match r.uniforms with
      | [] => .error .outOfDraws
      | u :: uniforms =>
        .ok (if Fl.lt (.fin u) ratio then some mus else none, { t1 with heap := h2 }, { r with methods := ms, picks := us, uniforms := uniforms })

/-- bartpy/samplers/oblivioustrees/treemutation.py:48-53 `step`. -/
def treeStep (m : Params K) (pGrow pPrune : K) (t : Tree K n p) (r : Rand K) :
    Except PyErr (Option (List TreeMutation) × Tree K n p × Rand K) :=
  match treeSample m pGrow pPrune t r with
  | .error e => .error e
  | .ok (none, t1, r1) => .ok (none, t1, r1)
  | .ok (some mus, t1, r1) =>
    match mutateAll mus t1 with
    | .error e => .error e
    | .ok t2 => .ok (some mus, t2, r1)

end
end Bart.Oblivious
