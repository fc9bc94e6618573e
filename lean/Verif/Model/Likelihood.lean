import Verif.Model.Proposer
import Verif.Model.Arith

/-! Model of bartpy/samplers/unconstrainedtree/likihoodratio.py and of `log_probability_ratio` (bartpy/samplers/treemutation.py:57-77).
Every function returns the heap too, because the data queries fill caches. -/

namespace Bart

/-- The attributes of `Model` that the samplers read (bartpy/model.py:17-33) and the current sigma (bartpy/sigma.py:21-34). -/
structure Params (K : Type) where
  alpha : K
  beta : K
  k : K
  nTrees : Nat
  sigma : K

namespace Lik
variable {K : Type} [Field K] [LinearOrder K] [MathFns K] {n p : Nat}

/-- bartpy/model.py:80-82 `sigma_m`: `0.5 / (k * n_trees ** 0.5)`. -/
def sigmaM (m : Params K) : Fl K :=
  Fl.div (.fin (1/2)) (Fl.mul (.fin m.k) (MathFns.pow (m.nTrees : K) (1/2)))

/-- The arithmetic of bartpy/samplers/unconstrainedtree/likihoodratio.py:13-33 `log_grow_ratio`: `n nl nr` are the row counts, `s sl sr` the target sums. -/
def growRatioValue (sigma sigmaMu n nl nr s sl sr : Fl K) : Fl K :=
  let var := Fl.mul sigma sigma
  let varMu := Fl.mul sigmaMu sigmaMu
  let first := Fl.div (Fl.mul var (Fl.add var (Fl.mul n sigmaMu)))
    (Fl.mul (Fl.add var (Fl.mul nl varMu)) (Fl.add var (Fl.mul nr varMu)))
  let first := Fl.log (Fl.sqrt first)
  let left := Fl.div (Fl.mul sl sl) (Fl.add var (Fl.mul nl sigmaMu))
  let right := Fl.div (Fl.mul sr sr) (Fl.add var (Fl.mul nr sigmaMu))
  let comb := Fl.div (Fl.mul s s) (Fl.add var (Fl.mul n sigmaMu))
  let resp := Fl.sub (Fl.add left right) comb
  Fl.add first (Fl.mul (Fl.div varMu (Fl.mul (.fin 2) var)) resp)

/-- bartpy/samplers/unconstrainedtree/likihoodratio.py:13-33 `log_grow_ratio`. -/
def logGrowRatio (h : Heap K n p) (combined left right : NodeId) (sigma : K) (sigmaMu : Fl K) : Except PyErr (Fl K × Heap K n p) :=
  let nn := (h.dataOf combined).X.nObsv
  let nl := (h.dataOf left).X.nObsv
  let nr := (h.dataOf right).X.nObsv
  match h.sumYOf (h.node combined).split.data with
  | .error e => .error e
  | .ok (s, h1) =>
    match h1.sumYOf (h1.node left).split.data with
    | .error e => .error e
    | .ok (sl, h2) =>
      match h2.sumYOf (h2.node right).split.data with
      | .error e => .error e
      | .ok (sr, h3) =>
        .ok (growRatioValue (.fin sigma) sigmaMu (Fl.ofInt nn) (Fl.ofInt nl) (Fl.ofInt nr) (.fin s) (.fin sl) (.fin sr), h3)

/-- The child pointers of a node as the code reads them: AttributeError when the child is `None`. -/
def children (h : Heap K n p) (i : NodeId) : Except PyErr (NodeId × NodeId) :=
  match (h.node i).left, (h.node i).right with
  | some l, some r => .ok (l, r)
  | _, _ => .error .attributeError

/-- bartpy/samplers/unconstrainedtree/likihoodratio.py:62-70 `log_likihood_ratio`, :72-74 `log_likihood_ratio_grow`, :76-78 `log_likihood_ratio_prune`. -/
def logLikihoodRatio (m : Params K) (h : Heap K n p) (mu : TreeMutation) : Except PyErr (Fl K × Heap K n p) :=
  match mu.kind with
  | .grow =>
    match children h mu.updated with
    | .error e => .error e
    | .ok (l, r) => logGrowRatio h mu.existing l r m.sigma (sigmaM m)
  | .prune =>
    match children h mu.existing with
    | .error e => .error e
    | .ok (l, r) =>
      match logGrowRatio h mu.updated l r m.sigma (sigmaM m) with
      | .error e => .error e
      | .ok (v, h1) => .ok (Fl.neg v, h1)
  | .other => .error .notImplemented

/-- bartpy/samplers/unconstrainedtree/likihoodratio.py:129-134 `n_prunable_decision_nodes`. -/
def nPrunable (t : Tree K n p) : Nat := t.prunableDecisionNodes.length

/-- bartpy/samplers/unconstrainedtree/likihoodratio.py:137-142 `n_splittable_leaf_nodes`. -/
def nSplittableLeaves (t : Tree K n p) : Nat × Tree K n p := (t.splittableLeafNodes.1.length, t.splittableLeafNodes.2)

/-- bartpy/samplers/unconstrainedtree/likihoodratio.py:157-169 `log_probability_split_within_node`: `existing` is the (leaf) node that is split, `updated` the decision node. -/
def logSplitWithinNode (h : Heap K n p) (existing updated : NodeId) : Except PyErr (Fl K × Heap K n p) :=
  let d := h.dataOf existing
  let s := d.X.nSplittable
  let h1 := h.setDataOf existing { d with X := s.2 }
  let probVar := Fl.neg (Fl.log (Fl.ofInt (s.1 : Int)))
  match h1.mostRecentSplitCondition updated with
  | .error e => .error e
  | .ok none => .error .attributeError
  | .ok (some c) =>
    let d1 := h1.dataOf existing
    let q := d1.X.proportionOfValue c.splittingVariable c.splittingValue
    let h2 := h1.setDataOf existing { d1 with X := q.2 }
    .ok (Fl.add probVar (Fl.log (Fl.div (Fl.ofInt q.1.1) (Fl.ofInt q.1.2))), h2)

/-- bartpy/samplers/unconstrainedtree/likihoodratio.py:145-154 `log_probability_split_within_tree`. -/
def logSplitWithinTree (t : Tree K n p) (mu : TreeMutation) : Except PyErr (Fl K × Tree K n p) :=
  let r := nSplittableLeaves t
  match logSplitWithinNode r.2.heap mu.existing mu.updated with
  | .error e => .error e
  | .ok (v, h) => .ok (Fl.add (Fl.neg (Fl.log (Fl.ofInt (r.1 : Int)))) v, { r.2 with heap := h })

/-- Division of two Python floats. -/
def pyDiv (a b : K) : Except PyErr K := if b = 0 then .error .zeroDivision else .ok (a / b)

/-- bartpy/samplers/unconstrainedtree/likihoodratio.py:80-87 `log_grow_transition_ratio`; `pGrow`, `pPrune` are the two entries of `prob_method`. -/
def logGrowTransition (pGrow pPrune : K) (t : Tree K n p) (mu : TreeMutation) : Except PyErr (Fl K × Tree K n p) :=
  let probPrune := Fl.neg (Fl.log (Fl.ofInt ((nPrunable t : Int) + 1)))
  match logSplitWithinTree t mu with
  | .error e => .error e
  | .ok (probGrow, t1) =>
    match pyDiv pPrune pGrow with
    | .error e => .error e
    | .ok q => .ok (Fl.add (Fl.log (.fin q)) (Fl.sub probPrune probGrow), t1)

/-- bartpy/samplers/unconstrainedtree/likihoodratio.py:89-102 `log_prune_transition_ratio`. `n_splittable_leaf_nodes` is evaluated once here (its second evaluation at :93
gives the same answer); `GrowMutation(...)` at :94 raises TypeError if the updated node is not a leaf. -/
def logPruneTransition (pGrow pPrune : K) (t : Tree K n p) (mu : TreeMutation) : Except PyErr (Fl K × Tree K n p) :=
  let r := nSplittableLeaves t
  let probNode : Fl K := if r.1 = 1 then .ninf else Fl.neg (Fl.log (Fl.ofInt ((r.1 : Int) - 1)))
  match Tree.growMutation r.2.heap mu.updated mu.existing with
  | .error e => .error e
  | .ok g =>
    match logSplitWithinNode r.2.heap g.existing g.updated with
    | .error e => .error e
    | .ok (v, h) =>
      let t1 := { r.2 with heap := h }
      let probGrow := Fl.add probNode v
      let probPrune := Fl.neg (Fl.log (Fl.ofInt (nPrunable t1 : Int)))
      match pyDiv pGrow pPrune with
      | .error e => .error e
      | .ok q => .ok (Fl.add (Fl.log (.fin q)) (Fl.sub probGrow probPrune), t1)

/-- bartpy/samplers/unconstrainedtree/likihoodratio.py:44-52 `log_transition_ratio`. -/
def logTransitionRatio (pGrow pPrune : K) (t : Tree K n p) (mu : TreeMutation) : Except PyErr (Fl K × Tree K n p) :=
  match mu.kind with
  | .prune => logPruneTransition pGrow pPrune t mu
  | .grow => logGrowTransition pGrow pPrune t mu
  | .other => .error .notImplemented

/-- `alpha * np.power(1 + depth, -beta)`. -/
def splitProb (m : Params K) (depth : Nat) : Fl K :=
  Fl.mul (.fin m.alpha) (MathFns.pow ((1 + depth : Nat) : K) (-m.beta))

/-- bartpy/samplers/unconstrainedtree/likihoodratio.py:172-173 `log_probability_node_split`. -/
def logNodeSplit (m : Params K) (depth : Nat) : Fl K := Fl.log (splitProb m depth)

/-- bartpy/samplers/unconstrainedtree/likihoodratio.py:176-177 `log_probability_node_not_split`. -/
def logNodeNotSplit (m : Params K) (depth : Nat) : Fl K := Fl.log (Fl.sub (.fin 1) (splitProb m depth))

/-- bartpy/samplers/unconstrainedtree/likihoodratio.py:104-114 `log_tree_ratio_grow`. -/
def logTreeRatioGrow (m : Params K) (t : Tree K n p) (mu : TreeMutation) : Except PyErr (Fl K × Tree K n p) :=
  let h := t.heap
  let denominator := logNodeNotSplit m (h.node mu.existing).depth
  match children h mu.updated with
  | .error e => .error e
  | .ok (l, r) =>
    let pl := logNodeNotSplit m (h.node l).depth
    let pr := logNodeNotSplit m (h.node r).depth
    let ps := logNodeSplit m (h.node mu.updated).depth
    match logSplitWithinTree t mu with
    | .error e => .error e
    | .ok (pc, t1) => .ok (Fl.sub (Fl.add (Fl.add (Fl.add pl pr) ps) pc) denominator, t1)

/-- bartpy/samplers/unconstrainedtree/likihoodratio.py:116-126 `log_tree_ratio_prune`. The left child is used for both children (lines 120-121). -/
def logTreeRatioPrune (m : Params K) (t : Tree K n p) (mu : TreeMutation) : Except PyErr (Fl K × Tree K n p) :=
  let h := t.heap
  let numerator := logNodeNotSplit m (h.node mu.updated).depth
  match (h.node mu.existing).left with
  | none => .error .attributeError
  | some l =>
    let pl := logNodeNotSplit m (h.node l).depth
    let pr := logNodeNotSplit m (h.node l).depth
    let ps := logNodeSplit m (h.node mu.existing).depth
    match Tree.growMutation h mu.updated mu.existing with
    | .error e => .error e
    | .ok g =>
      match logSplitWithinNode h g.existing g.updated with
      | .error e => .error e
      | .ok (pc, h1) => .ok (Fl.sub numerator (Fl.add (Fl.add (Fl.add pl pr) ps) pc), { t with heap := h1 })

/-- bartpy/samplers/unconstrainedtree/likihoodratio.py:54-60 `log_tree_ratio`; for another kind it returns `None`, which cannot be added (TypeError at
bartpy/samplers/treemutation.py:77). -/
def logTreeRatio (m : Params K) (t : Tree K n p) (mu : TreeMutation) : Except PyErr (Fl K × Tree K n p) :=
  match mu.kind with
  | .grow => logTreeRatioGrow m t mu
  | .prune => logTreeRatioPrune m t mu
  | .other => .error .typeError

/-- bartpy/samplers/treemutation.py:57-77 `log_probability_ratio`. -/
def logProbabilityRatio (m : Params K) (pGrow pPrune : K) (t : Tree K n p) (mu : TreeMutation) :
    Except PyErr (Fl K × Tree K n p) :=
  match logTransitionRatio pGrow pPrune t mu with
  | .error e => .error e
  | .ok (a, t1) =>
    match logLikihoodRatio m t1.heap mu with
    | .error e => .error e
    | .ok (b, h2) =>
      match logTreeRatio m { t1 with heap := h2 } mu with
      | .error e => .error e
      | .ok (c, t3) => .ok (Fl.add (Fl.add a b) c, t3)

end Lik
end Bart
