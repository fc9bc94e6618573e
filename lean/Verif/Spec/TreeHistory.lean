import Verif.Model.Samplers
import Verif.Model.Copy
import Verif.Spec.Data
import Verif.Spec.Condition
import Verif.Spec.DataHistory
import Mathlib.Logic.Relation

/-! Histories of calls on a tree, and what a well-formed tree is (specification). -/

namespace Bart
variable {K : Type} [Field K] [LinearOrder K] {n p : Nat}

/-- Calls on a tree. The cut of a grow is the pair `x_j <= v`, `x_j > v`. -/
inductive TreeOp (K : Type) (n p : Nat) where
  /-- `mutate(tree, GrowMutation(leaf, split_node(leaf, (<=, >))))` -/
  | grow (i : NodeId) (j : Fin p) (v : Fl K)
  /-- `mutate(tree, PruneMutation(node, LeafNode(node.split, depth=node.depth)))` -/
  | prune (i : NodeId)
  /-- a grow that is built but not applied (a rejected proposal) -/
  | proposeGrow (i : NodeId) (j : Fin p) (v : Fl K)
  /-- a prune that is built but not applied -/
  | proposePrune (i : NodeId)
  /-- `tree.update_y(y)` -/
  | updateY (y : Option (Fin n → K))
  /-- `leaf.set_value(v)` -/
  | setValue (i : NodeId) (v : K)
  /-- `tree.predict()` -/
  | predict
  /-- `tree.splittable_leaf_nodes` -/
  | splittableLeaves

/-- `x_j <= v` -/
def leCond (j : Fin p) (v : Fl K) : SplitCondition K p := { splittingVariable := j, splittingValue := v, operator := .le }
/-- `x_j > v` -/
def gtCond (j : Fin p) (v : Fl K) : SplitCondition K p := { splittingVariable := j, splittingValue := v, operator := .gt }

namespace Tree

/-- `GrowMutation(leaf, split_node(leaf, ...))`. -/
def proposeGrow (t : Tree K n p) (i : NodeId) (j : Fin p) (v : Fl K) : Except PyErr (TreeMutation × Tree K n p) :=
  match t.heap.splitNode i (leCond j v) (gtCond j v) with
  | .error e => .error e
  | .ok (d, h) =>
    match growMutation h i d with
    | .error e => .error e
    | .ok m => .ok (m, { t with heap := h })

/-- `PruneMutation(node, LeafNode(node.split, depth=node.depth))`. -/
def proposePrune (t : Tree K n p) (i : NodeId) : Except PyErr (TreeMutation × Tree K n p) :=
  let r := t.heap.newLeaf (t.heap.node i).split (t.heap.node i).depth
  match pruneMutation r.2 i r.1 with
  | .error e => .error e
  | .ok m => .ok (m, { t with heap := r.2 })

/-- One call; `error` if it raises. -/
def step (t : Tree K n p) : TreeOp K n p → Except PyErr (Tree K n p)
  | .grow i j v =>
    match t.proposeGrow i j v with
    | .error e => .error e
    | .ok (m, t1) => t1.mutate m
  | .prune i =>
    match t.proposePrune i with
    | .error e => .error e
    | .ok (m, t1) => t1.mutate m
  | .proposeGrow i j v =>
    match t.proposeGrow i j v with
    | .error e => .error e
    | .ok (_, t1) => .ok t1
  | .proposePrune i =>
    match t.proposePrune i with
    | .error e => .error e
    | .ok (_, t1) => .ok t1
  | .updateY y => t.updateY y
  | .setValue i v =>
    if (t.heap.node i).kind = .leaf then .ok { t with heap := t.heap.setValue i v } else .error .attributeError
  | .predict =>
    match t.predict with
    | .error e => .error e
    | .ok (_, t1) => .ok t1
  | .splittableLeaves => .ok t.splittableLeafNodes.2

/-- A history in which no call raises. -/
def runOps (t : Tree K n p) : List (TreeOp K n p) → Except PyErr (Tree K n p)
  | [] => .ok t
  | op :: ops =>
    match t.step op with
    | .error e => .error e
    | .ok t1 => t1.runOps ops

end Tree

namespace Spec

/-- The nodes and cuts that a call may name: a node of the tree, a cut that is not NaN. -/
def TreeOp.ok (t : Tree K n p) : TreeOp K n p → Prop
  | .grow i _ v => i ∈ t.nodes ∧ v ≠ .nan
  | .prune i => i ∈ t.nodes
  | .proposeGrow i _ v => i ∈ t.nodes ∧ v ≠ .nan
  | .proposePrune i => i ∈ t.nodes
  | .setValue i _ => i ∈ t.nodes
  | _ => True

/-- `Run t ops t'`: the calls succeed one after the other and lead from `t` to `t'`. -/
inductive Run : Tree K n p → List (TreeOp K n p) → Tree K n p → Prop where
  | nil (t) : Run t [] t
  | snoc {t t1 t2 ops op} : Run t ops t1 → TreeOp.ok t1 op → t1.step op = .ok t2 → Run t (ops ++ [op]) t2

/-- A tree with a single root leaf over freshly constructed data. -/
def Fresh (X : Fin n → Fin p → Fl K) (y : Fin n → K) (t : Tree K n p) : Prop :=
  ∃ normalize d0, Data.init X y none normalize none none none none = .ok d0 ∧ t = Tree.ofData d0

/-- Every node of the tree has the target `y`. -/
def HasTarget (t : Tree K n p) (y : Fin n → K) : Prop := ∀ i ∈ t.nodes, (t.heap.dataOf i).y.y = some y

/-- Trees that arise from a fresh one by some history of calls and of steps of the default tree and leaf samplers: the closure of the
fresh trees under legal calls, proposals (applied or not), steps of the tree sampler (both move probabilities nonzero, a target is
set) and of the leaf sampler, with any parameters, draws and any version `F` of the functions log, sqrt and power, and copies for storage. -/
inductive ReachableTree (X : Fin n → Fin p → Fl K) : Tree K n p → Prop where
  | fresh {y t} : Fresh X y t → ReachableTree X t
  | op {t op t'} : ReachableTree X t → TreeOp.ok t op → t.step op = .ok t' → ReachableTree X t'
  | propose {t us ms mu t' us' ms'} : ReachableTree X t → t.propose us ms = .ok (mu, t', us', ms') → ReachableTree X t'
  | apply {t us ms mu t' us' ms' t''} : ReachableTree X t → t.propose us ms = .ok (mu, t', us', ms') → t'.mutate mu = .ok t'' →
      ReachableTree X t''
  | treeStep {t t'} (F : MathFns K) (m : Params K) {pGrow pPrune : K} {r r' : Rand K} {mu : Option TreeMutation} : ReachableTree X t →
      (∃ y, HasTarget t y) → pGrow ≠ 0 → pPrune ≠ 0 → Sampler.treeStep m pGrow pPrune t r = .ok (mu, t', r') → ReachableTree X t'
  | leafStep {t t'} (F : MathFns K) (m : Params K) {i : NodeId} {r r' : Rand K} : ReachableTree X t → i ∈ t.leafNodes →
      Sampler.leafStep m t i r = .ok (t', r') → ReachableTree X t'
  | copy {t} : ReachableTree X t → ReachableTree X t.deepCopy.2

theorem Run.reachable {X : Fin n → Fin p → Fl K} {t t' : Tree K n p} {ops : List (TreeOp K n p)} (h : Run t ops t')
    (ht : ReachableTree X t) : ReachableTree X t' := by
  induction h with
  | nil => exact ht
  | snoc _ h1 h2 ih => exact ih.op h1 h2

/-- `j` is a child of `i`. -/
def IsChild (h : Heap K n p) (i j : NodeId) : Prop := (h.node i).left = some j ∨ (h.node i).right = some j

/-- `i` is a node of the tree without parent in the tree. -/
def IsRoot (t : Tree K n p) (i : NodeId) : Prop := i ∈ t.nodes ∧ ∀ j ∈ t.nodes, ¬ IsChild t.heap j i

/-- A chain of `k` child links. -/
inductive Chain (h : Heap K n p) : NodeId → Nat → NodeId → Prop where
  | nil (i) : Chain h i 0 i
  | snoc {i k j l} : Chain h i k j → IsChild h j l → Chain h i (k + 1) l

/-- A finite rooted binary tree. -/
structure WellFormed (t : Tree K n p) : Prop where
  nodup : t.nodes.Nodup
  root : ∃! i, IsRoot t i
  reach : ∀ i, IsRoot t i → ∀ j, j ∈ t.nodes ↔ ∃ k, Chain t.heap i k j
  leaf : ∀ i ∈ t.nodes, (t.heap.node i).kind = .leaf → (t.heap.node i).left = none ∧ (t.heap.node i).right = none
  decision : ∀ i ∈ t.nodes, (t.heap.node i).kind = .decision → ∃ l r, (t.heap.node i).left = some l ∧
    (t.heap.node i).right = some r ∧ l ≠ r ∧ l ∈ t.nodes ∧ r ∈ t.nodes
  parent : ∀ i ∈ t.nodes, ∀ j ∈ t.nodes, ∀ l, IsChild t.heap i l → IsChild t.heap j l → i = j
  count : t.leafNodes.length = t.decisionNodes.length + 1

/-- The rule `(j, v)` of a decision node: the last condition of its left child. -/
def rule (h : Heap K n p) (i : NodeId) : Option (Fin p × Fl K) :=
  match (h.node i).left with
  | none => none
  | some l => ((h.node l).split.combined.conditions.getLast?).map (fun c => (c.splittingVariable, c.splittingValue))

/-- Following the rules from `i` a row `x` ends in leaf `j`. -/
inductive Walk (h : Heap K n p) (x : Fin p → Fl K) : NodeId → NodeId → Prop where
  | leaf {i} : (h.node i).kind = .leaf → Walk h x i i
  | left {i l j v k} : (h.node i).kind = .decision → (h.node i).left = some l → rule h i = some (j, v) →
      Fl.le (x j) v = true → Walk h x l k → Walk h x i k
  | right {i r j v k} : (h.node i).kind = .decision → (h.node i).right = some r → rule h i = some (j, v) →
      Fl.le (x j) v = false → Walk h x r k → Walk h x i k

end Spec
end Bart
