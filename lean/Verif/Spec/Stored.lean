import Verif.Spec.ModelHistory

/-! What one sees of a stored sample (specification). -/

namespace Bart.Spec
variable {K : Type} [Field K] [LinearOrder K] {n p : Nat}

/-- What can be read off a node: its class, depth, conditions, child links, and for a leaf its value. -/
structure NodeView (K : Type) (p : Nat) where
  kind : NodeKind
  depth : Nat
  condition : CombinedCondition K p
  left : Option NodeId
  right : Option NodeId
  value : Option K

/-- The attributes of node `i` in the heap `h`. -/
def nodeView (h : Heap K n p) (i : NodeId) : NodeView K p :=
  { kind := (h.node i).kind, depth := (h.node i).depth, condition := (h.node i).split.combined,
    left := if (h.node i).kind = .leaf then none else (h.node i).left, right := if (h.node i).kind = .leaf then none else (h.node i).right,
    value := if (h.node i).kind = .leaf then some (h.node i).value else none }

/-- The attributes of all nodes of the live model, tree by tree. -/
def liveContent (m : BModel K n p) : List (List (NodeView K p)) := m.trees.map (fun t => t.nodes.map (nodeView t.heap))

/-- The attributes of all nodes of the stored sample `s`, tree by tree, read when the live model is `m`. -/
def storedContent (m : BModel K n p) (s : StoredModel K) : List (List (NodeView K p)) :=
  List.zipWith (fun t ids => ids.map (nodeView t.heap)) m.trees s.trees

variable [MathFns K]

/-- `DrawRun pGrow pPrune (m, r) k (m', r')`: from the model `m` and the random draws `r`, `k` Gibbs sweeps (and any number of `deep_copy_model()`)
lead to `m'`, with the draws `r'` left. -/
inductive DrawRun (pGrow pPrune : K) : BModel K n p × Rand K → Nat → BModel K n p × Rand K → Prop where
  | nil (a) : DrawRun pGrow pPrune a 0 a
  | sweep {a k m1 r1 mus m2 r2} : DrawRun pGrow pPrune a k (m1, r1) → m1.sweep pGrow pPrune r1 = .ok (mus, m2, r2) → DrawRun pGrow pPrune a (k + 1) (m2, r2)
  | copy {a k m1 r1} : DrawRun pGrow pPrune a k (m1, r1) → DrawRun pGrow pPrune a k (m1.deepCopy.2, r1)

open Classical in
/-- The multiples of `1/thin` below `nSamples`. -/
noncomputable def storedTimes (nSamples : Nat) (thin : K) : List Nat :=
  (List.range nSamples).filter (fun s : Nat => decide (∃ z : ℤ, (s : K) = (z : K) * (1 / thin)))

end Bart.Spec
