import Verif.Spec.TreeHistory

/-! The splits of a tree and the work on a tree while target, noise and settings stay the same (specification). -/

namespace Bart.Spec
variable {K : Type} [Field K] [LinearOrder K] {n p : Nat}

/-- The splits of a tree: for every decision node the comparisons on the way to it and its rule. Leaf values and object identities do not count. -/
def treeSplits (t : Tree K n p) : Set (List (Fin p × Fl K × Op) × Fin p × Fl K) :=
  {d | ∃ i ∈ t.decisionNodes, (t.heap.node i).split.combined.conditions.map (fun c => (c.splittingVariable, c.splittingValue, c.operator)) = d.1 ∧ rule t.heap i = some d.2}

/-- One step of the work on a tree while the settings, sigma and the target stay the same: a step of the tree sampler (uniform draws are not negative), a step of the leaf sampler, handing over the
same target again, a prediction. -/
inductive FixedStep [MathFns K] (m : Params K) (pGrow pPrune : K) (y : Fin n → K) : Tree K n p → Tree K n p → Prop where
  | tree {t t' mu r r'} : (∀ u ∈ r.uniforms, 0 ≤ u) → Sampler.treeStep m pGrow pPrune t r = .ok (mu, t', r') → FixedStep m pGrow pPrune y t t'
  | leaf {t t' i r r'} : i ∈ t.leafNodes → Sampler.leafStep m t i r = .ok (t', r') → FixedStep m pGrow pPrune y t t'
  | target {t t'} : t.updateY (some y) = .ok t' → FixedStep m pGrow pPrune y t t'
  | predict {t t' b} : t.predict = .ok (b, t') → FixedStep m pGrow pPrune y t t'

end Bart.Spec
