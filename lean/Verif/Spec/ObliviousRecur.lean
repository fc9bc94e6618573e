import Verif.Spec.TreeHistory
import Verif.Spec.Reference
import Verif.Model.Oblivious

/-! The leaves of a tree and the work of the oblivious sampler on a tree, in particular while target, noise and settings stay the same (specification). -/

namespace Bart.Spec
open Reference
variable {K : Type} [Field K] [LinearOrder K] {n p : Nat}

/-- The leaves of a tree in the order of the list of nodes, each with the comparisons on the way to it. Leaf values and object identities do not count. -/
def leafPaths (t : Tree K n p) : List (List (Cond K p)) :=
  t.leafNodes.map (fun i => (t.heap.node i).split.combined.conditions.map (fun c => ⟨c.splittingVariable, c.splittingValue, decide (c.operator = .le)⟩))

/-- Trees that the oblivious sampler works on: any tree of one node, and what becomes of it by steps of the oblivious tree sampler (with a target), steps of the leaf sampler, new targets and
predictions. The settings may change from step to step. -/
inductive ObliviousWork (X : Fin n → Fin p → Fl K) : Tree K n p → Prop where
  | single {t} : ReachableTree X t → t.nodes.length = 1 → ObliviousWork X t
  | tree {t t' mus r r'} (F : MathFns K) (m : Params K) {pGrow pPrune : K} : ObliviousWork X t → (∃ y, HasTarget t y) → pGrow ≠ 0 → pPrune ≠ 0 →
      Oblivious.treeStep m pGrow pPrune t r = .ok (mus, t', r') → ObliviousWork X t'
  | leaf {t t' i r r'} (F : MathFns K) (m : Params K) : ObliviousWork X t → (∃ y, HasTarget t y) → i ∈ t.leafNodes → Sampler.leafStep m t i r = .ok (t', r') → ObliviousWork X t'
  | target {t t' y} : ObliviousWork X t → t.updateY y = .ok t' → ObliviousWork X t'
  | predict {t t' b} : ObliviousWork X t → t.predict = .ok (b, t') → ObliviousWork X t'

/-- One step of the work on a tree while the settings, sigma and the target stay the same: a step of the oblivious tree sampler (uniform draws are not negative), a step of the leaf sampler,
handing over the same target again, a prediction. -/
inductive ObliviousFixed [MathFns K] (m : Params K) (pGrow pPrune : K) (y : Fin n → K) : Tree K n p → Tree K n p → Prop where
  | tree {t t' mus r r'} : (∀ u ∈ r.uniforms, 0 ≤ u) → Oblivious.treeStep m pGrow pPrune t r = .ok (mus, t', r') → ObliviousFixed m pGrow pPrune y t t'
  | leaf {t t' i r r'} : i ∈ t.leafNodes → Sampler.leafStep m t i r = .ok (t', r') → ObliviousFixed m pGrow pPrune y t t'
  | target {t t'} : t.updateY (some y) = .ok t' → ObliviousFixed m pGrow pPrune y t t'
  | predict {t t' b} : t.predict = .ok (b, t') → ObliviousFixed m pGrow pPrune y t t'

end Bart.Spec
