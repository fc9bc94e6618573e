import Mathlib.MeasureTheory.Measure.Lebesgue.Basic
import Verif.Model.RealFns
import Verif.Spec.Draws
import Verif.Spec.Recur

/-! Random trees and a step of the tree sampler (specification). -/

namespace Bart.Spec
open scoped ENNReal
variable {n p : Nat}

/-- The probability that a step of the tree sampler leads from the tree `t` to a tree with the splits `S`: kinds of moves drawn with probabilities `pGrow` and `pPrune`, picks uniformly from
`0, ..., N - 1`, the number that decides on acceptance uniformly from `[0, 1)`, all independent. The sum over all sequences of kinds and of picks that are used up exactly. -/
noncomputable def stepProb (m : Params ℝ) (N : Nat) (pGrow pPrune : ℝ) (t : Tree ℝ n p) (S : Set (List (Fin p × Fl ℝ × Op) × Fin p × Fl ℝ)) : ℝ≥0∞ :=
  ∑' ms : List Method, (ms.map (methodProb (ENNReal.ofReal pGrow) (ENNReal.ofReal pPrune))).prod * ∑' us : List (Fin N), (us.map (uniform N)).prod *
    MeasureTheory.volume {u : ℝ | 0 ≤ u ∧ u < 1 ∧ ∃ mu t' r', Sampler.treeStep m pGrow pPrune t ⟨ms, us.map Fin.val, [u], [], []⟩ = .ok (mu, t', r') ∧ r'.methods = [] ∧ r'.picks = [] ∧ treeSplits t' = S}

/-- `w` is the distribution of a random tree over the training data `X` with target `y`, reached by legal operations, for which some proposal exists. -/
structure RandomTree (X : Fin n → Fin p → Fl ℝ) (y : Fin n → ℝ) (N : Nat) (w : Tree ℝ n p → ℝ≥0∞) : Prop where
  total : ∑' t, w t = 1
  reach : ∀ t, w t ≠ 0 → ReachableTree X t
  target : ∀ t, w t ≠ 0 → HasTarget t y
  divides : ∀ t, w t ≠ 0 → Divides N t
  moves : ∀ t, w t ≠ 0 → t.splittableLeafNodes.1 ≠ [] ∨ t.prunableDecisionNodes ≠ []

open Classical in
/-- A step of the tree sampler does not change the distribution of the splits. -/
def Stationary (m : Params ℝ) (N : Nat) (pGrow pPrune : ℝ) (w : Tree ℝ n p → ℝ≥0∞) : Prop :=
  ∀ S, ∑' t, w t * stepProb m N pGrow pPrune t S = ∑' t, if treeSplits t = S then w t else 0

end Bart.Spec
