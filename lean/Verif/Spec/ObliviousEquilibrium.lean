import Mathlib.MeasureTheory.Measure.Lebesgue.Basic
import Verif.Model.RealFns
import Verif.Spec.ObliviousDraws

/-! Random trees and a step of the oblivious tree sampler (specification). -/

namespace Bart.Spec
open scoped ENNReal
open Reference
variable {n p : Nat}

/-- The probability that a step of the oblivious tree sampler leads from the tree `t` to a tree with the leaves `q` (from left to right, each with the comparisons on the way to it): the kind of move
drawn with probabilities `pGrow` and `pPrune`, picks uniformly from `0, ..., N - 1`, the number that decides on acceptance uniformly from `[0, 1)`, all independent. The sum over all sequences of kinds
and of picks that are used up exactly. -/
noncomputable def obliviousStepProb (m : Params ℝ) (N : Nat) (pGrow pPrune : ℝ) (t : Tree ℝ n p) (q : List (List (Cond ℝ p))) : ℝ≥0∞ :=
  ∑' ms : List Method, (ms.map (methodProb (ENNReal.ofReal pGrow) (ENNReal.ofReal pPrune))).prod * ∑' us : List (Fin N), (us.map (uniform N)).prod *
    MeasureTheory.volume {u : ℝ | 0 ≤ u ∧ u < 1 ∧ ∃ mus t' r', Oblivious.treeStep m pGrow pPrune t ⟨ms, us.map Fin.val, [u], [], []⟩ = .ok (mus, t', r') ∧ r'.methods = [] ∧ r'.picks = [] ∧
      leafPaths t' = q}

/-- `w` is the distribution of a random tree over the training data `X` with target `y` that the oblivious sampler can arrive at. -/
structure ObliviousRandomTree (X : Fin n → Fin p → Fl ℝ) (y : Fin n → ℝ) (w : Tree ℝ n p → ℝ≥0∞) : Prop where
  total : ∑' t, w t = 1
  reach : ∀ t, w t ≠ 0 → ObliviousWork X t
  target : ∀ t, w t ≠ 0 → HasTarget t y

open Classical in
/-- A step of the oblivious tree sampler does not change the distribution of the leaves. -/
def ObliviousStationary (m : Params ℝ) (N : Nat) (pGrow pPrune : ℝ) (w : Tree ℝ n p → ℝ≥0∞) : Prop :=
  ∀ q, ∑' t, w t * obliviousStepProb m N pGrow pPrune t q = ∑' t, if leafPaths t = q then w t else 0

end Bart.Spec
