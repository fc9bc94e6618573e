import Mathlib.MeasureTheory.Measure.Dirac
import Mathlib.MeasureTheory.Measure.Count
import Mathlib.MeasureTheory.Measure.Prod
import Mathlib.MeasureTheory.Constructions.BorelSpace.Real
import Verif.Model.Samplers

/-! Infinite sequences of random draws (specification). -/

namespace Bart.Spec
open MeasureTheory

/-- Every set of kinds of move is an event. -/
instance : MeasurableSpace Method := ⊤

/-- A random pick from `0, ..., N - 1`, all equally likely. -/
noncomputable def pickMeasure (N : Nat) : Measure (Fin N) := (N : ENNReal)⁻¹ • Measure.count

/-- A random kind of move: growing with probability `q`, otherwise pruning. -/
noncomputable def methodMeasure (q : ℝ) : Measure Method := ENNReal.ofReal q • Measure.dirac .grow + ENNReal.ofReal (1 - q) • Measure.dirac .prune

/-- A random pick and a random kind of move, independent of each other. -/
noncomputable def drawMeasure (N : Nat) (q : ℝ) : Measure (Fin N × Method) := (pickMeasure N).prod (methodMeasure q)

/-- What a chain has to draw from if the first `L` draws of every kind are ready. -/
def firstDraws {K : Type} {N : Nat} (ω : Nat → Fin N × Method) (u z g : Nat → K) (L : Nat) : Rand K :=
  { methods := (List.range L).map (fun k => (ω k).2), picks := (List.range L).map (fun k => (ω k).1.val), uniforms := (List.range L).map u, normals := (List.range L).map z, gammas := (List.range L).map g }

end Bart.Spec
