import Mathlib.Probability.ProductMeasure
import Verif.Model.Samplers

/-! Random draws that come from a finite set of outcomes, as the outputs of a random number generator do (specification). -/

namespace Bart.Spec
open MeasureTheory

/-- The numbers that an outcome stands for: the `k`-th outcome of a chain gives its `k`-th draw of each kind. -/
structure Readings (A : Type) where
  pick : A → Nat
  kind : A → Method
  uniform : A → ℝ
  normal : A → ℝ
  gamma : A → ℝ

/-- What a chain has to draw from if the first `L` outcomes are ready. -/
def Readings.first {A : Type} (S : Readings A) (ω : ℕ → A) (L : Nat) : Rand ℝ :=
  { methods := (List.range L).map (fun k => S.kind (ω k)), picks := (List.range L).map (fun k => S.pick (ω k)), uniforms := (List.range L).map (fun k => S.uniform (ω k)),
    normals := (List.range L).map (fun k => S.normal (ω k)), gammas := (List.range L).map (fun k => S.gamma (ω k)) }

/-- The distribution of all outcomes of all chains, if they are independent and `ν` is the distribution of one of them: `ω i k` is outcome `k` of chain `i`. -/
noncomputable def allDraws {A : Type} [MeasurableSpace A] (ν : Measure A) : Measure (ℕ → ℕ → A) := Measure.infinitePi (fun _ : ℕ => Measure.infinitePi (fun _ : ℕ => ν))

end Bart.Spec
