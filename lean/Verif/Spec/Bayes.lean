import Verif.Spec.Data
import Mathlib.Probability.Distributions.Gaussian.Real
import Mathlib.Probability.Distributions.Gamma

/-! The Bayesian model of Chipman, George and McCulloch that the samplers are meant to follow (specification, on Mathlib's distributions). -/

namespace Bart.Spec
open ProbabilityTheory MeasureTheory
variable {n : Nat}

/-- Density of the normal distribution with the given mean and variance. -/
noncomputable def normalPdf (mean var x : ℝ) : ℝ := gaussianPDFReal mean var.toNNReal x

/-- Joint density of a leaf value `mu ~ N(0, tau^2)` and the targets `y r ~ N(mu, sigma^2)` of the given rows. -/
noncomputable def leafJoint (sigma tau : ℝ) (y : Fin n → ℝ) (rows : Fin n → Bool) (mu : ℝ) : ℝ :=
  normalPdf 0 (tau ^ 2) mu * ∏ r with rows r = true, normalPdf mu (sigma ^ 2) (y r)

/-- Marginal likelihood of the targets of the given rows: the leaf value is integrated out. -/
noncomputable def leafMarginal (sigma tau : ℝ) (y : Fin n → ℝ) (rows : Fin n → Bool) : ℝ := ∫ mu, leafJoint sigma tau y rows mu

/-- Log ratio of the marginal likelihoods when the rows are split into `left` and `right`. -/
noncomputable def logMarginalRatio (sigma tau : ℝ) (y : Fin n → ℝ) (rows left right : Fin n → Bool) : ℝ :=
  Real.log (leafMarginal sigma tau y left * leafMarginal sigma tau y right / leafMarginal sigma tau y rows)

/-- Density of the inverse gamma distribution (prior of the variance). -/
noncomputable def invGammaPdf (a b v : ℝ) : ℝ := b ^ a / Real.Gamma a * v ^ (-a - 1) * Real.exp (-b / v)

/-- The inverse gamma distribution. -/
noncomputable def invGammaMeasure (a b : ℝ) : Measure ℝ := (volume.restrict (Set.Ioi 0)).withDensity (fun v => ENNReal.ofReal (invGammaPdf a b v))

/-- Joint density of the error variance `v` and the residuals. -/
noncomputable def varianceJoint (a b : ℝ) (res : Fin n → ℝ) (v : ℝ) : ℝ := invGammaPdf a b v * ∏ r, normalPdf 0 v (res r)

end Bart.Spec
