import Verif.Spec.Bayes
import Verif.Proofs.RealLemmas

/-! Closed forms of the Bayesian model. -/

set_option linter.unusedSectionVars false

namespace Bart
open Spec ProbabilityTheory MeasureTheory
variable {n : Nat}

theorem normalPdf_eq {v : ℝ} (hv : 0 < v) (m x : ℝ) : normalPdf m v x = (Real.sqrt (2 * Real.pi * v))⁻¹ * Real.exp (-(x - m) ^ 2 / (2 * v)) := by
  unfold normalPdf gaussianPDFReal
  rw [Real.coe_toNNReal _ hv.le]

theorem normalPdf_pos {v : ℝ} (hv : 0 < v) (m x : ℝ) : 0 < normalPdf m v x := by
  rw [normalPdf_eq hv]; have := Real.pi_pos; positivity

/-- Sum of the squares. -/
noncomputable def sqs (y : Fin n → ℝ) (rows : Fin n → Bool) : ℝ := ∑ r with rows r = true, y r ^ 2

theorem prod_normal {v : ℝ} (hv : 0 < v) (y : Fin n → ℝ) (rows : Fin n → Bool) (mu : ℝ) :
    ∏ r with rows r = true, normalPdf mu v (y r) =
      (Real.sqrt (2 * Real.pi * v))⁻¹ ^ count rows * Real.exp (-(sqs y rows - 2 * mu * total y rows + count rows * mu ^ 2) / (2 * v)) := by
  simp only [normalPdf_eq hv]
  rw [Finset.prod_mul_distrib, Finset.prod_const, ← Real.exp_sum]
  congr 2
  rw [← Finset.sum_div, Finset.sum_neg_distrib]
  congr 2
  unfold sqs total count
  rw [Finset.mul_sum, ← nsmul_eq_mul, ← Finset.sum_const, ← Finset.sum_sub_distrib, ← Finset.sum_add_distrib]
  exact Finset.sum_congr rfl fun r _ => by ring

/-- Posterior mean and variance of a leaf value. -/
noncomputable def postMean (sigma tau : ℝ) (y : Fin n → ℝ) (rows : Fin n → Bool) : ℝ := tau ^ 2 * total y rows / (sigma ^ 2 + count rows * tau ^ 2)
noncomputable def postVar (sigma tau : ℝ) (rows : Fin n → Bool) : ℝ := sigma ^ 2 * tau ^ 2 / (sigma ^ 2 + count rows * tau ^ 2)

noncomputable def evidence (sigma tau : ℝ) (y : Fin n → ℝ) (rows : Fin n → Bool) : ℝ :=
  (Real.sqrt (2 * Real.pi * sigma ^ 2))⁻¹ ^ count rows * Real.sqrt (sigma ^ 2 / (sigma ^ 2 + count rows * tau ^ 2)) *
    Real.exp (-sqs y rows / (2 * sigma ^ 2) + tau ^ 2 * total y rows ^ 2 / (2 * sigma ^ 2 * (sigma ^ 2 + count rows * tau ^ 2)))

variable {sigma tau : ℝ} (hs : 0 < sigma) (ht : 0 < tau) (y : Fin n → ℝ) (rows : Fin n → Bool)
include hs ht

theorem postVar_pos : 0 < postVar sigma tau rows := by unfold postVar; positivity

theorem evidence_pos : 0 < evidence sigma tau y rows := by
  have := Real.pi_pos
  unfold evidence; positivity

/-- The joint density is the evidence times the density of the posterior. -/
theorem leafJoint_eq (mu : ℝ) : leafJoint sigma tau y rows mu =
    evidence sigma tau y rows * normalPdf (postMean sigma tau y rows) (postVar sigma tau rows) mu := by
  have hpi := Real.pi_pos
  have hV := postVar_pos hs ht rows
  unfold leafJoint
  rw [prod_normal (by positivity), normalPdf_eq (by positivity), normalPdf_eq hV]
  unfold evidence
  set N : ℝ := (count rows : ℝ) with hN
  have hN0 : 0 ≤ N := Nat.cast_nonneg _
  set S := total y rows
  set Q := sqs y rows
  set A := (Real.sqrt (2 * Real.pi * sigma ^ 2))⁻¹ ^ count rows
  have e1 : (Real.sqrt (2 * Real.pi * tau ^ 2))⁻¹ = Real.sqrt (sigma ^ 2 / (sigma ^ 2 + N * tau ^ 2)) * (Real.sqrt (2 * Real.pi * postVar sigma tau rows))⁻¹ := by
    have : 2 * Real.pi * postVar sigma tau rows = (2 * Real.pi * tau ^ 2) * (sigma ^ 2 / (sigma ^ 2 + N * tau ^ 2)) := by
      unfold postVar; ring
    rw [this, Real.sqrt_mul (by positivity) (sigma ^ 2 / (sigma ^ 2 + N * tau ^ 2))]
    have : 0 < Real.sqrt (sigma ^ 2 / (sigma ^ 2 + N * tau ^ 2)) := by positivity
    field_simp
  have e2 : -(mu - 0) ^ 2 / (2 * tau ^ 2) + -(Q - 2 * mu * S + N * mu ^ 2) / (2 * sigma ^ 2) =
      (-Q / (2 * sigma ^ 2) + tau ^ 2 * S ^ 2 / (2 * sigma ^ 2 * (sigma ^ 2 + N * tau ^ 2))) +
        -(mu - postMean sigma tau y rows) ^ 2 / (2 * postVar sigma tau rows) := by
    unfold postMean postVar
    rw [← hN]
    have : 0 < sigma ^ 2 + N * tau ^ 2 := by positivity
    field_simp
    ring
  calc (Real.sqrt (2 * Real.pi * tau ^ 2))⁻¹ * Real.exp (-(mu - 0) ^ 2 / (2 * tau ^ 2)) * (A * Real.exp (-(Q - 2 * mu * S + N * mu ^ 2) / (2 * sigma ^ 2)))
      = (Real.sqrt (2 * Real.pi * tau ^ 2))⁻¹ * A * Real.exp (-(mu - 0) ^ 2 / (2 * tau ^ 2) + -(Q - 2 * mu * S + N * mu ^ 2) / (2 * sigma ^ 2)) := by
        rw [Real.exp_add]; ring
    _ = _ := by
        rw [e1, e2, Real.exp_add]; ring

theorem leafMarginal_eq : leafMarginal sigma tau y rows = evidence sigma tau y rows := by
  have hV := postVar_pos hs ht rows
  unfold leafMarginal
  simp only [leafJoint_eq hs ht]
  rw [integral_const_mul]
  unfold normalPdf
  rw [integral_gaussianPDFReal_eq_one _ (by simpa using hV), mul_one]

theorem leafMarginal_pos : 0 < leafMarginal sigma tau y rows := by
  rw [leafMarginal_eq hs ht]; exact evidence_pos hs ht y rows

theorem log_evidence : Real.log (evidence sigma tau y rows) =
    count rows * Real.log (Real.sqrt (2 * Real.pi * sigma ^ 2))⁻¹ + Real.log (sigma ^ 2 / (sigma ^ 2 + count rows * tau ^ 2)) / 2 +
      (-sqs y rows / (2 * sigma ^ 2) + tau ^ 2 * total y rows ^ 2 / (2 * sigma ^ 2 * (sigma ^ 2 + count rows * tau ^ 2))) := by
  have := Real.pi_pos
  unfold evidence
  rw [Real.log_mul (by positivity) (by positivity), Real.log_mul (by positivity) (by positivity), Real.log_exp, Real.log_pow, Real.log_sqrt (by positivity)]

/-- The log ratio of the marginal likelihoods in closed form. -/
theorem logMarginalRatio_eq {left right : Fin n → Bool} (hc : count rows = count left + count right)
    (hq : sqs y rows = sqs y left + sqs y right) : logMarginalRatio sigma tau y rows left right =
    Real.log (sigma ^ 2 * (sigma ^ 2 + count rows * tau ^ 2) / ((sigma ^ 2 + count left * tau ^ 2) * (sigma ^ 2 + count right * tau ^ 2))) / 2 +
      tau ^ 2 / (2 * sigma ^ 2) * (total y left ^ 2 / (sigma ^ 2 + count left * tau ^ 2) + total y right ^ 2 / (sigma ^ 2 + count right * tau ^ 2) -
        total y rows ^ 2 / (sigma ^ 2 + count rows * tau ^ 2)) := by
  unfold logMarginalRatio
  simp only [leafMarginal_eq hs ht]
  have p1 := evidence_pos hs ht y left
  have p2 := evidence_pos hs ht y right
  have p3 := evidence_pos hs ht y rows
  rw [Real.log_div (by positivity) (by positivity), Real.log_mul (by positivity) (by positivity), log_evidence hs ht, log_evidence hs ht, log_evidence hs ht, hq]
  have a1 : 0 < sigma ^ 2 + (count left : ℝ) * tau ^ 2 := by positivity
  have a2 : 0 < sigma ^ 2 + (count right : ℝ) * tau ^ 2 := by positivity
  have a3 : 0 < sigma ^ 2 + (count rows : ℝ) * tau ^ 2 := by positivity
  have a0 : 0 < sigma ^ 2 := by positivity
  rw [Real.log_div a0.ne' a1.ne', Real.log_div a0.ne' a2.ne', Real.log_div a0.ne' a3.ne', Real.log_div (by positivity) (by positivity),
    Real.log_mul a0.ne' a3.ne', Real.log_mul a1.ne' a2.ne']
  have hc' : (count rows : ℝ) = count left + count right := by exact_mod_cast hc
  have e1 : tau ^ 2 * total y left ^ 2 / (2 * sigma ^ 2 * (sigma ^ 2 + count left * tau ^ 2)) = tau ^ 2 / (2 * sigma ^ 2) * (total y left ^ 2 / (sigma ^ 2 + count left * tau ^ 2)) := by
    rw [div_mul_div_comm]
  have e2 : tau ^ 2 * total y right ^ 2 / (2 * sigma ^ 2 * (sigma ^ 2 + count right * tau ^ 2)) = tau ^ 2 / (2 * sigma ^ 2) * (total y right ^ 2 / (sigma ^ 2 + count right * tau ^ 2)) := by
    rw [div_mul_div_comm]
  have e3 : tau ^ 2 * total y rows ^ 2 / (2 * sigma ^ 2 * (sigma ^ 2 + count rows * tau ^ 2)) = tau ^ 2 / (2 * sigma ^ 2) * (total y rows ^ 2 / (sigma ^ 2 + count rows * tau ^ 2)) := by
    rw [div_mul_div_comm]
  rw [e1, e2, e3]
  have : (count rows : ℝ) * Real.log (Real.sqrt (2 * Real.pi * sigma ^ 2))⁻¹ = count left * Real.log (Real.sqrt (2 * Real.pi * sigma ^ 2))⁻¹ +
      count right * Real.log (Real.sqrt (2 * Real.pi * sigma ^ 2))⁻¹ := by rw [hc']; ring
  rw [this]
  ring

end Bart
