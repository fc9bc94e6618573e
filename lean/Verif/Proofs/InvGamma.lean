import Verif.Proofs.Bayes
import Mathlib.MeasureTheory.Function.JacobianOneDim

/-! The inverse gamma posterior of the variance. -/

set_option linter.unusedSectionVars false

namespace Bart
open Spec ProbabilityTheory MeasureTheory Set

theorem inv_gamma_density {a b v : ℝ} (hv : 0 < v) :
    ENNReal.ofReal |-(v ^ 2)⁻¹| * gammaPDF a b v⁻¹ = ENNReal.ofReal (invGammaPdf a b v) := by
  rw [gammaPDF_of_nonneg (by positivity), ← ENNReal.ofReal_mul (by positivity)]
  congr 1
  unfold invGammaPdf
  have h1 : v⁻¹ ^ (a - 1) = v ^ (1 - a) := by
    rw [Real.inv_rpow hv.le, ← Real.rpow_neg hv.le]; congr 1; ring
  have h2 : (v ^ 2)⁻¹ = v ^ (-2 : ℝ) := by
    rw [Real.rpow_neg hv.le]; norm_num
  have h3 : v ^ (-2 : ℝ) * v ^ (1 - a) = v ^ (-a - 1) := by
    rw [← Real.rpow_add hv]; congr 1; ring
  have h4 : (0:ℝ) < (v ^ 2)⁻¹ := by positivity
  rw [abs_neg, abs_of_pos h4, h1, h2, ← h3, show -(b * v⁻¹) = -b / v by rw [div_eq_mul_inv]; ring]
  ring

theorem gamma_ae_pos (a b : ℝ) : ∀ᵐ x ∂(gammaMeasure a b), 0 < x := by
  rw [ae_iff]
  have h : {x : ℝ | ¬ 0 < x} = Iic 0 := by ext x; simp
  rw [h, gammaMeasure, withDensity_apply _ measurableSet_Iic, setLIntegral_congr Iio_ae_eq_Iic.symm]
  exact lintegral_gammaPDF_of_nonpos le_rfl

/-- If `g` has the gamma law with shape `a` and rate `b`, then `1/g` has the inverse gamma law. -/
theorem gamma_map_inv (a b : ℝ) : (gammaMeasure a b).map (fun x => x⁻¹) = invGammaMeasure a b := by
  ext T hT
  rw [Measure.map_apply measurable_inv hT, invGammaMeasure, withDensity_apply _ hT, Measure.restrict_restrict hT]
  have himg : (fun x : ℝ => x⁻¹) '' (T ∩ Ioi 0) = (fun x => x⁻¹) ⁻¹' T ∩ Ioi 0 := by
    ext x
    constructor
    · rintro ⟨v, ⟨hv, hv0⟩, rfl⟩
      have hv0 : 0 < v := hv0
      exact ⟨by simpa using hv, inv_pos.2 hv0⟩
    · rintro ⟨h1, h2⟩
      have h2 : 0 < x := h2
      exact ⟨x⁻¹, ⟨h1, mem_Ioi.2 (inv_pos.2 h2)⟩, by simp⟩
  have h0 : gammaMeasure a b ((fun x : ℝ => x⁻¹) ⁻¹' T) = gammaMeasure a b ((fun x => x⁻¹) ⁻¹' T ∩ Ioi 0) := by
    apply measure_congr
    have := gamma_ae_pos a b
    filter_upwards [this] with x hx
    show (x ∈ (fun x : ℝ => x⁻¹) ⁻¹' T) = (x ∈ (fun x : ℝ => x⁻¹) ⁻¹' T ∩ Ioi 0)
    simp only [mem_inter_iff, mem_Ioi, hx, and_true]
  rw [h0, gammaMeasure, withDensity_apply _ ((measurable_inv hT).inter measurableSet_Ioi), ← himg,
    lintegral_image_eq_lintegral_abs_deriv_mul (f' := fun v => -(v ^ 2)⁻¹) (hT.inter measurableSet_Ioi)]
  · apply setLIntegral_congr_fun (hT.inter measurableSet_Ioi)
    rintro v ⟨-, hv⟩
    exact inv_gamma_density hv
  · rintro v ⟨-, hv⟩
    have hv : 0 < v := hv
    exact (hasDerivAt_inv hv.ne').hasDerivWithinAt
  · intro x _ y _ h
    exact inv_injective h

/-- The same for the square of `g ^ (-1/2)`. -/
theorem gamma_map_sq (a b : ℝ) : (gammaMeasure a b).map (fun g => (g ^ (-(1/2) : ℝ)) ^ 2) = invGammaMeasure a b := by
  rw [← gamma_map_inv]
  apply Measure.map_congr
  filter_upwards [gamma_ae_pos a b] with x hx
  rw [← Real.rpow_natCast, ← Real.rpow_mul hx.le]
  norm_num [Real.rpow_neg_one]

variable {n : Nat}

theorem prod_normal_zero {v : ℝ} (hv : 0 < v) (res : Fin n → ℝ) :
    ∏ r, normalPdf 0 v (res r) = (2 * Real.pi) ^ (-(n / 2) : ℝ) * v ^ (-(n / 2) : ℝ) * Real.exp (-(1/2 * ∑ r, res r * res r) / v) := by
  have h : ∀ r, normalPdf 0 v (res r) = (2 * Real.pi * v) ^ (-(1/2) : ℝ) * Real.exp (-(1/2 * (res r * res r)) / v) := by
    intro r
    rw [normalPdf_eq hv, Real.rpow_neg (by positivity), ← Real.sqrt_eq_rpow]
    congr 2
    field_simp
    ring
  simp only [h]
  rw [Finset.prod_mul_distrib, Finset.prod_const, ← Real.exp_sum, Finset.card_univ, Fintype.card_fin, ← Real.rpow_natCast,
    ← Real.rpow_mul (by positivity), ← Real.mul_rpow (by positivity) hv.le]
  congr 1
  · congr 1; ring
  · congr 1
    rw [← Finset.sum_div, Finset.sum_neg_distrib, ← Finset.mul_sum]

/-- The joint density of variance and residuals, as a function of the variance, is a constant times the inverse gamma density with shape
`a + n/2` and rate `b + (sum of squares)/2`. -/
theorem variance_posterior {a b : ℝ} (ha : 0 < a) (hb : 0 < b) (res : Fin n → ℝ) :
    ∃ C, 0 < C ∧ ∀ v, 0 < v → varianceJoint a b res v = C * invGammaPdf (a + n / 2) (b + 1/2 * ∑ r, res r * res r) v := by
  have hs : 0 ≤ ∑ r, res r * res r := Finset.sum_nonneg (fun r _ => mul_self_nonneg _)
  set b' := b + 1/2 * ∑ r, res r * res r with hb'
  set a' := a + (n : ℝ) / 2 with ha'
  have pb : 0 < b' := by positivity
  have pa : 0 < a' := by positivity
  have g1 := Real.Gamma_pos_of_pos ha
  have g2 := Real.Gamma_pos_of_pos pa
  have e2 : 0 < b' ^ a' := Real.rpow_pos_of_pos pb _
  refine ⟨b ^ a / Real.Gamma a * (2 * Real.pi) ^ (-(n / 2) : ℝ) * (Real.Gamma a' / b' ^ a'), by positivity, fun v hv => ?_⟩
  unfold varianceJoint invGammaPdf
  rw [prod_normal_zero hv]
  have h1 : v ^ (-a' - 1) = v ^ (-a - 1) * v ^ (-(n / 2) : ℝ) := by
    rw [← Real.rpow_add hv]; congr 1; rw [ha']; ring
  have h2 : Real.exp (-b' / v) = Real.exp (-b / v) * Real.exp (-(1/2 * ∑ r, res r * res r) / v) := by
    rw [← Real.exp_add]; congr 1; rw [hb']; ring
  rw [h1, h2]
  field_simp

end Bart
