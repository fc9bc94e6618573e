import Verif.Proofs.Double
import Verif.Props.SamplesProps

/-! C43 with the rounding of floats. -/

set_option linter.unusedSectionVars false

namespace Bart
open Spec
variable {K : Type} [Field K] [LinearOrder K] [IsStrictOrderedRing K] {n p : Nat} [MathFns K] [FloorRing K]

theorem round64_pos {x : ℚ} (hx : 0 < x) : 0 < round64 x := by
  have h1 := lastDigit_le hx.ne'
  rw [abs_of_pos hx] at h1
  have hp : (0 : ℚ) < 2 ^ (lastDigit x + 52) := zpow_pos (by norm_num) _
  have h2 := round64_nearest x (d := 2 ^ (lastDigit x + 52)) ⟨1, lastDigit x + 52, by norm_num, by simp⟩
  rw [abs_of_nonneg (a := x - 2 ^ (lastDigit x + 52)) (by linarith)] at h2
  have := (abs_le.1 h2).2
  linarith

/-- C43 for floats: if the float `1. / thin` is the fraction `a / b` in lowest terms, then the number of stored samples is `n_samples / a`, rounded up. -/
theorem C43_float_partial {thin : ℚ} (hth : 0 < thin) {m m' : BModel K n p} {c : SampleParams K} (hc : c.thin = ((1 / thinInverse thin : ℚ) : K)) {nSamples nBurn : Nat} {r r' : Rand K} {ch : Chain K n}
    (h : m.samples c nSamples nBurn r = .ok (ch, m', r')) : ch.model.length = (nSamples + (thinInverse thin).num.toNat - 1) / (thinInverse thin).num.toNat := by
  rw [C43_samples h, hc]
  have h0 : 0 < thinInverse thin := round64_pos (by positivity)
  have h1 := Rat.num_pos.2 h0
  have e : ((1 / thinInverse thin : ℚ) : K) = ((thinInverse thin).den : K) / ((thinInverse thin).num.toNat : K) := by
    have h2 : (((thinInverse thin).num.toNat : ℤ) : ℚ) = ((thinInverse thin).num : ℚ) := by rw [Int.toNat_of_nonneg h1.le]
    conv_lhs => rw [← Rat.num_div_den (thinInverse thin), ← h2]
    push_cast
    rw [one_div_div]
  rw [e]
  refine C43_count_partial (Rat.den_pos _) (by omega) ?_ nSamples
  have := (thinInverse thin).reduced
  rw [Nat.coprime_comm]
  rwa [← Int.toNat_of_nonneg h1.le, Int.natAbs_natCast] at this

/-- C43, the default: the float 0.1 is not one tenth, but `1. / 0.1` is rounded to 10, so that every tenth sample is stored. -/
theorem C43_float_default {m m' : BModel K n p} {c : SampleParams K} (hc : c.thin = ((1 / thinInverse (round64 (1 / 10)) : ℚ) : K)) {nSamples nBurn : Nat} {r r' : Rand K} {ch : Chain K n}
    (h : m.samples c nSamples nBurn r = .ok (ch, m', r')) : round64 (1 / 10) ≠ 1 / 10 ∧ ch.model.length = (nSamples + 9) / 10 := by
  refine ⟨by decide +kernel, ?_⟩
  rw [C43_float_partial (by decide +kernel) hc h, show thinInverse (round64 (1 / 10)) = 10 by decide +kernel]
  rfl

/-- C43 is false for floats even if `thin` is close to a simple fraction: with 0.75 or 1/49 a single sample is stored, whatever the number of samples (as for many others, for example 0.3, 0.6, 0.7 and 0.9). -/
theorem C43_float_refuted {thin : ℚ} (hth : thin = round64 (3 / 4) ∨ thin = round64 (1 / 49) ∨ thin = round64 (3 / 10) ∨ thin = round64 (6 / 10) ∨ thin = round64 (7 / 10) ∨ thin = round64 (9 / 10)) {m m' : BModel K n p}
    {c : SampleParams K} (hc : c.thin = ((1 / thinInverse thin : ℚ) : K)) {nSamples nBurn : Nat} (hn : 0 < nSamples) (hn' : nSamples ≤ 10 ^ 15) {r r' : Rand K} {ch : Chain K n}
    (h : m.samples c nSamples nBurn r = .ok (ch, m', r')) : ch.model.length = 1 := by
  have h0 : 0 < thin ∧ 10 ^ 15 ≤ (thinInverse thin).num := by
    rcases hth with rfl | rfl | rfl | rfl | rfl | rfl <;> exact ⟨by decide +kernel, by decide +kernel⟩
  rw [C43_float_partial h0.1 hc h]
  have h1 : 10 ^ 15 ≤ (thinInverse thin).num.toNat := by
    have := h0.2
    omega
  generalize (thinInverse thin).num.toNat = b at h1
  exact Nat.div_eq_of_lt_le (by omega) (by omega)

/-- Rounding, an example: `0.1 + 0.2` is not `0.3`. -/
example : round64 (round64 (1 / 10) + round64 (2 / 10)) = 1351079888211149 / 4503599627370496 ∧ round64 (3 / 10) = 5404319552844595 / 18014398509481984 := by
  decide +kernel

section ex
attribute [local instance] exFns

/-- C43, the example: three samples with `thin = 0.75`; one of them is stored. With `thin = 0.5` there are two. -/
example : (match exModel0 with
    | .ok m =>
      match m.samples ⟨1/2, 1/2, 1 / thinInverse (round64 (3 / 4)), true, true⟩ 3 1 exRands, m.samples ⟨1/2, 1/2, 1 / thinInverse (round64 (1 / 2)), true, true⟩ 3 1 exRands with
      | .ok (ch, _, _), .ok (ch', _, _) => decide (ch.model.length = 1 ∧ ch'.model.length = 2)
      | _, _ => false
    | .error _ => false) = true := by
  decide +kernel

end ex

end Bart
