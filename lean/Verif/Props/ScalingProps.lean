import Verif.Model.Scaling
import Verif.Props.RoundingProps

/-! Property theorem C118: scaling of the target in floating point arithmetic. -/

namespace Bart.Rounding
open Spec
variable {K : Type} [Field K] [LinearOrder K] [IsStrictOrderedRing K] {fl : K → K} {u : K}

/-- What is needed of the rounding of floats: it keeps the order, has a relative error of at most `u`, and the numbers 0, 1, 1/2 and -1/2 are floats. -/
structure Rounds (fl : K → K) (u : K) : Prop where
  mono : ∀ {x y}, x ≤ y → fl x ≤ fl y
  error : ∀ x, |fl x - x| ≤ u * |x|
  one : fl 1 = 1
  half : fl (1 / 2) = 1 / 2
  minusHalf : fl (-(1 / 2)) = -(1 / 2)
  small : u ≤ 1 / 100

theorem Rounds.nonneg (h : Rounds fl u) : 0 ≤ u := by
  have := h.error 1
  rw [h.one, sub_self, abs_zero, abs_one, mul_one] at this
  exact this

theorem Rounds.zero (h : Rounds fl u) : fl 0 = 0 := by
  have := h.error 0
  rw [sub_zero, abs_zero, mul_zero] at this
  exact abs_nonpos_iff.1 this

theorem Rounds.pos (h : Rounds fl u) {x : K} (hx : 0 < x) : 0 < fl x := by
  have h1 := (abs_le.1 (h.error x)).1
  rw [abs_of_pos hx] at h1
  have h2 := h.small
  nlinarith

/-! ### C118 -/

theorem quotient_range (h : Rounds fl u) {lo hi y : K} (hlt : lo < hi) (h1 : lo ≤ y) (h2 : y ≤ hi) : 0 ≤ fl (fl (y - lo) / fl (hi - lo)) ∧ fl (fl (y - lo) / fl (hi - lo)) ≤ 1 := by
  have hd := h.pos (sub_pos.2 hlt)
  have ha : 0 ≤ fl (y - lo) := by rw [← h.zero]; exact h.mono (sub_nonneg.2 h1)
  have hb : fl (y - lo) ≤ fl (hi - lo) := h.mono (by linarith)
  refine ⟨?_, ?_⟩
  · rw [← h.zero]; exact h.mono (div_nonneg ha hd.le)
  · calc fl (fl (y - lo) / fl (hi - lo)) ≤ fl 1 := h.mono ((div_le_one hd).2 hb)
      _ = 1 := h.one

/-- C118: scaled targets lie between -0.5 and 0.5. -/
theorem C118_range (h : Rounds fl u) {lo hi y : K} (hlt : lo < hi) (h1 : lo ≤ y) (h2 : y ≤ hi) : -(1 / 2) ≤ normalize fl lo hi y ∧ normalize fl lo hi y ≤ 1 / 2 := by
  obtain ⟨q1, q2⟩ := quotient_range h hlt h1 h2
  refine ⟨?_, ?_⟩
  · rw [← h.minusHalf]; exact h.mono (by linarith)
  · rw [← h.half]; exact h.mono (by linarith)

/-- C118: the least target becomes -0.5 and the largest 0.5, without error. -/
theorem C118_ends (h : Rounds fl u) {lo hi : K} (hlt : lo < hi) : normalize fl lo hi lo = -(1 / 2) ∧ normalize fl lo hi hi = 1 / 2 := by
  have hd := h.pos (sub_pos.2 hlt)
  refine ⟨?_, ?_⟩
  · rw [normalize, sub_self, h.zero, zero_div, h.zero, add_zero, h.minusHalf]
  · rw [normalize, div_self hd.ne', h.one, show (-(1 / 2) + 1 : K) = 1 / 2 by norm_num, h.half]

/-- C118: a larger target never becomes smaller than a smaller one; nor does it in the other direction. -/
theorem C118_order (h : Rounds fl u) {lo hi : K} (hlt : lo < hi) {y y' : K} (hy : y ≤ y') :
    normalize fl lo hi y ≤ normalize fl lo hi y' ∧ unnormalize fl lo hi y ≤ unnormalize fl lo hi y' := by
  have hd := h.pos (sub_pos.2 hlt)
  refine ⟨?_, ?_⟩
  · exact h.mono (by
      have : fl (fl (y - lo) / fl (hi - lo)) ≤ fl (fl (y' - lo) / fl (hi - lo)) := h.mono (div_le_div_of_nonneg_right (h.mono (by linarith)) hd.le)
      linarith)
  · exact h.mono (by
      have : fl (fl (y - -(1 / 2)) * fl (hi - lo)) ≤ fl (fl (y' - -(1 / 2)) * fl (hi - lo)) := h.mono (mul_le_mul_of_nonneg_right (h.mono (by linarith)) hd.le)
      linarith)

/-- C118: scaling back gives the target up to a few units of rounding of the range of the targets and one of the target. -/
theorem C118_back (h : Rounds fl u) {lo hi y : K} (hlt : lo < hi) (h1 : lo ≤ y) (h2 : y ≤ hi) :
    |unnormalize fl lo hi (normalize fl lo hi y) - y| ≤ 5 * u * (hi - lo) + u * |y| := by
  have hu := h.nonneg
  have hs := h.small
  have hD : 0 < hi - lo := sub_pos.2 hlt
  obtain ⟨q1, q2⟩ := quotient_range h hlt h1 h2
  obtain ⟨r1, r2⟩ := C118_range h hlt h1 h2
  have hd := h.pos hD
  have e1 := h.error (hi - lo)
  have e2 := h.error (y - lo)
  have e3 := h.error (fl (y - lo) / fl (hi - lo))
  have e4 := h.error (-(1 / 2) + fl (fl (y - lo) / fl (hi - lo)))
  have e5 := h.error (normalize fl lo hi y - -(1 / 2))
  have e6 := h.error (fl (normalize fl lo hi y - -(1 / 2)) * fl (hi - lo))
  have e7 := h.error (lo + fl (fl (normalize fl lo hi y - -(1 / 2)) * fl (hi - lo)))
  have b1 : 0 ≤ fl (normalize fl lo hi y - -(1 / 2)) := by rw [← h.zero]; exact h.mono (by linarith)
  have b2 : fl (normalize fl lo hi y - -(1 / 2)) ≤ 1 := (h.mono (by linarith)).trans h.one.le
  have a1 : 0 ≤ fl (y - lo) := by rw [← h.zero]; exact h.mono (by linarith)
  have hr : normalize fl lo hi y = fl (-(1 / 2) + fl (fl (y - lo) / fl (hi - lo))) := rfl
  rw [← hr] at e4
  unfold unnormalize
  generalize fl (lo + fl (fl (normalize fl lo hi y - -(1 / 2)) * fl (hi - lo))) = w at *
  generalize fl (fl (normalize fl lo hi y - -(1 / 2)) * fl (hi - lo)) = m at *
  generalize fl (normalize fl lo hi y - -(1 / 2)) = b at *
  generalize normalize fl lo hi y = r at *
  generalize fl (fl (y - lo) / fl (hi - lo)) = q at *
  generalize fl (y - lo) = a at *
  generalize fl (hi - lo) = d at *
  have hx0 : 0 ≤ y - lo := by linarith
  have hxD : y - lo ≤ hi - lo := by linarith
  generalize hx : y - lo = x at *
  generalize hi - lo = D at *
  rw [abs_of_pos hD] at e1
  rw [abs_of_nonneg hx0] at e2
  have d1 : d ≤ D + u * D := by linarith [(abs_le.1 e1).2]
  have ux : u * x ≤ u * D := mul_le_mul_of_nonneg_left hxD hu
  have a2 : a ≤ D + u * D := by linarith [(abs_le.1 e2).2]
  -- the quotient times the range
  have f3 : |q * d - a| ≤ u * a := by
    have : q * d - a = (q - a / d) * d := by field_simp
    rw [this, abs_mul, abs_of_pos hd]
    calc |q - a / d| * d ≤ u * |a / d| * d := mul_le_mul_of_nonneg_right e3 hd.le
      _ = u * a := by rw [abs_of_nonneg (div_nonneg a1 hd.le)]; field_simp
  have ua : u * a ≤ u * (D + u * D) := mul_le_mul_of_nonneg_left a2 hu
  have f4 : |r - q + 1 / 2| ≤ u * (1 / 2) := by
    have : |-(1 / 2) + q| ≤ 1 / 2 := abs_le.2 ⟨by linarith, by linarith⟩
    calc |r - q + 1 / 2| = |r - (-(1 / 2) + q)| := by congr 1; ring
      _ ≤ u * |-(1 / 2) + q| := e4
      _ ≤ u * (1 / 2) := mul_le_mul_of_nonneg_left this hu
  have f5 : |b - (r + 1 / 2)| ≤ u := by
    have : |r - -(1 / 2)| ≤ 1 := abs_le.2 ⟨by linarith, by linarith⟩
    calc |b - (r + 1 / 2)| = |b - (r - -(1 / 2))| := by congr 1; ring
      _ ≤ u * |r - -(1 / 2)| := e5
      _ ≤ u * 1 := mul_le_mul_of_nonneg_left this hu
      _ = u := mul_one u
  have f6 : |b - q| ≤ 3 / 2 * u := by
    refine abs_le.2 ⟨?_, ?_⟩
    · linarith [(abs_le.1 f4).1, (abs_le.1 f5).1]
    · linarith [(abs_le.1 f4).2, (abs_le.1 f5).2]
  have f7 : |b * d - q * d| ≤ 3 / 2 * u * (D + u * D) := by
    rw [← sub_mul, abs_mul, abs_of_pos hd]
    exact mul_le_mul f6 d1 hd.le (by linarith)
  have f8 : |m - b * d| ≤ u * (D + u * D) := by
    refine e6.trans (mul_le_mul_of_nonneg_left ?_ hu)
    rw [abs_of_nonneg (mul_nonneg b1 hd.le)]
    nlinarith
  have huD : 0 ≤ u * D := mul_nonneg hu hD.le
  have uuD : u * (u * D) ≤ 1 / 100 * (u * D) := mul_le_mul_of_nonneg_right hs (mul_nonneg hu hD.le)
  have f9 : |m - x| ≤ 46 / 10 * (u * D) := by
    refine abs_le.2 ⟨?_, ?_⟩
    · linarith [(abs_le.1 f7).1, (abs_le.1 f8).1, (abs_le.1 f3).1, (abs_le.1 e2).1]
    · linarith [(abs_le.1 f7).2, (abs_le.1 f8).2, (abs_le.1 f3).2, (abs_le.1 e2).2]
  have f10 : |lo + m| ≤ |y| + 46 / 10 * (u * D) := by
    have : lo + m = y + (m - x) := by linarith
    rw [this]
    exact (abs_add_le _ _).trans (by linarith)
  have f11 : u * |lo + m| ≤ u * |y| + 46 / 10 * (u * (u * D)) := by
    have := mul_le_mul_of_nonneg_left f10 hu
    linarith
  have hly : lo = y - x := by linarith
  refine abs_le.2 ⟨?_, ?_⟩
  · linarith [(abs_le.1 e7).1, (abs_le.1 f9).1]
  · linarith [(abs_le.1 e7).2, (abs_le.1 f9).2]

/-- C118: the least target comes back without error. -/
theorem C118_back_least (h : Rounds fl u) {lo hi : K} (hlt : lo < hi) (hlo : fl lo = lo) : unnormalize fl lo hi (normalize fl lo hi lo) = lo := by
  rw [(C118_ends h hlt).1, unnormalize, sub_self, h.zero, zero_mul, h.zero, add_zero, hlo]

/-! ### binary64 -/

theorem round64_mono {x y : ℚ} (hxy : x ≤ y) : round64 x ≤ round64 y := by
  by_contra hlt
  push Not at hlt
  have h1 := round64_nearest x (isDouble_round64 y)
  have h2 := round64_nearest y (isDouble_round64 x)
  have e : x = y := by
    rcases abs_cases (x - round64 x) with ⟨a1, b1⟩ | ⟨a1, b1⟩ <;> rcases abs_cases (x - round64 y) with ⟨a2, b2⟩ | ⟨a2, b2⟩ <;>
      rcases abs_cases (y - round64 y) with ⟨a3, b3⟩ | ⟨a3, b3⟩ <;> rcases abs_cases (y - round64 x) with ⟨a4, b4⟩ | ⟨a4, b4⟩ <;> linarith
  rw [e] at hlt
  exact lt_irrefl _ hlt

/-- Floats are rounded like this. -/
theorem rounds64 : Rounds round64 (1 / 2 ^ 53) where
  mono := round64_mono
  error := round64_rel
  one := round64_double ⟨1, 0, by norm_num, by norm_num⟩
  half := round64_double ⟨1, -1, by norm_num, by norm_num⟩
  minusHalf := round64_double ⟨-1, -1, by norm_num, by norm_num⟩
  small := by norm_num

/-- The targets 0, 1/3 (as a float) and 1: order, ends and the way back. -/
example : normalize round64 0 1 0 = -(1 / 2) ∧ normalize round64 0 1 1 = 1 / 2 ∧ normalize round64 0 1 0 ≤ normalize round64 0 1 (round64 (1 / 3)) ∧
    |unnormalize round64 0 1 (normalize round64 0 1 (round64 (1 / 3))) - round64 (1 / 3)| ≤ 6 / 2 ^ 53 := by
  have hr : 0 ≤ round64 (1 / 3) ∧ round64 (1 / 3) ≤ 1 := by decide +kernel
  refine ⟨(C118_ends rounds64 one_pos).1, (C118_ends rounds64 one_pos).2, (C118_order rounds64 one_pos hr.1).1, (C118_back rounds64 one_pos hr.1 hr.2).trans ?_⟩
  rw [abs_of_nonneg hr.1]
  linarith [hr.2]

/-- The scaling is not exact: of the targets -2^53, ..., 1 the largest comes back as 0. -/
theorem C118_inexact : IsDouble (-2 ^ 53) ∧ IsDouble 1 ∧ unnormalize round64 (-2 ^ 53) 1 (normalize round64 (-2 ^ 53) 1 1) = 0 := by
  refine ⟨⟨-1, 53, by norm_num, by norm_num⟩, ⟨1, 0, by norm_num, by norm_num⟩, ?_⟩
  rw [(C118_ends rounds64 (by norm_num)).2, unnormalize]
  decide +kernel

/-- Different targets can become equal: 0 and 2^-60 among targets from 0 to 1. -/
theorem C118_ties : IsDouble (1 / 2 ^ 60) ∧ normalize round64 0 1 (1 / 2 ^ 60) = normalize round64 0 1 0 := by
  refine ⟨⟨1, -60, by norm_num, by norm_num⟩, ?_⟩
  decide +kernel

end Bart.Rounding
