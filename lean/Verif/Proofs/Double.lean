import Verif.Model.Double
import Verif.Spec.Double
import Mathlib.Tactic.Ring
import Mathlib.Tactic.Linarith
import Mathlib.Tactic.FieldSimp
import Mathlib.Tactic.NormNum
import Mathlib.Tactic.Positivity
import Mathlib.Tactic.GCongr

/-! `round64` is the nearest float. -/

namespace Bart
open Spec

theorem roundEven_near (x : ℚ) : |x - roundEven x| ≤ 1 / 2 := by
  have h1 := Int.floor_le x
  have h2 := Int.lt_floor_add_one x
  unfold roundEven
  split
  · next h =>
    rw [abs_of_nonneg (by linarith)]
    rcases h with h | h <;> linarith [h]
  · next h =>
    push_neg at h
    push_cast
    rw [abs_of_nonpos (by linarith)]
    linarith [h.1]

/-- No integer is nearer. -/
theorem roundEven_nearest (x : ℚ) (z : ℤ) : |x - roundEven x| ≤ |x - z| := by
  by_contra h
  push_neg at h
  have h1 := roundEven_near x
  have h2 : |((roundEven x - z : ℤ) : ℚ)| < 1 := by
    have : ((roundEven x - z : ℤ) : ℚ) = (x - z) - (x - roundEven x) := by push_cast; ring
    rw [this]
    calc |(x - z) - (x - roundEven x)| ≤ |x - z| + |x - roundEven x| := abs_sub _ _
      _ < 1 := by linarith
  rw [← Int.cast_abs, ← Int.cast_one, Int.cast_lt, Int.abs_lt_one_iff] at h2
  have : z = roundEven x := by omega
  rw [this] at h
  exact lt_irrefl _ h

theorem lastDigit_le {x : ℚ} (hx : x ≠ 0) : (2 : ℚ) ^ (lastDigit x + 52) ≤ |x| := by
  unfold lastDigit
  rw [sub_add_cancel]
  exact Int.zpow_log_le_self (b := 2) (by norm_num) (abs_pos.2 hx)

theorem lt_lastDigit (x : ℚ) : |x| < (2 : ℚ) ^ (lastDigit x + 53) := by
  unfold lastDigit
  rw [show Int.log 2 |x| - 52 + 53 = Int.log 2 |x| + 1 by ring]
  exact Int.lt_zpow_succ_log_self (b := 2) (by norm_num) |x|

theorem isDouble_round64 (x : ℚ) : IsDouble (round64 x) := by
  have hp : (0 : ℚ) < 2 ^ lastDigit x := zpow_pos (by norm_num) _
  have h1 : |x / 2 ^ lastDigit x| < 2 ^ 53 := by
    rw [abs_div, abs_of_pos hp, div_lt_iff₀ hp, ← zpow_natCast, ← zpow_add₀ (by norm_num), add_comm]
    exact lt_lastDigit x
  have h2 : |(roundEven (x / 2 ^ lastDigit x) : ℚ)| ≤ 2 ^ 53 := by
    have := roundEven_near (x / 2 ^ lastDigit x)
    have h3 : |(roundEven (x / 2 ^ lastDigit x) : ℚ)| ≤ |x / 2 ^ lastDigit x| + 1 / 2 := by
      have := abs_sub_abs_le_abs_sub (roundEven (x / 2 ^ lastDigit x) : ℚ) (x / 2 ^ lastDigit x)
      rw [abs_sub_comm] at this
      linarith
    have h4 : |roundEven (x / 2 ^ lastDigit x)| < 2 ^ 53 + 1 := by
      have : ((|roundEven (x / 2 ^ lastDigit x)| : ℤ) : ℚ) < ((2 ^ 53 + 1 : ℤ) : ℚ) := by push_cast; linarith
      exact_mod_cast this
    have h5 : |roundEven (x / 2 ^ lastDigit x)| ≤ 2 ^ 53 := by omega
    exact_mod_cast h5
  have h6 : |roundEven (x / 2 ^ lastDigit x)| ≤ 2 ^ 53 := by exact_mod_cast h2
  unfold round64
  generalize roundEven (x / 2 ^ lastDigit x) = m at *
  rcases lt_or_eq_of_le h6 with h | h
  · exact ⟨m, _, h, rfl⟩
  · rcases abs_eq (by norm_num) |>.1 h with rfl | rfl
    · refine ⟨2 ^ 52, lastDigit x + 1, by norm_num, ?_⟩
      rw [zpow_add_one₀ (by norm_num)]
      push_cast; ring
    · refine ⟨-2 ^ 52, lastDigit x + 1, by norm_num, ?_⟩
      rw [zpow_add_one₀ (by norm_num)]
      push_cast; ring

/-- A float at least as large as the power of 2 below `x` is a multiple of the last digit of `x`. -/
theorem isDouble_multiple {d : ℚ} (hd : IsDouble d) {e : ℤ} (h : (2 : ℚ) ^ (e + 52) ≤ |d|) : ∃ z : ℤ, d = z * 2 ^ e := by
  obtain ⟨m, k, hm, rfl⟩ := hd
  have hk : (0 : ℚ) < 2 ^ k := zpow_pos (by norm_num) _
  rw [abs_mul, abs_of_pos hk] at h
  have hm' : |(m : ℚ)| < 2 ^ 53 := by exact_mod_cast hm
  have h1 : (2 : ℚ) ^ (e + 52) < 2 ^ (k + 53) := by
    calc (2 : ℚ) ^ (e + 52) ≤ |(m : ℚ)| * 2 ^ k := h
      _ < 2 ^ 53 * 2 ^ k := by gcongr
      _ = 2 ^ (k + 53) := by rw [zpow_add₀ (by norm_num)]; norm_num; ring
  rw [zpow_lt_zpow_iff_right₀ (by norm_num)] at h1
  obtain ⟨j, rfl⟩ : ∃ j : ℕ, k = e + j := ⟨(k - e).toNat, by omega⟩
  refine ⟨m * 2 ^ j, ?_⟩
  rw [zpow_add₀ (by norm_num), zpow_natCast]
  push_cast; ring

theorem round64_le_multiple (x : ℚ) (z : ℤ) : |x - round64 x| ≤ |x - z * 2 ^ lastDigit x| := by
  have hp : (0 : ℚ) < 2 ^ lastDigit x := zpow_pos (by norm_num) _
  have h : ∀ w : ℤ, |x - w * 2 ^ lastDigit x| = |x / 2 ^ lastDigit x - w| * 2 ^ lastDigit x := fun w => by
    rw [show x - w * 2 ^ lastDigit x = (x / 2 ^ lastDigit x - w) * 2 ^ lastDigit x by field_simp, abs_mul, abs_of_pos hp]
  unfold round64
  rw [h, h]
  have := roundEven_nearest (x / 2 ^ lastDigit x) z
  gcongr

/-- No float is nearer to `x` than `round64 x`. -/
theorem round64_nearest (x : ℚ) {d : ℚ} (hd : IsDouble d) : |x - round64 x| ≤ |x - d| := by
  rcases eq_or_ne x 0 with rfl | hx
  · have : round64 0 = 0 := by decide +kernel
    rw [this]; simp
  rcases le_or_gt ((2 : ℚ) ^ (lastDigit x + 52)) |d| with h | h
  · obtain ⟨z, rfl⟩ := isDouble_multiple hd h
    exact round64_le_multiple x z
  · have h1 := lastDigit_le hx
    have e : ((2 ^ 52 : ℤ) : ℚ) * 2 ^ lastDigit x = 2 ^ (lastDigit x + 52) := by
      rw [zpow_add₀ (by norm_num)]; push_cast; norm_num; ring
    have hd' := abs_lt.1 h
    rcases lt_or_gt_of_ne hx with h0 | h0
    · have h2 := round64_le_multiple x (-(2 ^ 52))
      rw [Int.cast_neg, neg_mul, e] at h2
      refine h2.trans ?_
      rw [abs_of_neg h0] at h1
      rw [abs_of_nonpos (by linarith), abs_of_nonpos (by linarith [hd'.1])]
      linarith [hd'.1]
    · have h2 := round64_le_multiple x (2 ^ 52)
      rw [e] at h2
      refine h2.trans ?_
      rw [abs_of_pos h0] at h1
      rw [abs_of_nonneg (by linarith), abs_of_nonneg (by linarith [hd'.2])]
      linarith [hd'.2]

/-- If there is a single nearest float then it is `round64 x`. -/
theorem round64_unique {x d : ℚ} (h : IsNearest x d) : round64 x = d := by
  by_contra hne
  exact absurd (round64_nearest x h.1) (not_le.2 (h.2 _ (isDouble_round64 x) hne))

/-- A float is not changed. -/
theorem round64_double {d : ℚ} (hd : IsDouble d) : round64 d = d := by
  have := round64_nearest d hd
  rw [sub_self, abs_zero] at this
  have := abs_nonpos_iff.1 this
  linarith

end Bart
