import Verif.Model.Rounding
import Verif.Spec.Rounding
import Verif.Proofs.Double
import Mathlib.Algebra.Order.Ring.Pow
import Mathlib.Data.Fin.VecNotation

/-! C116: rounding errors of the running prediction. -/

set_option linter.unusedSectionVars false

namespace Bart.Rounding
open Spec
variable {K : Type} [Field K] [LinearOrder K] [IsStrictOrderedRing K] {n : Nat} {fl : K → K} {u : K}

/-- Two rounded operations, a tree out of the running prediction and back in. -/
theorem one_turn (hu : 0 ≤ u) (hfl : ∀ x, |fl x - x| ≤ u * |x|) {pred v w s E B : K} (h : |pred - (s + v)| ≤ E) (hs : |s| ≤ B) (hw : |s + w| ≤ B) :
    |fl (pred - v) - s| ≤ (1 + u) * (E + B) - B ∧ |fl (fl (pred - v) + w) - (s + w)| ≤ (1 + u) ^ 2 * (E + B) - B := by
  have key : ∀ {x t E : K}, |x - t| ≤ E → |t| ≤ B → |fl x - t| ≤ (1 + u) * (E + B) - B := by
    intro x t E h1 h2
    have h3 : |x| ≤ E + B := by
      have := abs_add_le (x - t) t
      rw [sub_add_cancel] at this
      linarith
    have h4 := hfl x
    have h5 : |fl x - t| ≤ |fl x - x| + |x - t| := abs_sub_le _ _ _
    nlinarith [mul_le_mul_of_nonneg_left h3 hu]
  have h1 : |fl (pred - v) - s| ≤ (1 + u) * (E + B) - B := key (by rwa [show pred - v - s = pred - (s + v) by ring]) hs
  refine ⟨h1, ?_⟩
  have h2 := key (x := fl (pred - v) + w) (t := s + w) (E := (1 + u) * (E + B) - B) (by rwa [show fl (pred - v) + w - (s + w) = fl (pred - v) - s by ring]) hw
  rw [sub_add_cancel] at h2
  rw [pow_two, mul_assoc]
  exact h2

theorem sum_le {l : List (Fin n → K)} {i : Fin n} {b : K} (h : ∀ v ∈ l, |v i| ≤ b) : |(l.map (fun v => v i)).sum| ≤ l.length * b := by
  induction l with
  | nil => simp
  | cons v l ih =>
    rw [List.map_cons, List.sum_cons, List.length_cons]
    have h1 := abs_add_le (v i) ((l.map (fun v => v i)).sum)
    have h2 := h v (List.mem_cons_self ..)
    have h3 := ih fun v hv => h v (List.mem_cons_of_mem _ hv)
    push_cast
    linarith

/-- The error after `m` more rounded operations. -/
def grown (u E B : K) (m : Nat) : K := (1 + u) ^ m * (E + B) - B

theorem grown_grown (u E B : K) (m l : Nat) : grown u (grown u E B m) B l = grown u E B (m + l) := by
  unfold grown
  rw [sub_add_cancel, ← mul_assoc, ← pow_add, add_comm l m]

theorem sweep_error (hu : 0 ≤ u) (hfl : ∀ x, |fl x - x| ≤ u * |x|) {y : Fin n → K} {i : Fin n} {b : K} (hb : 0 ≤ b) (T : Nat) (vs : List (Fin n → K)) :
    ∀ {pred : Fin n → K} {ws : List (Fin n → K)} {s E : K}, |pred i - (s + (vs.map (fun v => v i)).sum)| ≤ E → ws.length = vs.length → vs.length ≤ T → |s| ≤ ((T - vs.length : ℕ) : K) * b →
      (∀ v ∈ vs, |v i| ≤ b) → (∀ w ∈ ws, |w i| ≤ b) →
      (∀ j t, (sweep fl y pred vs ws).1[j]? = some t →
        |t i - (y i - (s + ((ws.take j).map (fun w => w i)).sum + ((vs.drop (j + 1)).map (fun v => v i)).sum))| ≤
          (1 + u) * grown u E (T * b) (2 * j + 1) + u * |y i - (s + ((ws.take j).map (fun w => w i)).sum + ((vs.drop (j + 1)).map (fun v => v i)).sum)|) ∧
      (sweep fl y pred vs ws).1.length = vs.length ∧
      |(sweep fl y pred vs ws).2 i - (s + (ws.map (fun w => w i)).sum)| ≤ grown u E (T * b) (2 * vs.length) := by
  induction vs with
  | nil =>
    intro pred ws s E h1 h2 h3 h4 h5 h6
    have : ws = [] := List.length_eq_zero_iff.1 h2
    subst this
    refine ⟨fun j t h => by simp [sweep] at h, rfl, ?_⟩
    simpa [sweep, grown] using h1
  | cons v vs ih =>
    intro pred ws s E h1 h2 h3 h4 h5 h6
    obtain ⟨w, ws, rfl⟩ : ∃ w ws', ws = w :: ws' := by
      cases ws with
      | nil => simp at h2
      | cons w ws => exact ⟨w, ws, rfl⟩
    rw [List.map_cons, List.sum_cons] at h1
    have hv := h5 v (List.mem_cons_self ..)
    have hw := h6 w (List.mem_cons_self ..)
    have hvs : ∀ v ∈ vs, |v i| ≤ b := fun v hv => h5 v (List.mem_cons_of_mem _ hv)
    have hws : ∀ w ∈ ws, |w i| ≤ b := fun v hv => h6 v (List.mem_cons_of_mem _ hv)
    simp only [List.length_cons] at h2 h3 h4 ⊢
    have hT : ((T - (vs.length + 1) : ℕ) : K) + vs.length + 1 = T := by
      have : T - (vs.length + 1) + vs.length + 1 = T := by omega
      exact_mod_cast this
    have hsum := sum_le hvs
    have hB : |s + (vs.map (fun v => v i)).sum| ≤ T * b := by
      have := abs_add_le s ((vs.map (fun v => v i)).sum)
      rw [← hT]
      linarith
    have hBw : |s + (vs.map (fun v => v i)).sum + w i| ≤ T * b := by
      have h8 := abs_add_le s ((vs.map (fun v => v i)).sum)
      have h9 := abs_add_le (s + (vs.map (fun v => v i)).sum) (w i)
      rw [← hT]
      linarith
    obtain ⟨k1, k2⟩ := one_turn hu hfl (pred := pred i) (v := v i) (w := w i) (s := s + (vs.map (fun v => v i)).sum) (E := E) (B := T * b) (by rwa [show s + (vs.map (fun v => v i)).sum + v i = s + (v i + (vs.map (fun v => v i)).sum) by ring]) hB hBw
    have hE : (1 + u) ^ 2 * (E + T * b) - T * b = grown u E (T * b) 2 := rfl
    have hE1 : (1 + u) * (E + T * b) - T * b = grown u E (T * b) 1 := by unfold grown; rw [pow_one]
    rw [hE] at k2
    rw [hE1] at k1
    have hs' : |s + w i| ≤ ((T - vs.length : ℕ) : K) * b := by
      have h8 := abs_add_le s (w i)
      have : ((T - vs.length : ℕ) : K) = ((T - (vs.length + 1) : ℕ) : K) + 1 := by
        have : T - vs.length = T - (vs.length + 1) + 1 := by omega
        exact_mod_cast this
      rw [this]
      linarith
    obtain ⟨i1, i2, i3⟩ := ih (pred := fun i => fl (fl (pred i - v i) + w i)) (ws := ws) (s := s + w i) (E := grown u E (T * b) 2)
      (by rwa [show s + w i + (vs.map (fun v => v i)).sum = s + (vs.map (fun v => v i)).sum + w i by ring]) (by omega) (by omega) hs' hvs hws
    refine ⟨fun j t ht => ?_, ?_, ?_⟩
    · cases j with
      | zero =>
        simp only [sweep, List.getElem?_cons_zero, Option.some.injEq] at ht
        subst ht
        simp only [List.take_zero, List.map_nil, List.sum_nil, add_zero, zero_add, List.drop_succ_cons, List.drop_zero, mul_zero]
        generalize s + (vs.map (fun v => v i)).sum = o at k1 ⊢
        have q1 := hfl (y i - fl (pred i - v i))
        have q2 : |fl (y i - fl (pred i - v i)) - (y i - o)| ≤ |fl (y i - fl (pred i - v i)) - (y i - fl (pred i - v i))| + |(y i - fl (pred i - v i)) - (y i - o)| := abs_sub_le _ _ _
        have q3 : |(y i - fl (pred i - v i)) - (y i - o)| ≤ grown u E (T * b) 1 := by
          rw [show (y i - fl (pred i - v i)) - (y i - o) = -(fl (pred i - v i) - o) by ring, abs_neg]
          exact k1
        have q4 : |y i - fl (pred i - v i)| ≤ |y i - o| + grown u E (T * b) 1 := by
          have := abs_add_le (y i - o) ((y i - fl (pred i - v i)) - (y i - o))
          rw [add_sub_cancel] at this
          linarith
        nlinarith [mul_le_mul_of_nonneg_left q4 hu]
      | succ j =>
        simp only [sweep, List.getElem?_cons_succ] at ht
        have := i1 j t ht
        rw [grown_grown] at this
        simp only [List.take_succ_cons, List.map_cons, List.sum_cons, List.drop_succ_cons]
        rw [show 2 * (j + 1) + 1 = 2 + (2 * j + 1) by ring]
        rw [← add_assoc s (w i)]
        exact this
    · simp only [sweep, List.length_cons, i2]
    · rw [grown_grown] at i3
      simp only [sweep, List.map_cons, List.sum_cons]
      rw [show 2 * (vs.length + 1) = 2 + 2 * vs.length by ring, ← add_assoc s (w i)]
      exact i3

theorem sweeps_error (hu : 0 ≤ u) (hfl : ∀ x, |fl x - x| ≤ u * |x|) {y : Fin n → K} {i : Fin n} {b : K} (hb : 0 ≤ b) (T : Nat) (wss : List (List (Fin n → K))) :
    ∀ {pred : Fin n → K} {vs : List (Fin n → K)} {E : K}, |pred i - (vs.map (fun v => v i)).sum| ≤ E → vs.length = T → (∀ v ∈ vs, |v i| ≤ b) → (∀ ws ∈ wss, ws.length = T ∧ ∀ w ∈ ws, |w i| ≤ b) →
      (∀ k ts j t, (sweeps fl y pred vs wss).1[k]? = some ts → ts[j]? = some t →
        |t i - (y i - (((((vs :: wss).getD (k + 1) []).take j).map (fun w => w i)).sum + ((((vs :: wss).getD k []).drop (j + 1)).map (fun v => v i)).sum))| ≤
          (1 + u) * grown u E (T * b) (2 * (k * T + j) + 1) + u * |y i - (((((vs :: wss).getD (k + 1) []).take j).map (fun w => w i)).sum + ((((vs :: wss).getD k []).drop (j + 1)).map (fun v => v i)).sum)|) ∧
      (sweeps fl y pred vs wss).1.length = wss.length ∧ (∀ ts ∈ (sweeps fl y pred vs wss).1, ts.length = T) ∧
      |(sweeps fl y pred vs wss).2 i - ((((vs :: wss).getD wss.length []).map (fun w => w i)).sum)| ≤ grown u E (T * b) (2 * (wss.length * T)) := by
  induction wss with
  | nil =>
    intro pred vs E h1 h2 h3 h4
    refine ⟨fun k ts j t h => by simp [sweeps] at h, rfl, fun ts h => by simp [sweeps] at h, ?_⟩
    simpa [sweeps, grown] using h1
  | cons ws wss ih =>
    intro pred vs E h1 h2 h3 h4
    obtain ⟨hl, hw⟩ := h4 ws (List.mem_cons_self ..)
    obtain ⟨s1, s2, s3⟩ := sweep_error hu hfl (y := y) (i := i) hb T vs (pred := pred) (ws := ws) (s := 0) (E := E) (by rwa [zero_add]) (by omega) h2.le (by simp [h2]) h3 hw
    rw [zero_add] at s3
    obtain ⟨i1, i2, i3, i4⟩ := ih (pred := (sweep fl y pred vs ws).2) (vs := ws) s3 hl hw fun ws' h => h4 ws' (List.mem_cons_of_mem _ h)
    refine ⟨fun k ts j t hts ht => ?_, ?_, ?_, ?_⟩
    · cases k with
      | zero =>
        simp only [sweeps, List.getElem?_cons_zero, Option.some.injEq] at hts
        subst hts
        have := s1 j t ht
        rw [zero_add] at this
        simpa using this
      | succ k =>
        simp only [sweeps, List.getElem?_cons_succ] at hts
        have := i1 k ts j t hts ht
        rw [grown_grown, h2] at this
        simp only [List.getD_cons_succ] at this ⊢
        rw [show 2 * ((k + 1) * T + j) + 1 = 2 * T + (2 * (k * T + j) + 1) by ring]
        exact this
    · simp only [sweeps, List.length_cons, i2]
    · intro ts hts
      simp only [sweeps, List.mem_cons] at hts
      rcases hts with rfl | hts
      · rw [s2, h2]
      · exact i3 ts hts
    · rw [grown_grown, h2] at i4
      simp only [sweeps, List.length_cons, List.getD_cons_succ]
      rw [show 2 * ((wss.length + 1) * T) = 2 * T + 2 * (wss.length * T) by ring]
      exact i4

/-- How far the running prediction can be off after `m` rounded operations, if every one of `T` trees predicts between -b and b. -/
def drift (u b : K) (T m : Nat) : K := ((1 + u) ^ m - 1) * (T * b)

theorem grown_zero (u b : K) (T m : Nat) : grown u 0 (T * b) m = drift u b T m := by
  unfold grown drift; ring

theorem total_zeros (hfl : ∀ x, |fl x - x| ≤ u * |x|) (T : Nat) (i : Fin n) : total fl (List.replicate T fun _ => (0 : K)) i = 0 := by
  have h0 : fl 0 = 0 := by
    have := hfl 0
    rw [abs_zero, mul_zero, sub_zero] at this
    exact abs_nonpos_iff.1 this
  cases T with
  | zero => rfl
  | succ T =>
    simp only [List.replicate_succ, total]
    have : ∀ T : Nat, (List.replicate T (fun _ : Fin n => (0 : K))).foldl (fun s w i => fl (s i + w i)) (fun _ => 0) = fun _ => 0 := by
      intro T
      induction T with
      | zero => rfl
      | succ T ih =>
        rw [List.replicate_succ, List.foldl_cons]
        simp only [add_zero, h0]
        exact ih
    rw [this]

/-- Any arithmetic whose operations have a relative error of at most `u`; any targets, any number of trees and sweeps, anything the samplers do with the trees as long as all predictions stay within `b`. In sweep `k` the tree `j` is
given the targets minus the predictions of the other trees, up to a drift that grows with the number of turns made so far (two operations each) and the rounding of the last subtraction. In the end the running prediction is the sum of the
predictions of the trees, up to the drift. -/
theorem C116_drift_partial (hu : 0 ≤ u) (hfl : ∀ x, |fl x - x| ≤ u * |x|) (y : Fin n → K) (T : Nat) (wss : List (List (Fin n → K))) (i : Fin n) {b : K} (hb : 0 ≤ b) (hw : ∀ ws ∈ wss, ws.length = T ∧ ∀ w ∈ ws, |w i| ≤ b) :
    (∀ k ts j t, (chain fl y T wss).1[k]? = some ts → ts[j]? = some t →
      |t i - (y i - others T wss k j i)| ≤ (1 + u) * drift u b T (2 * (k * T + j) + 1) + u * |y i - others T wss k j i|) ∧
    (chain fl y T wss).1.length = wss.length ∧ (∀ ts ∈ (chain fl y T wss).1, ts.length = T) ∧
    |(chain fl y T wss).2 i - ((predictionsAt T wss wss.length).map (fun w => w i)).sum| ≤ drift u b T (2 * (wss.length * T)) := by
  have := sweeps_error hu hfl (y := y) (i := i) hb T wss (pred := total fl (List.replicate T fun _ => 0)) (vs := List.replicate T fun _ => 0) (E := 0)
    (by rw [total_zeros hfl, List.map_replicate, List.sum_replicate]; simp) (by simp) (fun v hv => by rw [List.eq_of_mem_replicate hv]; simpa using hb) hw
  simp only [grown_zero] at this
  exact this

/-- Three sweeps of two trees over two rows. -/
example : ∀ ws ∈ [[![1, 2], ![3, -1]], [![0, 1 / 3], ![2, 2]], [![-1, 1], ![1 / 7, 0]]], ws.length = 2 ∧ ∀ w ∈ ws, |(w : Fin 2 → ℚ) 1| ≤ 2 := by decide +kernel

/-- Without rounding the targets are exact. -/
theorem C116_exact (y : Fin n → K) (T : Nat) (wss : List (List (Fin n → K))) (hw : ∀ ws ∈ wss, ws.length = T) {k : Nat} {ts : List (Fin n → K)} {j : Nat} {t : Fin n → K} (hts : (chain id y T wss).1[k]? = some ts) (ht : ts[j]? = some t)
    (i : Fin n) : t i = y i - others T wss k j i := by
  obtain ⟨b, hb, hbw⟩ : ∃ b : K, 0 ≤ b ∧ ∀ ws ∈ wss, ∀ w ∈ ws, |w i| ≤ b := by
    clear hw hts
    induction wss with
    | nil => exact ⟨0, le_rfl, by simp⟩
    | cons ws wss ih =>
      obtain ⟨b, hb, h⟩ := ih
      have : ∃ c : K, 0 ≤ c ∧ ∀ w ∈ ws, |w i| ≤ c := by
        clear h
        induction ws with
        | nil => exact ⟨0, le_rfl, by simp⟩
        | cons w ws ih =>
          obtain ⟨c, hc, h⟩ := ih
          refine ⟨c + |w i|, by positivity, fun w' hw' => ?_⟩
          rcases List.mem_cons.1 hw' with rfl | hw'
          · linarith
          · have := h w' hw'
            have := abs_nonneg (w i)
            linarith
      obtain ⟨c, hc, h'⟩ := this
      refine ⟨b + c, by positivity, fun ws' hws' w hw => ?_⟩
      rcases List.mem_cons.1 hws' with rfl | hws'
      · have := h' w hw
        linarith
      · have := h ws' hws' w hw
        linarith
  have := (C116_drift_partial (fl := id) (u := (0 : K)) le_rfl (by simp) y T wss i hb fun ws h => ⟨hw ws h, hbw ws h⟩).1 k ts j t hts ht
  simp only [drift, add_zero, one_pow, sub_self, zero_mul, mul_zero] at this
  exact sub_eq_zero.1 (abs_nonpos_iff.1 this)

/-- The relative error of binary64. -/
theorem round64_rel (x : ℚ) : |round64 x - x| ≤ 1 / 2 ^ 53 * |x| := by
  by_cases hx : x = 0
  · subst hx
    rw [round64_double ⟨0, 0, by norm_num, by norm_num⟩]
    simp
  · have h1 : (0 : ℚ) < 2 ^ lastDigit x := zpow_pos (by norm_num) _
    have h2 := roundEven_near (x / 2 ^ lastDigit x)
    have h3 := lastDigit_le hx
    have h4 : x - round64 x = (x / 2 ^ lastDigit x - roundEven (x / 2 ^ lastDigit x)) * 2 ^ lastDigit x := by
      unfold round64
      rw [sub_mul, div_mul_cancel₀ _ h1.ne']
    rw [abs_sub_comm, h4, abs_mul, abs_of_pos h1]
    rw [zpow_add₀ (by norm_num : (2 : ℚ) ≠ 0)] at h3
    have h5 : (2 : ℚ) ^ (52 : ℤ) = 4503599627370496 := by norm_num
    rw [h5] at h3
    nlinarith

theorem pow_near {u : ℚ} (hu : 0 ≤ u) {m : Nat} (h : m * u ≤ 1 / 2) : (1 + u) ^ m - 1 ≤ 2 * (m * u) := by
  by_cases hm : m = 0
  · subst hm; simp
  have hu1 : u ≤ 1 / 2 := by
    have : (1 : ℚ) ≤ m := by exact_mod_cast Nat.one_le_iff_ne_zero.2 hm
    nlinarith
  have h1 : 1 - m * u ≤ (1 - u) ^ m := by
    have := one_add_mul_le_pow (a := -u) (by linarith) m
    rw [← sub_eq_add_neg] at this
    linarith
  have h2 : (1 + u) ^ m * (1 - u) ^ m ≤ 1 := by
    rw [← mul_pow]
    exact pow_le_one₀ (mul_nonneg (by linarith) (by linarith)) (by nlinarith)
  have h3 : (0 : ℚ) ≤ (1 + u) ^ m := by positivity
  have h4 : (0 : ℚ) ≤ m * u := by positivity
  generalize (m : ℚ) * u = z at *
  have h5 : (1 + u) ^ m * (1 - z) ≤ 1 := le_trans (mul_le_mul_of_nonneg_left h1 h3) h2
  by_contra hc
  push Not at hc
  have : (1 + 2 * z) * (1 - z) < (1 + u) ^ m * (1 - z) := mul_lt_mul_of_pos_right (by linarith) (by linarith)
  nlinarith

/-- The default settings in binary64: 200 trees, 200 burn-in sweeps and 200 samples. If every tree predicts between -b and b, the running prediction is never off by more than `b / 10 ^ 8`. -/
theorem C116_default (y : Fin n → ℚ) (wss : List (List (Fin n → ℚ))) (hs : wss.length ≤ 400) (i : Fin n) {b : ℚ} (hb : 0 ≤ b) (hw : ∀ ws ∈ wss, ws.length = 200 ∧ ∀ w ∈ ws, |w i| ≤ b) :
    |(chain round64 y 200 wss).2 i - ((predictionsAt 200 wss wss.length).map (fun w => w i)).sum| ≤ b / 10 ^ 8 := by
  have h1 := (C116_drift_partial (by norm_num) round64_rel y 200 wss i hb hw).2.2.2
  refine h1.trans ?_
  unfold drift
  have h2 : ((2 * (wss.length * 200) : ℕ) : ℚ) ≤ 160000 := by
    have : 2 * (wss.length * 200) ≤ 160000 := by omega
    exact_mod_cast this
  have h3 := pow_near (u := 1 / 2 ^ 53) (by norm_num) (m := 2 * (wss.length * 200)) (by nlinarith)
  generalize ((1 : ℚ) + 1 / 2 ^ 53) ^ (2 * (wss.length * 200)) - 1 = z at h3 ⊢
  have h4 : z ≤ 2 * (160000 * (1 / 2 ^ 53)) := by
    refine h3.trans ?_
    nlinarith
  have h5 : z * ((200 : ℕ) * b) ≤ 2 * (160000 * (1 / 2 ^ 53)) * ((200 : ℕ) * b) := mul_le_mul_of_nonneg_right h4 (by positivity)
  refine h5.trans ?_
  norm_num
  nlinarith

/-- 400 sweeps of 200 trees, each predicting 0.005. -/
example : ∀ ws ∈ List.replicate 400 (List.replicate 200 fun _ : Fin 3 => (1 / 200 : ℚ)), ws.length = 200 ∧ ∀ w ∈ ws, |w 1| ≤ 1 / 200 := by
  intro ws h
  rw [List.eq_of_mem_replicate h]
  refine ⟨List.length_replicate, fun w h => ?_⟩
  rw [List.eq_of_mem_replicate h, abs_of_pos (by norm_num)]

/-! The drift is real: a chain in binary64 in which it grows without end. -/

/-- A tie between an odd and an even last digit goes up to the even one. -/
theorem round64_tie {z : ℤ} (h1 : 2 ^ 52 ≤ z) (h2 : z < 2 ^ 53 - 1) (hz : z % 2 = 1) {x : ℚ} (hx : x = (z + 1 / 2) * (1 / 2 ^ 52)) : round64 x = (z + 1) * (1 / 2 ^ 52) := by
  have g1 : (2 : ℚ) ^ 52 ≤ z := by exact_mod_cast h1
  have g2 : (z : ℚ) < 2 ^ 53 - 1 := by exact_mod_cast h2
  have hx0 : 1 ≤ x := by
    rw [hx]; norm_num at g1 ⊢; linarith
  have hx2 : x < 2 := by
    rw [hx]; norm_num at g2 ⊢; linarith
  have hl : Int.log 2 |x| = 0 := by
    rw [abs_of_pos (by linarith)]
    have a1 : (1 : ℤ) > Int.log 2 x := by
      by_contra hc
      push Not at hc
      have q1 := Int.zpow_log_le_self (b := 2) (r := x) (by norm_num) (by linarith)
      have q2 : (2 : ℚ) ^ (1 : ℤ) ≤ 2 ^ Int.log 2 x := zpow_le_zpow_right₀ (by norm_num) hc
      push_cast at q1
      rw [zpow_one] at q2
      linarith
    have a2 : (-1 : ℤ) < Int.log 2 x := by
      by_contra hc
      push Not at hc
      have q1 := Int.lt_zpow_succ_log_self (b := 2) (by norm_num) x
      have q2 : (2 : ℚ) ^ (Int.log 2 x + 1) ≤ 2 ^ (0 : ℤ) := zpow_le_zpow_right₀ (by norm_num) (by omega)
      push_cast at q1
      rw [zpow_zero] at q2
      linarith
    omega
  have hd : lastDigit x = -52 := by unfold lastDigit; rw [hl]; rfl
  have hp : (2 : ℚ) ^ (-52 : ℤ) = 1 / 2 ^ 52 := by norm_num
  have hq : x / (1 / 2 ^ 52) = z + 1 / 2 := by rw [hx]; field_simp
  unfold round64
  rw [hd, hp, hq]
  have hf : ⌊(z : ℚ) + 1 / 2⌋ = z := by
    rw [Int.floor_eq_iff]
    constructor <;> linarith
  have : roundEven ((z : ℚ) + 1 / 2) = z + 1 := by
    unfold roundEven
    rw [hf, if_neg]
    push Not
    exact ⟨by linarith, fun _ => by omega⟩
  rw [this]
  push_cast
  rfl

/-- A multiple of the last digit of 1 is not rounded. -/
theorem round64_multiple (z : ℤ) (hz : |z| < 2 ^ 53) {x : ℚ} (hx : x = z * (1 / 2 ^ 52)) : round64 x = x :=
  round64_double ⟨z, -52, hz, by rw [hx]; norm_num⟩

/-- The predictions of two trees for the only row. -/
def pair (a b : ℚ) : List (Fin 1 → ℚ) := [fun _ => a, fun _ => b]

/-- Four sweeps: the first tree goes up by half a last digit and down again, twice; the second one goes from 1 + 2⁻⁵² to 1 and back. -/
def fourSweeps : List (List (Fin 1 → ℚ)) := [pair (1 / 2 ^ 53) (1 + 1 / 2 ^ 52), pair 0 1, pair (1 / 2 ^ 53) 1, pair 0 (1 + 1 / 2 ^ 52)]

/-- `r` times the four sweeps. -/
def manySweeps : Nat → List (List (Fin 1 → ℚ))
  | 0 => []
  | r + 1 => fourSweeps ++ manySweeps r

/-- The running prediction after `m` times the four sweeps. -/
def wrong (m : Nat) : Fin 1 → ℚ := fun _ => 1 + (2 * m + 1) * (1 / 2 ^ 52)

/-- One sweep of two trees over one row. -/
theorem sweep_pair {y pred : Fin 1 → ℚ} {a b c d p1 p2 p3 p4 : ℚ} (h1 : round64 (pred 0 - a) = p1) (h2 : round64 (p1 + c) = p2) (h3 : round64 (p2 - b) = p3) (h4 : round64 (p3 + d) = p4) :
    (sweep round64 y pred (pair a b) (pair c d)).2 = fun _ => p4 := by
  funext i
  rw [Subsingleton.elim i 0]
  simp [sweep, pair, h1, h2, h3, h4]

theorem four (y : Fin 1 → ℚ) {m : Nat} (hm : m + 1 < 2 ^ 51) (rest : List (List (Fin 1 → ℚ))) :
    ∃ ts, sweeps round64 y (wrong m) (pair 0 (1 + 1 / 2 ^ 52)) (fourSweeps ++ rest) =
      (ts ++ (sweeps round64 y (wrong (m + 1)) (pair 0 (1 + 1 / 2 ^ 52)) rest).1, (sweeps round64 y (wrong (m + 1)) (pair 0 (1 + 1 / 2 ^ 52)) rest).2) ∧ ts.length = 4 := by
  have hM : ((m : ℤ)) + 1 < 2 ^ 51 := by exact_mod_cast hm
  have hM0 : (0 : ℤ) ≤ m := Int.natCast_nonneg m
  have mult : ∀ (z : ℤ), -1 ≤ z → z ≤ 2 ^ 52 + 2 * m + 3 → ∀ {x : ℚ}, x = z * (1 / 2 ^ 52) → round64 x = x := fun z h0 h x hx =>
    round64_multiple z (by rw [abs_lt]; constructor <;> omega) hx
  -- the four sweeps
  have s1 : (sweep round64 y (wrong m) (pair 0 (1 + 1 / 2 ^ 52)) (pair (1 / 2 ^ 53) (1 + 1 / 2 ^ 52))).2 = fun _ => (1 + (2 * m + 2) * (1 / 2 ^ 52) : ℚ) := by
    refine sweep_pair (p1 := 1 + (2 * m + 1) * (1 / 2 ^ 52)) (p2 := 1 + (2 * m + 2) * (1 / 2 ^ 52)) (p3 := (2 * m + 1) * (1 / 2 ^ 52)) ?_ ?_ ?_ ?_
    · rw [mult (2 ^ 52 + 2 * m + 1) (by omega) (by omega) (by simp only [wrong]; push_cast; ring)]
      simp [wrong]
    · rw [round64_tie (z := 2 ^ 52 + 2 * m + 1) (by omega) (by omega) (by omega) (by push_cast; ring)]
      push_cast; ring
    · rw [mult (2 * m + 1) (by omega) (by omega) (by push_cast; ring)]
      ring
    · rw [mult (2 ^ 52 + 2 * m + 2) (by omega) (by omega) (by push_cast; ring)]
      ring
  have s2 : (sweep round64 y (fun _ => 1 + (2 * m + 2) * (1 / 2 ^ 52)) (pair (1 / 2 ^ 53) (1 + 1 / 2 ^ 52)) (pair 0 1)).2 = fun _ => (1 + (2 * m + 1) * (1 / 2 ^ 52) : ℚ) := by
    refine sweep_pair (p1 := 1 + (2 * m + 2) * (1 / 2 ^ 52)) (p2 := 1 + (2 * m + 2) * (1 / 2 ^ 52)) (p3 := (2 * m + 1) * (1 / 2 ^ 52)) ?_ ?_ ?_ ?_
    · rw [round64_tie (z := 2 ^ 52 + 2 * m + 1) (by omega) (by omega) (by omega) (by push_cast; ring)]
      push_cast; ring
    · rw [mult (2 ^ 52 + 2 * m + 2) (by omega) (by omega) (by push_cast; ring)]
      ring
    · rw [mult (2 * m + 1) (by omega) (by omega) (by push_cast; ring)]
      ring
    · rw [mult (2 ^ 52 + 2 * m + 1) (by omega) (by omega) (by push_cast; ring)]
      ring
  have s3 : (sweep round64 y (fun _ => 1 + (2 * m + 1) * (1 / 2 ^ 52)) (pair 0 1) (pair (1 / 2 ^ 53) 1)).2 = fun _ => (1 + (2 * m + 2) * (1 / 2 ^ 52) : ℚ) := by
    refine sweep_pair (p1 := 1 + (2 * m + 1) * (1 / 2 ^ 52)) (p2 := 1 + (2 * m + 2) * (1 / 2 ^ 52)) (p3 := (2 * m + 2) * (1 / 2 ^ 52)) ?_ ?_ ?_ ?_
    · rw [mult (2 ^ 52 + 2 * m + 1) (by omega) (by omega) (by push_cast; ring)]
      ring
    · rw [round64_tie (z := 2 ^ 52 + 2 * m + 1) (by omega) (by omega) (by omega) (by push_cast; ring)]
      push_cast; ring
    · rw [mult (2 * m + 2) (by omega) (by omega) (by push_cast; ring)]
      ring
    · rw [mult (2 ^ 52 + 2 * m + 2) (by omega) (by omega) (by push_cast; ring)]
      ring
  have s4 : (sweep round64 y (fun _ => 1 + (2 * m + 2) * (1 / 2 ^ 52)) (pair (1 / 2 ^ 53) 1) (pair 0 (1 + 1 / 2 ^ 52))).2 = wrong (m + 1) := by
    refine (sweep_pair (p1 := 1 + (2 * m + 2) * (1 / 2 ^ 52)) (p2 := 1 + (2 * m + 2) * (1 / 2 ^ 52)) (p3 := (2 * m + 2) * (1 / 2 ^ 52)) (p4 := 1 + (2 * m + 3) * (1 / 2 ^ 52)) ?_ ?_ ?_ ?_).trans ?_
    · rw [round64_tie (z := 2 ^ 52 + 2 * m + 1) (by omega) (by omega) (by omega) (by push_cast; ring)]
      push_cast; ring
    · rw [mult (2 ^ 52 + 2 * m + 2) (by omega) (by omega) (by push_cast; ring)]
      ring
    · rw [mult (2 * m + 2) (by omega) (by omega) (by push_cast; ring)]
      ring
    · rw [mult (2 ^ 52 + 2 * m + 3) (by omega) (by omega) (by push_cast; ring)]
      ring
    · funext _
      simp only [wrong]
      push_cast
      ring
  have : ∀ a b c d : List (Fin 1 → ℚ), ∃ ts : List (List (Fin 1 → ℚ)), ∀ l, a :: b :: c :: d :: l = ts ++ l ∧ ts.length = 4 := fun a b c d => ⟨[a, b, c, d], fun l => ⟨rfl, rfl⟩⟩
  simp only [fourSweeps, List.cons_append, List.nil_append, sweeps, s1, s2, s3, s4]
  obtain ⟨ts, h⟩ := this (sweep round64 y (wrong m) (pair 0 (1 + 1 / 2 ^ 52)) (pair (1 / 2 ^ 53) (1 + 1 / 2 ^ 52))).1
    (sweep round64 y (fun _ => (1 + (2 * m + 2) * (1 / 2 ^ 52) : ℚ)) (pair (1 / 2 ^ 53) (1 + 1 / 2 ^ 52)) (pair 0 1)).1
    (sweep round64 y (fun _ => (1 + (2 * m + 1) * (1 / 2 ^ 52) : ℚ)) (pair 0 1) (pair (1 / 2 ^ 53) 1)).1
    (sweep round64 y (fun _ => (1 + (2 * m + 2) * (1 / 2 ^ 52) : ℚ)) (pair (1 / 2 ^ 53) 1) (pair 0 (1 + 1 / 2 ^ 52))).1
  exact ⟨ts, by rw [(h _).1], (h []).2⟩

theorem many (y : Fin 1 → ℚ) (rest : List (List (Fin 1 → ℚ))) (r : Nat) : ∀ {m : Nat}, m + r < 2 ^ 51 →
    ∃ ts, sweeps round64 y (wrong m) (pair 0 (1 + 1 / 2 ^ 52)) (manySweeps r ++ rest) =
      (ts ++ (sweeps round64 y (wrong (m + r)) (pair 0 (1 + 1 / 2 ^ 52)) rest).1, (sweeps round64 y (wrong (m + r)) (pair 0 (1 + 1 / 2 ^ 52)) rest).2) ∧ ts.length = 4 * r := by
  induction r with
  | zero => exact fun {m} _ => ⟨[], rfl, rfl⟩
  | succ r ih =>
    intro m hm
    obtain ⟨ts, h1, h2⟩ := four y (m := m) (by omega) (manySweeps r ++ rest)
    obtain ⟨ts', h3, h4⟩ := ih (m := m + 1) (by omega)
    refine ⟨ts ++ ts', ?_, by rw [List.length_append]; omega⟩
    rw [manySweeps, List.append_assoc, h1, h3, List.append_assoc, show m + 1 + r = m + (r + 1) by omega]

/-- A chain of `4 * r + 2` sweeps of two trees. -/
def driftingChain (r : Nat) : List (List (Fin 1 → ℚ)) := pair 0 (1 + 1 / 2 ^ 52) :: (manySweeps r ++ [pair 0 (1 + 1 / 2 ^ 52)])

theorem manySweeps_mem {r : Nat} {ws : List (Fin 1 → ℚ)} (h : ws ∈ manySweeps r) : ws ∈ fourSweeps := by
  induction r with
  | zero => simp [manySweeps] at h
  | succ r ih =>
    rw [manySweeps, List.mem_append] at h
    exact h.elim id ih

theorem manySweeps_length (r : Nat) : (manySweeps r).length = 4 * r := by
  induction r with
  | zero => rfl
  | succ r ih => rw [manySweeps, List.length_append, ih]; simp [fourSweeps]; omega

theorem manySweeps_last (r : Nat) (l : List (List (Fin 1 → ℚ))) : (pair 0 (1 + 1 / 2 ^ 52) :: (manySweeps r ++ l))[4 * r]? = some (pair 0 (1 + 1 / 2 ^ 52)) := by
  induction r with
  | zero => rfl
  | succ r ih =>
    rw [show 4 * (r + 1) = 4 * r + 1 + 1 + 1 + 1 by omega, manySweeps]
    simp only [fourSweeps, List.cons_append, List.nil_append, List.getElem?_cons_succ]
    exact ih

/-- In binary64 the drift is not bounded by anything that does not grow with the number of sweeps: one row with the target 0, two trees whose predictions always lie between 0 and 2; in the last of `4 * r + 2` sweeps the first tree is given
a target that is off by `2 * r` units in the last place of 1, for any `r` up to 2⁵⁰ - so by anything up to 1/2. -/
theorem C116_refuted (r : Nat) (hr : r ≤ 2 ^ 50) :
    (driftingChain r).length = 4 * r + 2 ∧ (∀ ws ∈ driftingChain r, ws.length = 2 ∧ ∀ w ∈ ws, 0 ≤ w 0 ∧ w 0 ≤ 2) ∧
    ∃ ts t, (chain round64 (fun _ => 0) 2 (driftingChain r)).1[4 * r + 1]? = some ts ∧ ts[0]? = some t ∧ t 0 - (0 - others 2 (driftingChain r) (4 * r + 1) 0 0) = -(2 * r * (1 / 2 ^ 52)) := by
  refine ⟨by simp [driftingChain, manySweeps_length], ?_, ?_⟩
  · intro ws hws
    have : ws ∈ pair 0 (1 + 1 / 2 ^ 52) :: fourSweeps := by
      rw [driftingChain, List.mem_cons, List.mem_append, List.mem_singleton] at hws
      rcases hws with h | h | h
      · exact List.mem_cons.2 (.inl h)
      · exact List.mem_cons_of_mem _ (manySweeps_mem h)
      · exact List.mem_cons.2 (.inl h)
    simp only [fourSweeps, List.mem_cons, List.not_mem_nil, or_false] at this
    rcases this with rfl | rfl | rfl | rfl | rfl <;> refine ⟨rfl, fun w hw => ?_⟩ <;> simp only [pair, List.mem_cons, List.not_mem_nil, or_false] at hw <;> rcases hw with rfl | rfl <;> constructor <;> norm_num
  · have h0 : (sweep round64 (fun _ : Fin 1 => (0 : ℚ)) (total round64 (List.replicate 2 fun _ => 0)) (List.replicate 2 fun _ => 0) (pair 0 (1 + 1 / 2 ^ 52))).2 = wrong 0 := by
      have z : total round64 (List.replicate 2 fun _ : Fin 1 => (0 : ℚ)) 0 = 0 := total_zeros round64_rel 2 0
      refine (sweep_pair (a := 0) (b := 0) (p1 := 0) (p2 := 0) (p3 := 0) (p4 := 1 + 1 / 2 ^ 52) ?_ ?_ ?_ ?_).trans ?_
      · rw [z, round64_multiple 0 (by norm_num) (by norm_num)]; norm_num
      · rw [round64_multiple 0 (by norm_num) (by norm_num)]; norm_num
      · rw [round64_multiple 0 (by norm_num) (by norm_num)]; norm_num
      · rw [round64_multiple (2 ^ 52 + 1) (by norm_num) (by norm_num)]; norm_num
      · funext _; norm_num [wrong]
    obtain ⟨ts, h1, h2⟩ := many (fun _ => 0) [pair 0 (1 + 1 / 2 ^ 52)] r (m := 0) (by omega)
    rw [zero_add] at h1
    have hz : ∀ x : ℚ, x = 1 + (2 * r + 1) * (1 / 2 ^ 52) ∨ x = -(1 + (2 * r + 1) * (1 / 2 ^ 52)) → round64 x = x := by
      have : (r : ℤ) ≤ 2 ^ 50 := by exact_mod_cast hr
      rintro x (rfl | rfl)
      · exact round64_multiple (2 ^ 52 + 2 * r + 1) (by rw [abs_lt]; constructor <;> omega) (by push_cast; ring)
      · exact round64_multiple (-(2 ^ 52 + 2 * r + 1)) (by rw [abs_lt]; constructor <;> omega) (by push_cast; ring)
    have H : ∃ l, (chain round64 (fun _ => 0) 2 (driftingChain r)).1[4 * r + 1]? = some ((fun i => round64 (0 - round64 (wrong r i - 0))) :: l) := by
      unfold chain driftingChain
      simp only [sweeps, h0]
      rw [h1, List.getElem?_cons_succ, List.getElem?_append_right (by omega), h2, Nat.sub_self]
      exact ⟨_, rfl⟩
    obtain ⟨l, hl⟩ := H
    refine ⟨_, _, hl, rfl, ?_⟩
    · have o : others 2 (driftingChain r) (4 * r + 1) 0 0 = 1 + 1 / 2 ^ 52 := by
        have : predictionsAt 2 (driftingChain r) (4 * r + 1) = pair 0 (1 + 1 / 2 ^ 52) := by
          unfold predictionsAt driftingChain
          rw [List.getD_cons_succ, List.getD_eq_getElem?_getD, manySweeps_last]
          rfl
        unfold others
        rw [this]
        simp [pair]
      rw [o]
      have e : wrong r 0 - 0 = 1 + (2 * r + 1) * (1 / 2 ^ 52) := by rw [sub_zero]; rfl
      rw [e, hz _ (.inl rfl), zero_sub, hz _ (.inr rfl)]
      ring

end Bart.Rounding
