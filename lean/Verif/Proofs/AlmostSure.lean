import Mathlib.Probability.ProductMeasure
import Mathlib.Algebra.BigOperators.Fin
import Mathlib.Analysis.SpecificLimits.Basic

/-! Independent draws from a finite set, each of which can come: what can come to its end with a bounded number of further draws, whatever was drawn before, does so with probability 1. -/

namespace Bart.Returns
open MeasureTheory

variable {A ι : Type} [Fintype A] [MeasurableSpace A] [MeasurableSingletonClass A] (ν : Measure A) [IsProbabilityMeasure ν]

omit [MeasurableSingletonClass A] [IsProbabilityMeasure ν] in
/-- The probability of a sequence of draws. -/
noncomputable def weight {L : Nat} (w : Fin L → A) : ℝ := ∏ k, ν.real {w k}

omit [MeasurableSingletonClass A] [IsProbabilityMeasure ν] in
theorem weight_nonneg {L : Nat} (w : Fin L → A) : 0 ≤ weight ν w := Finset.prod_nonneg (fun _ _ => measureReal_nonneg)

theorem sum_real : ∑ a, ν.real {a} = 1 := by
  have h := sum_measureReal_singleton (μ := ν) (Finset.univ : Finset A)
  rw [h]; simp

theorem weight_sum (L : Nat) : ∑ w : Fin L → A, weight ν w = 1 := by
  classical
  unfold weight
  rw [← Fintype.prod_sum (fun (_ : Fin L) (a : A) => ν.real {a})]
  simp [sum_real]

open Classical in
/-- The probability that a condition on the first `L` draws is not met. -/
noncomputable def bad (Good : List A → Prop) (L : Nat) : ℝ := ∑ w : Fin L → A, if Good (List.ofFn w) then 0 else weight ν w

omit [MeasurableSingletonClass A] [IsProbabilityMeasure ν] in
theorem bad_nonneg (Good : List A → Prop) (L : Nat) : 0 ≤ bad ν Good L := by
  classical
  refine Finset.sum_nonneg (fun w _ => ?_)
  split
  · exact le_refl _
  · exact weight_nonneg ν w

theorem bad_le_one (Good : List A → Prop) (L : Nat) : bad ν Good L ≤ 1 := by
  classical
  rw [← weight_sum ν L]
  refine Finset.sum_le_sum (fun w _ => ?_)
  split
  · exact weight_nonneg ν w
  · exact le_refl _

theorem bad_step {Good : List A → Prop} (mono : ∀ l e, Good l → Good (l ++ e)) {q : ℝ} (hq0 : 0 ≤ q) (hq : ∀ a, q ≤ ν.real {a}) {L M : Nat}
    (h : ∀ l : List A, l.length = L → ∃ e : List A, e.length = M ∧ Good (l ++ e)) : bad ν Good (L + M) ≤ (1 - q ^ M) * bad ν Good L := by
  classical
  have e1 : bad ν Good (L + M) = ∑ x : (Fin L → A) × (Fin M → A), if Good (List.ofFn x.1 ++ List.ofFn x.2) then 0 else weight ν x.1 * weight ν x.2 := by
    unfold bad
    rw [← (Fin.appendEquiv (α := A) L M).sum_comp]
    refine Finset.sum_congr rfl (fun x _ => ?_)
    have e2 : List.ofFn (Fin.append x.1 x.2) = List.ofFn x.1 ++ List.ofFn x.2 := List.ofFn_fin_append ..
    have e3 : weight ν (Fin.append x.1 x.2) = weight ν x.1 * weight ν x.2 := by
      unfold weight
      rw [Fin.prod_univ_add]
      simp
    change (if Good (List.ofFn (Fin.append x.1 x.2)) then 0 else weight ν (Fin.append x.1 x.2)) = _
    rw [e2, e3]
  rw [e1, Fintype.sum_prod_type]
  unfold bad
  rw [Finset.mul_sum]
  refine Finset.sum_le_sum (fun w _ => ?_)
  by_cases hw : Good (List.ofFn w)
  · rw [if_pos hw, mul_zero]
    refine le_of_eq (Finset.sum_eq_zero (fun e _ => ?_))
    rw [if_pos (mono _ _ hw)]
  · rw [if_neg hw]
    obtain ⟨e0, l0, g0⟩ := h (List.ofFn w) (List.length_ofFn ..)
    subst l0
    have hsplit : ∑ e : Fin e0.length → A, (if Good (List.ofFn w ++ List.ofFn e) then 0 else weight ν w * weight ν e) ≤
        ∑ e : Fin e0.length → A, (weight ν w * weight ν e - if e = e0.get then weight ν w * weight ν e else 0) := by
      refine Finset.sum_le_sum (fun e _ => ?_)
      have hp : 0 ≤ weight ν w * weight ν e := mul_nonneg (weight_nonneg ν w) (weight_nonneg ν e)
      by_cases he : e = e0.get
      · have : Good (List.ofFn w ++ List.ofFn e) := by rw [he, List.ofFn_get]; exact g0
        rw [if_pos this, if_pos he]; simp
      · rw [if_neg he, sub_zero]
        split
        · exact hp
        · exact le_refl _
    refine le_trans hsplit ?_
    rw [Finset.sum_sub_distrib, ← Finset.mul_sum, weight_sum, Finset.sum_ite_eq' Finset.univ e0.get, if_pos (Finset.mem_univ _)]
    have hlow : q ^ e0.length ≤ weight ν e0.get := by
      unfold weight
      calc q ^ e0.length = ∏ _k : Fin e0.length, q := by simp
        _ ≤ _ := Finset.prod_le_prod (fun _ _ => hq0) (fun k _ => hq _)
    nlinarith [weight_nonneg ν w]

theorem bad_small {Good : List A → Prop} (mono : ∀ l e, Good l → Good (l ++ e)) {q : ℝ} (hq0 : 0 ≤ q) (hq : ∀ a, q ≤ ν.real {a}) {B M : Nat}
    (h : ∀ l : List A, B ≤ l.length → ∃ e : List A, e.length = M ∧ Good (l ++ e)) (hq1 : q ^ M ≤ 1) (k : Nat) : bad ν Good (B + k * M) ≤ (1 - q ^ M) ^ k := by
  induction k with
  | zero => simpa using bad_le_one ν Good B
  | succ k ih =>
    rw [Nat.succ_mul, ← Nat.add_assoc, pow_succ, mul_comm ((1 - q ^ M) ^ k)]
    exact le_trans (bad_step ν mono hq0 hq (fun l hl => h l (by omega))) (mul_le_mul_of_nonneg_left ih (by linarith))

variable {ν}

/-- The probability that the first `L` draws of a sequence are given ones. -/
theorem measure_first (f : ℕ → ι) (hf : Function.Injective f) {L : Nat} (w : Fin L → A) :
    Measure.infinitePi (fun _ : ι => ν) {ω | ∀ k : Fin L, ω (f k) = w k} = ∏ k, ν {w k} := by
  classical
  have e : {ω : ι → A | ∀ k : Fin L, ω (f k) = w k} = Set.pi ((Finset.univ.map ⟨fun k : Fin L => f k, fun a b h => Fin.ext (hf h)⟩ : Finset ι) : Set ι)
      (fun i => {a | ∀ k : Fin L, f k = i → a = w k}) := by
    ext ω
    simp only [Set.mem_setOf_eq, Set.mem_pi, Finset.coe_map, Set.mem_image, Finset.coe_univ, Set.mem_univ, true_and, Function.Embedding.coeFn_mk]
    constructor
    · rintro h i ⟨k, rfl⟩ k' hk'
      obtain rfl : k' = k := Fin.ext (hf hk')
      exact h k'
    · intro h k
      exact h (f k) ⟨k, rfl⟩ k rfl
  rw [e, Measure.infinitePi_pi _ (fun i _ => (Set.toFinite _).measurableSet), Finset.prod_map]
  refine Finset.prod_congr rfl (fun k _ => ?_)
  congr 1
  ext a
  simp only [Function.Embedding.coeFn_mk, Set.mem_setOf_eq, Set.mem_singleton_iff]
  constructor
  · intro h; exact h k rfl
  · rintro rfl k' hk'
    obtain rfl : k' = k := Fin.ext (hf hk')
    rfl

theorem measure_bad (f : ℕ → ι) (hf : Function.Injective f) (Good : List A → Prop) (L : Nat) :
    Measure.infinitePi (fun _ : ι => ν) {ω | ¬ Good ((List.range L).map (fun k => ω (f k)))} ≤ ENNReal.ofReal (bad ν Good L) := by
  classical
  have hsub : {ω : ι → A | ¬ Good ((List.range L).map (fun k => ω (f k)))} ⊆
      ⋃ w ∈ (Finset.univ.filter (fun w : Fin L → A => ¬ Good (List.ofFn w))), {ω | ∀ k : Fin L, ω (f k) = w k} := by
    intro ω h
    simp only [Finset.mem_filter, Finset.mem_univ, true_and, Set.mem_iUnion, Set.mem_setOf_eq, exists_prop]
    refine ⟨fun k => ω (f k), ?_, fun k => rfl⟩
    have e : (List.ofFn fun k : Fin L => ω (f k)) = (List.range L).map (fun k => ω (f k)) := by
      rw [List.ofFn_eq_map, ← List.map_coe_finRange_eq_range, List.map_map]; rfl
    rw [e]; exact h
  refine le_trans (measure_mono hsub) (le_trans (measure_biUnion_finset_le _ _) ?_)
  unfold bad
  rw [ENNReal.ofReal_sum_of_nonneg (fun w _ => by split; exacts [le_refl _, weight_nonneg ν w]), Finset.sum_filter]
  refine Finset.sum_le_sum (fun w _ => ?_)
  by_cases hw : Good (List.ofFn w)
  · simp [hw]
  · rw [if_pos hw, if_neg hw, measure_first f hf w]
    unfold weight
    rw [ENNReal.ofReal_prod_of_nonneg (fun _ _ => measureReal_nonneg)]
    exact le_of_eq (Finset.prod_congr rfl (fun k _ => by simp [Measure.real]))

theorem almost_sure (hν : ∀ a, ν {a} ≠ 0) (f : ℕ → ι) (hf : Function.Injective f) {Good : List A → Prop} (mono : ∀ l e, Good l → Good (l ++ e)) {B M : Nat}
    (h : ∀ l : List A, B ≤ l.length → ∃ e : List A, e.length = M ∧ Good (l ++ e)) :
    ∀ᵐ ω ∂(Measure.infinitePi (fun _ : ι => ν)), ∃ L, Good ((List.range L).map (fun k => ω (f k))) := by
  have hne : Nonempty A := by
    by_contra h0
    rw [not_nonempty_iff] at h0
    have := measure_univ (μ := ν)
    rw [Set.univ_eq_empty_iff.2 h0] at this
    simp at this
  obtain ⟨a0, ha0⟩ := Finite.exists_min (fun a => ν.real {a})
  have hq0 : 0 < ν.real {a0} := ENNReal.toReal_pos (hν a0) (measure_ne_top _ _)
  have hq1 : ν.real {a0} ≤ 1 := measureReal_le_one
  have hp1 : ν.real {a0} ^ M ≤ 1 := pow_le_one₀ hq0.le hq1
  have hp0 : 0 < ν.real {a0} ^ M := pow_pos hq0 M
  rw [ae_iff]
  have hlim : Filter.Tendsto (fun k => ENNReal.ofReal ((1 - ν.real {a0} ^ M) ^ k)) Filter.atTop (nhds 0) := by
    have := tendsto_pow_atTop_nhds_zero_of_lt_one (r := 1 - ν.real {a0} ^ M) (by linarith) (by linarith)
    simpa using ENNReal.tendsto_ofReal this
  refine le_antisymm (ge_of_tendsto' hlim (fun k => ?_)) (zero_le)
  refine le_trans (measure_mono ?_) (le_trans (measure_bad (ν := ν) f hf Good (B + k * M)) (ENNReal.ofReal_le_ofReal (bad_small ν mono hq0.le ha0 h hp1 k)))
  intro ω hω
  simp only [Set.mem_setOf_eq, not_exists] at hω ⊢
  exact hω _

end Bart.Returns
