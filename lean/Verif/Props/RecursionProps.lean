import Verif.Proofs.Recursion
import Verif.Props.ReturnsProps

/-! Property theorem C117, continued: how likely it is that Python's limit on recursion ends a fit. -/

set_option linter.unusedSectionVars false

namespace Bart
open Spec Reference MeasureTheory Returns
variable {n p N : Nat}

/-! ### runs of one kind of move -/

theorem methodMeasure_grow {q : ℝ} : methodMeasure q {Method.grow} = ENNReal.ofReal q := by simp [methodMeasure, Measure.add_apply, Measure.smul_apply]

theorem methodMeasure_prune {q : ℝ} : methodMeasure q {Method.prune} = ENNReal.ofReal (1 - q) := by simp [methodMeasure, Measure.add_apply, Measure.smul_apply]

theorem drawMeasure_kind [NeZero N] {q : ℝ} (h0 : 0 < q) (h1 : q < 1) (m : Method) : drawMeasure N q (Set.univ ×ˢ {m}) = methodMeasure q {m} := by
  have := methodMeasure_univ h0 h1
  rw [drawMeasure, Measure.prod_prod, measure_univ, one_mul]

/-- The probability that `R` consecutive kinds of move of a chain are all the kind `m`. -/
theorem run_probability [NeZero N] {q : ℝ} (h0 : 0 < q) (h1 : q < 1) (i c R : Nat) (m : Method) :
    Measure.infinitePi (fun _ : ℕ × ℕ => drawMeasure N q) {ω | ∀ k < R, (ω (i, c + k)).2 = m} = methodMeasure q {m} ^ R := by
  have := methodMeasure_univ h0 h1
  have : IsProbabilityMeasure (drawMeasure N q) := by unfold drawMeasure; infer_instance
  have e : {ω : ℕ × ℕ → Fin N × Method | ∀ k < R, (ω (i, c + k)).2 = m} = Set.pi ((Finset.range R).image (fun k => (i, c + k)) : Finset (ℕ × ℕ)) (fun _ => Set.univ ×ˢ {m}) := by
    ext ω
    simp [Set.mem_pi]
  rw [e, Measure.infinitePi_pi _ (fun _ _ => MeasurableSet.univ.prod MeasurableSet.of_discrete), Finset.prod_const, Finset.card_image_of_injective _ (fun a b h => by simpa using h), Finset.card_range,
    drawMeasure_kind h0 h1]

theorem ready_methods (ω : Nat → Fin N × Method) (u z g : Nat → ℝ) (L c R : Nat) (h : c + R ≤ L) :
    ((firstDraws ω u z g L).methods.drop c).take R = (List.range R).map (fun k => (ω (c + k)).2) := by
  apply List.ext_getElem?
  intro k
  simp only [firstDraws, List.getElem?_take, List.getElem?_drop, List.getElem?_map, List.getElem?_range']
  by_cases hk : k < R
  · rw [if_pos hk, List.getElem?_range (by omega), List.getElem?_range hk]
    rfl
  · rw [if_neg hk, List.getElem?_eq_none (by simp; omega)]
    rfl

/-- Without a run of `R` equal kinds of move among the draws that may be used, the kinds that are ready are mixed. -/
theorem mixed_of_no_run {R b : Nat} (hR : 0 < R) (ω : Nat → Fin N × Method) (u z g : Nat → ℝ) (h : ∀ c < b * R, ∀ m, ¬∀ k < R, (ω (c + k)).2 = m) (L : Nat) :
    Recursion.Mixed R b (firstDraws ω u z g L).methods := by
  intro k hk c hc
  by_cases hL : c + R ≤ L
  · right
    intro m
    have hcb : c < b * R := lt_of_le_of_lt hc (by
      have : (k + 1) * R ≤ b * R := Nat.mul_le_mul_right R hk
      rw [Nat.succ_mul] at this
      omega)
    have hother : ∃ m', m' ≠ m ∧ ∀ x, x ≠ m → x = m' := by
      cases m with
      | grow => exact ⟨.prune, by simp, fun x hx => by cases x <;> simp_all⟩
      | prune => exact ⟨.grow, by simp, fun x hx => by cases x <;> simp_all⟩
    obtain ⟨m', -, hm'⟩ := hother
    have := h c hcb m'
    push Not at this
    obtain ⟨k', hk', hne⟩ := this
    rw [ready_methods ω u z g L c R hL]
    refine List.mem_map.2 ⟨k', List.mem_range.2 hk', ?_⟩
    by_contra hx
    exact hne (hm' _ hx)
  · left
    simp only [firstDraws, List.length_drop, List.length_map, List.length_range]
    omega

variable {X : Fin n → Fin p → Fl ℝ}

theorem columns_of_twoValues {j : Fin p} (hj : HasTwoValues (column X (fun _ => true) j).tail) : columns X (fun _ => true) ≠ [] := by
  obtain ⟨v, hv, w, hw, hvw⟩ := hj
  exact List.ne_nil_of_mem (List.mem_filter.2 ⟨List.mem_finRange j, List.any_eq_true.2 ⟨v, hv, List.any_eq_true.2 ⟨w, hw, decide_eq_true hvw⟩⟩⟩)

theorem twoValues_of_columns (hc : columns X (fun _ => true) ≠ []) : ∃ j, HasTwoValues (column X (fun _ => true) j).tail := by
  obtain ⟨j, hj⟩ := List.exists_mem_of_ne_nil _ hc
  obtain ⟨v, hv, hw⟩ := List.any_eq_true.1 (List.mem_filter.1 hj).2
  obtain ⟨w, hw, hvw⟩ := List.any_eq_true.1 hw
  exact ⟨j, v, hv, w, hw, of_decide_eq_true hvw⟩

/-! ### C117 with the limit -/

/-- C117: as long as no run of `R` equal kinds of move comes among the first `n_trees * (n_burn + n_samples) * R` kinds of a chain, the limit of `R` nested calls changes nothing. -/
theorem C117_limit_unreached {j : Fin p} (hj : HasTwoValues (column X (fun _ => true) j).tail) {R : Nat} (hR : 0 < R) (c : Reference.Config ℝ) (lo hi : ℝ) (y : Fin n → ℝ)
    (ω : ℕ × ℕ → Fin N × Method) (u z g : Nat → Nat → ℝ) (h : ∀ i < c.nChains, ∀ k < (c.nBurn + c.nSamples) * c.nTrees * R, ∀ m, ¬∀ k' < R, (ω (i, k + k')).2 = m) (L : Nat) :
    Recursion.fit R c X lo hi y (fun i => firstDraws (fun k => ω (i, k)) (u i) (z i) (g i) L) = Reference.fit c X lo hi y (fun i => firstDraws (fun k => ω (i, k)) (u i) (z i) (g i) L) := by
  refine Recursion.chains_eq c _ ?_
  intro r hr
  obtain ⟨i, hi', rfl⟩ := List.mem_map.1 hr
  exact Recursion.chain_eq (columns_of_twoValues hj) c _ (mixed_of_no_run hR _ _ _ _ (h i (List.mem_range.1 hi')) L)

/-- C117: with a limit of `R` nested calls the probability that a fit of data that can be fitted does not return is at most `n_chains * (n_burn + n_samples) * n_trees * R * (p_grow ^ R + (1 - p_grow) ^ R)`. -/
theorem C117_limit (hX : NoNan X) {s : SkModel ℝ p} (hs : ValidSettings s) (hk : 0 < s.nBurn + s.nSamples) (h0 : 0 < s.pGrow) (h1 : s.pGrow < 1) {y : Fin n → ℝ} {a b : Fin n} (hy : y a ≠ y b)
    {lo hi : ℝ} (hlo : IsLeast (Set.range y) lo) (hhi : IsGreatest (Set.range y) hi) (hN : n ≤ N) (u z g : Nat → Nat → ℝ) (hg : ∀ i k, 0 < g i k)
    (hcan : ∃ rs s', s.fit X y rs = .ok s') {R : Nat} (hR : 0 < R) :
    Measure.infinitePi (fun _ : ℕ × ℕ => drawMeasure N s.pGrow)
        {ω | ¬∃ L0, ∀ L ≥ L0, ∃ samples, Recursion.fit R s.config X lo hi y (fun i => firstDraws (fun k => ω (i, k)) (u i) (z i) (g i) L) = .ok samples} ≤
      (s.nChains * ((s.nBurn + s.nSamples) * s.nTrees * R) : ℕ) * (ENNReal.ofReal s.pGrow ^ R + ENNReal.ofReal (1 - s.pGrow) ^ R) := by
  obtain ⟨j, hj⟩ := (C108_exactly_partial hX hs hk hy).1 hcan
  have hnz : NeZero N := ⟨by have := a.pos; omega⟩
  have := methodMeasure_univ h0 h1
  have : IsProbabilityMeasure (drawMeasure N s.pGrow) := by unfold drawMeasure; infer_instance
  have hlt : lo < hi := by
    rcases lt_or_gt_of_ne hy with h | h
    · exact lt_of_le_of_lt (hlo.2 ⟨a, rfl⟩) (lt_of_lt_of_le h (hhi.2 ⟨b, rfl⟩))
    · exact lt_of_le_of_lt (hlo.2 ⟨b, rfl⟩) (lt_of_lt_of_le h (hhi.2 ⟨a, rfl⟩))
  have hae := C117_returns hX hs hk h0 h1 hy hN u z g hg hcan
  let μ := Measure.infinitePi (fun _ : ℕ × ℕ => drawMeasure N s.pGrow)
  let B := (s.nBurn + s.nSamples) * s.nTrees * R
  let run := fun (i c : ℕ) (m : Method) => {ω : ℕ × ℕ → Fin N × Method | ∀ k < R, (ω (i, c + k)).2 = m}
  let none := {ω : ℕ × ℕ → Fin N × Method | ¬∃ L0, ∀ L ≥ L0, ∃ s', s.fit X y (fun i => firstDraws (fun k => ω (i, k)) (u i) (z i) (g i) L) = .ok s'}
  have hnone : μ none = 0 := hae
  have hsub : {ω : ℕ × ℕ → Fin N × Method | ¬∃ L0, ∀ L ≥ L0, ∃ samples, Recursion.fit R s.config X lo hi y (fun i => firstDraws (fun k => ω (i, k)) (u i) (z i) (g i) L) = .ok samples} ⊆
      none ∪ ⋃ i ∈ Finset.range s.nChains, ⋃ c ∈ Finset.range B, (run i c .grow ∪ run i c .prune) := by
    intro ω hω
    by_contra hcon
    simp only [Set.mem_union, not_or, Set.mem_iUnion, not_exists] at hcon
    obtain ⟨hn1, hn2⟩ := hcon
    have hret : ∃ L0, ∀ L ≥ L0, ∃ s', s.fit X y (fun i => firstDraws (fun k => ω (i, k)) (u i) (z i) (g i) L) = .ok s' := by
      by_contra hc
      exact hn1 hc
    obtain ⟨L0, hL0⟩ := hret
    refine hω ⟨L0, fun L hL => ?_⟩
    obtain ⟨s', hs'⟩ := hL0 L hL
    have h103 := C103_fit hX j.pos hs.grow hs.prune hs.thin hs.chains hlo hhi hlt (fun i => firstDraws (fun k => ω (i, k)) (u i) (z i) (g i) L)
    rw [hs'] at h103
    obtain ⟨samples, -, hsam, -⟩ := h103
    refine ⟨samples, ?_⟩
    rw [C117_limit_unreached hj hR s.config lo hi y ω u z g ?_ L]
    · exact hsam
    · intro i hi' k hk' m hm
      have := hn2 i (Finset.mem_range.2 hi') k (Finset.mem_range.2 hk')
      cases m with
      | grow => exact this.1 hm
      | prune => exact this.2 hm
  refine (measure_mono hsub).trans ((measure_union_le _ _).trans ?_)
  rw [show Measure.infinitePi (fun _ : ℕ × ℕ => drawMeasure N s.pGrow) none = 0 from hnone, zero_add]
  refine (measure_biUnion_finset_le _ _).trans ?_
  refine (Finset.sum_le_sum (fun i _ => (measure_biUnion_finset_le _ _).trans (Finset.sum_le_sum (fun c _ => (measure_union_le (run i c .grow) (run i c .prune)).trans (le_of_eq (by
    show _ = ENNReal.ofReal s.pGrow ^ R + ENNReal.ofReal (1 - s.pGrow) ^ R
    rw [← methodMeasure_grow, ← methodMeasure_prune, ← run_probability (N := N) h0 h1 i c R .grow, ← run_probability (N := N) h0 h1 i c R .prune])))))).trans ?_
  rw [Finset.sum_const, Finset.sum_const, Finset.card_range, Finset.card_range, nsmul_eq_mul, nsmul_eq_mul, ← mul_assoc, ← Nat.cast_mul]

/-- C117: the limit cannot be ruled out. RecursionError is raised with a probability of at least `(1 - p_grow) ^ R`, for any data: the first tree cannot be pruned. -/
theorem C117_limit_possible [NeZero N] (c : Reference.Config ℝ) (hT : 0 < c.nTrees) (hk : 0 < c.nBurn + c.nSamples) (hC : 0 < c.nChains) {q : ℝ} (h0 : 0 < q) (h1 : q < 1) (lo hi : ℝ) (y : Fin n → ℝ)
    (u z g : Nat → Nat → ℝ) (R : Nat) :
    ENNReal.ofReal (1 - q) ^ R ≤ Measure.infinitePi (fun _ : ℕ × ℕ => drawMeasure N q)
        {ω | ∀ L ≥ R, Recursion.fit R c X lo hi y (fun i => firstDraws (fun k => ω (i, k)) (u i) (z i) (g i) L) = .error .recursionError} := by
  have := methodMeasure_univ h0 h1
  have : IsProbabilityMeasure (drawMeasure N q) := by unfold drawMeasure; infer_instance
  rw [← methodMeasure_prune, ← run_probability (N := N) h0 h1 0 0 R .prune]
  refine measure_mono ?_
  intro ω hω L hL
  obtain ⟨C, hC'⟩ : ∃ C, c.nChains = C + 1 := ⟨c.nChains - 1, by omega⟩
  have hch := Recursion.chain_stuck (R := R) (X := X) c (scaled lo hi y) hT hk (r := firstDraws (fun k => ω (0, k)) (u 0) (z 0) (g 0) L) (by simpa [firstDraws] using hL) (Or.inr (by
    intro m hm
    have e := ready_methods (fun k => ω (0, k)) (u 0) (z 0) (g 0) L 0 R (by omega)
    rw [List.drop_zero] at e
    rw [e] at hm
    obtain ⟨k, hk', rfl⟩ := List.mem_map.1 hm
    simpa using hω k (List.mem_range.1 hk')))
  unfold Recursion.fit
  rw [hC', List.range_succ_eq_map, List.map_cons]
  unfold Recursion.chains
  rw [hch]

/-- C117: training data that cannot be fitted is reported. If no column has two different values among the rows after the first, every fit raises RecursionError when `R` kinds of move have been drawn. -/
theorem C117_unfittable (c : Reference.Config ℝ) (hT : 0 < c.nTrees) (hk : 0 < c.nBurn + c.nSamples) (hC : 0 < c.nChains) (hX : ¬∃ j, HasTwoValues (column X (fun _ => true) j).tail) (lo hi : ℝ) (y : Fin n → ℝ)
    (R : Nat) (rs : Nat → Rand ℝ) (hl : R ≤ (rs 0).methods.length) : Recursion.fit R c X lo hi y rs = .error .recursionError := by
  have hc : columns X (fun _ => true) = [] := by
    by_contra hc
    exact hX (twoValues_of_columns hc)
  obtain ⟨C, hC'⟩ : ∃ C, c.nChains = C + 1 := ⟨c.nChains - 1, by omega⟩
  have hch := Recursion.chain_stuck (R := R) (X := X) c (scaled lo hi y) hT hk (r := rs 0) hl (Or.inl hc)
  unfold Recursion.fit
  rw [hC', List.range_succ_eq_map, List.map_cons]
  unfold Recursion.chains
  rw [hch]

/-! ### concrete cases -/

theorem ramp_least : IsLeast (Set.range (fun r : Fin 3 => (r.val : ℝ))) 0 := ⟨⟨0, by simp⟩, by rintro _ ⟨r, rfl⟩; exact Nat.cast_nonneg _⟩

theorem ramp_greatest : IsGreatest (Set.range (fun r : Fin 3 => (r.val : ℝ))) 2 := by
  refine ⟨⟨2, by norm_num⟩, ?_⟩
  rintro _ ⟨r, rfl⟩
  have := r.isLt
  have h : r.val ≤ 2 := by omega
  show (r.val : ℝ) ≤ 2
  exact_mod_cast h

/-- With a limit of 900 nested calls, a fit of the rows 0, 1, 2 fails with a probability of at most 2^-800. -/
example : Measure.infinitePi (fun _ : ℕ × ℕ => drawMeasure 6 (exSkReal true).pGrow)
    {ω | ¬∃ L0, ∀ L ≥ L0, ∃ samples, Recursion.fit 900 (exSkReal true).config (rampX 3) 0 2 (fun r => (r.val : ℝ)) (fun i => firstDraws (fun k => ω (i, k)) (fun _ => 0) (fun _ => 1) (fun _ => 1) L) = .ok samples} ≤
      ENNReal.ofReal ((1 / 2) ^ 800) := by
  refine (C117_limit (rampX_noNan 3) (exSkReal_valid true) (by simp [exSkReal]) (by simp [exSkReal]) (by simp [exSkReal]; norm_num) (a := 0) (b := 1) (by norm_num) ramp_least ramp_greatest (by norm_num)
    (fun _ _ => 0) (fun _ _ => 1) (fun _ _ => 1) (fun _ _ => one_pos) (exists_fit true) (by norm_num)).trans ?_
  rw [← ENNReal.ofReal_pow (by simp [exSkReal]), ← ENNReal.ofReal_pow (by simp [exSkReal]; norm_num), ← ENNReal.ofReal_add (by simp [exSkReal]) (by simp [exSkReal]; positivity), ← ENNReal.ofReal_natCast,
    ← ENNReal.ofReal_mul (Nat.cast_nonneg _)]
  apply ENNReal.ofReal_le_ofReal
  have e : (1 / 2 : ℝ) ^ 900 = (1 / 2) ^ 800 * (1 / 2) ^ 100 := by rw [← pow_add]
  have hp : (0 : ℝ) ≤ (1 / 2) ^ 800 := by positivity
  have h2 : 14400 * ((1 / 2 : ℝ) ^ 100 + (1 / 2) ^ 100) ≤ 1 := by norm_num
  have h3 : 14400 * ((1 / 2 : ℝ) ^ 900 + (1 / 2) ^ 900) ≤ (1 / 2) ^ 800 := by
    rw [e]
    calc 14400 * ((1 / 2 : ℝ) ^ 800 * (1 / 2) ^ 100 + (1 / 2) ^ 800 * (1 / 2) ^ 100) = (1 / 2) ^ 800 * (14400 * ((1 / 2) ^ 100 + (1 / 2) ^ 100)) := by ring
      _ ≤ (1 / 2) ^ 800 * 1 := mul_le_mul_of_nonneg_left h2 hp
      _ = (1 / 2) ^ 800 := mul_one _
  simp only [exSkReal]
  norm_num at h3 ⊢
  exact h3

/-- For the rows 1, 2, 2 RecursionError is raised. -/
example (rs : Nat → Rand ℝ) (hl : 900 ≤ (rs 0).methods.length) :
    Recursion.fit 900 (exSkReal true).config (fun (r : Fin 3) (_ : Fin 1) => if r = 0 then (.fin 1 : Fl ℝ) else .fin 2) 0 2 (fun r => (r.val : ℝ)) rs = .error .recursionError := by
  refine C117_unfittable _ (by simp [exSkReal, SkModel.config]) (by simp [exSkReal, SkModel.config]) (by simp [exSkReal, SkModel.config]) ?_ _ _ _ _ _ hl
  rintro ⟨j, hj⟩
  rw [column_three] at hj
  obtain ⟨a, ha, b, hb, hab⟩ := hj
  simp at ha hb
  exact hab (ha.trans hb.symm)

end Bart
