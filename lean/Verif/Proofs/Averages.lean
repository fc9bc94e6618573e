import Mathlib.Probability.Independence.InfinitePi
import Mathlib.Probability.StrongLaw
import Mathlib.Probability.Moments.Variance

/-! Averages over independent repetitions of an experiment. -/

namespace Bart.Averages
open MeasureTheory ProbabilityTheory Filter Topology

variable {Ω : Type} [MeasurableSpace Ω] (P : Measure Ω) [IsProbabilityMeasure P]

theorem repeat_integrable {V : Ω → ℝ} (hV : Measurable V) {B : ℝ} (hB : ∀ w, |V w| ≤ B) (i : ℕ) : MemLp (fun ω : ℕ → Ω => V (ω i)) 2 (Measure.infinitePi (fun _ : ℕ => P)) :=
  MemLp.of_bound (hV.comp (measurable_pi_apply i)).aestronglyMeasurable B (Eventually.of_forall (fun ω => by simpa using hB (ω i)))

theorem repeat_identDistrib {V : Ω → ℝ} (hV : Measurable V) (i : ℕ) : IdentDistrib (fun ω : ℕ → Ω => V (ω i)) V (Measure.infinitePi (fun _ : ℕ => P)) P := by
  have h := measurePreserving_eval_infinitePi (fun _ : ℕ => P) i
  refine ⟨(hV.comp h.measurable).aemeasurable, hV.aemeasurable, ?_⟩
  have e : (fun ω : ℕ → Ω => V (ω i)) = V ∘ Function.eval i := rfl
  rw [e, ← Measure.map_map hV h.measurable, h.map_eq]

theorem repeat_indep {V : Ω → ℝ} (hV : Measurable V) {i j : ℕ} (hij : i ≠ j) : IndepFun (fun ω : ℕ → Ω => V (ω i)) (fun ω : ℕ → Ω => V (ω j)) (Measure.infinitePi (fun _ : ℕ => P)) :=
  (iIndepFun_infinitePi (P := fun _ : ℕ => P) (X := fun _ => V) (fun _ => hV)).indepFun hij

/-- Strong law of large numbers for repetitions. -/
theorem converges {V : Ω → ℝ} (hV : Measurable V) {B : ℝ} (hB : ∀ w, |V w| ≤ B) :
    ∀ᵐ ω ∂(Measure.infinitePi (fun _ : ℕ => P)), Tendsto (fun c : ℕ => (∑ i ∈ Finset.range c, V (ω i)) / (c : ℝ)) atTop (𝓝 (∫ w, V w ∂P)) := by
  have h := strong_law_ae (μ := Measure.infinitePi (fun _ : ℕ => P)) (fun i ω => V (ω i)) ((repeat_integrable P hV hB 0).integrable (by norm_num)) (fun i j hij => repeat_indep P hV hij)
    (fun i => (repeat_identDistrib P hV i).trans (repeat_identDistrib P hV 0).symm)
  rw [(repeat_identDistrib P hV 0).integral_eq] at h
  filter_upwards [h] with ω hω
  refine hω.congr (fun c => ?_)
  rw [smul_eq_mul, div_eq_inv_mul]

theorem average_mean {V : Ω → ℝ} (hV : Measurable V) {B : ℝ} (hB : ∀ w, |V w| ≤ B) {c : ℕ} (hc : 0 < c) :
    ∫ ω, (∑ i ∈ Finset.range c, V (ω i)) / (c : ℝ) ∂(Measure.infinitePi (fun _ : ℕ => P)) = ∫ w, V w ∂P := by
  rw [integral_div, integral_finset_sum _ (fun i _ => (repeat_integrable P hV hB i).integrable (by norm_num))]
  simp only [(repeat_identDistrib P hV _).integral_eq, Finset.sum_const, Finset.card_range, nsmul_eq_mul]
  have : (c : ℝ) ≠ 0 := by positivity
  field_simp

theorem average_variance {V : Ω → ℝ} (hV : Measurable V) {B : ℝ} (hB : ∀ w, |V w| ≤ B) {c : ℕ} (hc : 0 < c) :
    ∫ ω, ((∑ i ∈ Finset.range c, V (ω i)) / (c : ℝ) - ∫ w, V w ∂P) ^ 2 ∂(Measure.infinitePi (fun _ : ℕ => P)) = (∫ w, (V w - ∫ w', V w' ∂P) ^ 2 ∂P) / (c : ℝ) := by
  have hc0 : (c : ℝ) ≠ 0 := by positivity
  have hm : Measurable (fun ω : ℕ → Ω => (∑ i ∈ Finset.range c, V (ω i)) / (c : ℝ)) :=
    (Finset.measurable_sum _ (fun i _ => hV.comp (measurable_pi_apply i))).div_const _
  have h1 := variance_eq_integral (μ := Measure.infinitePi (fun _ : ℕ => P)) hm.aemeasurable
  rw [average_mean P hV hB hc] at h1
  rw [← h1, ← variance_eq_integral hV.aemeasurable]
  have h2 : variance (∑ i ∈ Finset.range c, fun ω : ℕ → Ω => V (ω i)) (Measure.infinitePi (fun _ : ℕ => P)) = ∑ i ∈ Finset.range c, variance V P := by
    rw [IndepFun.variance_sum (fun i _ => repeat_integrable P hV hB i) (fun i _ j _ hij => repeat_indep P hV hij)]
    exact Finset.sum_congr rfl (fun i _ => (repeat_identDistrib P hV i).variance_eq)
  have e : (fun ω : ℕ → Ω => (∑ i ∈ Finset.range c, V (ω i)) / (c : ℝ)) = fun ω => (c : ℝ)⁻¹ * (∑ i ∈ Finset.range c, fun ω : ℕ → Ω => V (ω i)) ω := by
    funext ω
    rw [Finset.sum_apply, div_eq_inv_mul]
  rw [e, variance_const_mul, h2, Finset.sum_const, Finset.card_range, nsmul_eq_mul]
  field_simp

/-- What depends on a result with finitely many possible values: averages converge for all parameters at the same time, uniformly. -/
theorem converges_uniformly {β E : Type} {F : Set β} (hfin : F.Finite) {H : Ω → β} (hF : ∀ w, H w ∈ F) (hm : ∀ b, MeasurableSet {w | H w = b}) {val : β → E → ℝ} (hb : ∀ b, ∃ B, ∀ x, |val b x| ≤ B) :
    ∀ᵐ ω ∂(Measure.infinitePi (fun _ : ℕ => P)), ∀ ε > 0, ∃ c0 : ℕ, ∀ c ≥ c0, ∀ x, |(∑ i ∈ Finset.range c, val (H (ω i)) x) / (c : ℝ) - ∫ w, val (H w) x ∂P| < ε := by
  classical
  choose B hB using hb
  let I : β → Ω → ℝ := fun b w => if H w = b then 1 else 0
  have hI : ∀ b, Measurable (I b) := fun b => Measurable.ite (hm b) measurable_const measurable_const
  have hI1 : ∀ b w, |I b w| ≤ 1 := by intro b w; simp only [I]; split <;> simp
  have hval : ∀ w x, val (H w) x = ∑ b ∈ hfin.toFinset, I b w * val b x := by
    intro w x
    simp only [I, ite_mul, one_mul, zero_mul]
    rw [Finset.sum_ite_eq, if_pos (hfin.mem_toFinset.2 (hF w))]
  have hint : ∀ x, ∫ w, val (H w) x ∂P = ∑ b ∈ hfin.toFinset, (∫ w, I b w ∂P) * val b x := by
    intro x
    simp only [hval]
    rw [integral_finset_sum]
    · exact Finset.sum_congr rfl (fun b _ => integral_mul_const _ _)
    · intro b _
      exact (Integrable.of_bound (hI b).aestronglyMeasurable 1 (Eventually.of_forall (fun w => by simpa using hI1 b w))).mul_const _
  have hall : ∀ᵐ ω ∂(Measure.infinitePi (fun _ : ℕ => P)), ∀ b ∈ hfin.toFinset, Tendsto (fun c : ℕ => (∑ i ∈ Finset.range c, I b (ω i)) / (c : ℝ)) atTop (𝓝 (∫ w, I b w ∂P)) :=
    (Finset.eventually_all _).2 (fun b _ => converges P (hI b) (hI1 b))
  filter_upwards [hall] with ω hω ε hε
  have hlim : Tendsto (fun c : ℕ => ∑ b ∈ hfin.toFinset, |(∑ i ∈ Finset.range c, I b (ω i)) / (c : ℝ) - ∫ w, I b w ∂P| * B b) atTop (𝓝 0) := by
    have : Tendsto (fun c : ℕ => ∑ b ∈ hfin.toFinset, |(∑ i ∈ Finset.range c, I b (ω i)) / (c : ℝ) - ∫ w, I b w ∂P| * B b) atTop (𝓝 (∑ b ∈ hfin.toFinset, |(∫ w, I b w ∂P) - ∫ w, I b w ∂P| * B b)) :=
      tendsto_finset_sum _ (fun b hb => ((hω b hb).sub_const _).abs.mul_const _)
    simpa using this
  obtain ⟨c0, hc0⟩ := eventually_atTop.1 (hlim.eventually (gt_mem_nhds hε))
  refine ⟨c0, fun c hc x => lt_of_le_of_lt ?_ (hc0 c hc)⟩
  have e : (∑ i ∈ Finset.range c, val (H (ω i)) x) / (c : ℝ) - ∫ w, val (H w) x ∂P =
      ∑ b ∈ hfin.toFinset, ((∑ i ∈ Finset.range c, I b (ω i)) / (c : ℝ) - ∫ w, I b w ∂P) * val b x := by
    rw [hint]
    simp only [hval]
    rw [Finset.sum_comm, Finset.sum_div, ← Finset.sum_sub_distrib]
    refine Finset.sum_congr rfl (fun b _ => ?_)
    rw [← Finset.sum_mul]
    ring
  rw [e]
  refine le_trans (Finset.abs_sum_le_sum_abs _ _) (Finset.sum_le_sum (fun b _ => ?_))
  rw [abs_mul]
  exact mul_le_mul_of_nonneg_left (hB b x) (abs_nonneg _)

/-- The value that a sequence of results settles on, if the events that an element of the sequence has a given value are measurable. -/
theorem settles_measurable {β : Type} {h : ℕ → Ω → β} {g : Ω → β} (hl : ∀ w, ∃ L0, ∀ L ≥ L0, h L w = g w) (hm : ∀ L b, MeasurableSet {w | h L w = b}) (b : β) : MeasurableSet {w | g w = b} := by
  have e : {w | g w = b} = ⋃ L0 : ℕ, ⋂ L : ℕ, ⋂ _ : L ≥ L0, {w | h L w = b} := by
    ext w
    simp only [Set.mem_setOf_eq, Set.mem_iUnion, Set.mem_iInter]
    obtain ⟨L0, hL0⟩ := hl w
    constructor
    · rintro rfl; exact ⟨L0, hL0⟩
    · rintro ⟨L1, h1⟩
      rw [← hL0 (max L0 L1) (le_max_left _ _), h1 (max L0 L1) (le_max_right _ _)]
  rw [e]
  exact MeasurableSet.iUnion (fun _ => MeasurableSet.iInter (fun _ => MeasurableSet.iInter (fun _ => hm _ _)))

end Bart.Averages
