import Verif.Proofs.LayerReturns
import Verif.Props.ReturnsProps
import Verif.Props.ObliviousRealProps
import Verif.Props.ObliviousUnitsProps

/-! C134: the probability that a fit with the oblivious tree sampler returns. -/

set_option linter.unusedSectionVars false

namespace Bart.Oblivious
open Bart Spec Reference MeasureTheory Returns
variable {n p N : Nat} {X : Fin n → Fin p → Fl ℝ}

/-- With probability 1, a chain comes to its end (it returns or raises an exception) when enough draws are ready. -/
theorem layer_chain_ends (hX : NoNan X) (hn : 0 < n) (hN : n ≤ N) (c : Reference.Config ℝ) (y : Fin n → ℝ) (u z g : Nat → ℝ) {ν : Measure (Fin N × Method)} [IsProbabilityMeasure ν]
    (hν : ∀ a, ν {a} ≠ 0) (i : Nat) :
    ∀ᵐ ω ∂(Measure.infinitePi (fun _ : ℕ × ℕ => ν)), ∃ L0, ∀ L ≥ L0, Layers.chain c X y (firstDraws (fun k => ω (i, k)) u z g L) ≠ .error .outOfDraws := by
  have mono : ∀ l e : List (Fin N × Method), Layers.sweeps c.toSettings X y (c.nBurn + c.nSamples) (Layers.start c.toSettings) (readyDraws u z g l) ≠ .error .outOfDraws →
      Layers.sweeps c.toSettings X y (c.nBurn + c.nSamples) (Layers.start c.toSettings) (readyDraws u z g (l ++ e)) ≠ .error .outOfDraws := by
    intro l e h
    rw [readyDraws_append]
    exact LayerReturns.sweeps_more_ne _ _ (LayerReturns.sweeps_more_ne _ _ h)
  have hcomp : ∀ l : List (Fin N × Method),
      (c.nBurn + c.nSamples) * c.nTrees + (c.nBurn + c.nSamples) * (c.nTrees * 2 ^ (0 + (c.nBurn + c.nSamples))) + (c.nBurn + c.nSamples) ≤ l.length →
      ∃ e : List (Fin N × Method), e.length = (c.nBurn + c.nSamples) * (c.nTrees * 2 ^ (0 + (c.nBurn + c.nSamples))) ∧
        Layers.sweeps c.toSettings X y (c.nBurn + c.nSamples) (Layers.start c.toSettings) (readyDraws u z g (l ++ e)) ≠ .error .outOfDraws := by
    intro l hl
    obtain ⟨e0, l0, b0, h0⟩ := LayerReturns.sweeps_completes (c := c.toSettings) hX hn (y := y) (c.nBurn + c.nSamples) (s := Layers.start c.toSettings) (r := readyDraws u z g l) (d := 0) (T := c.nTrees)
      (by simp [Layers.start]) (by
        intro t ht
        rw [List.eq_of_mem_replicate ht]
        simp [Layers.LTree.root])
      (by simp only [readyDraws, List.length_map, List.length_range]; omega) (by simp only [readyDraws, List.length_map, List.length_range]; omega)
      (by simp only [readyDraws, List.length_map, List.length_range]; omega)
    obtain ⟨e, rfl⟩ := lift_pairs (N := N) e0 (fun x hx => lt_of_lt_of_le (b0 x hx) hN)
    rw [List.length_map] at l0
    refine ⟨e ++ List.replicate ((c.nBurn + c.nSamples) * (c.nTrees * 2 ^ (0 + (c.nBurn + c.nSamples))) - e.length) (⟨0, by omega⟩, .grow), by rw [List.length_append, List.length_replicate]; omega, ?_⟩
    rw [← List.append_assoc]
    refine mono _ _ ?_
    rw [readyDraws_append]
    exact LayerReturns.sweeps_more_ne _ _ h0
  have := almost_sure (ι := ℕ × ℕ) hν (fun k => (i, k)) (fun a b h => by simpa using h) mono hcomp
  filter_upwards [this] with ω hω
  obtain ⟨L0, hL0⟩ := hω
  refine ⟨L0, fun L hL => ?_⟩
  have hg : Layers.sweeps c.toSettings X y (c.nBurn + c.nSamples) (Layers.start c.toSettings) (firstDraws (fun k => ω (i, k)) u z g L) ≠ .error .outOfDraws := by
    rw [firstDraws_eq]
    obtain ⟨d, rfl⟩ := Nat.exists_eq_add_of_le hL
    rw [List.range_add, List.map_append]
    exact mono _ _ hL0
  intro h
  unfold Layers.chain at h
  split at h
  · next e1 => cases h; exact hg e1
  · cases h

/-- A fit of several chains that fails: one of the chains fails. -/
theorem layer_chains_error {c : Reference.Config ℝ} {y : Fin n → ℝ} {rs : List (Rand ℝ)} {e : PyErr} (h : Layers.chains c X y rs = .error e) : ∃ r ∈ rs, Layers.chain c X y r = .error e := by
  induction rs with
  | nil => cases h
  | cons r rs ih =>
    unfold Layers.chains at h
    split at h
    · next e1 => cases h; exact ⟨r, List.mem_cons_self .., e1⟩
    · split at h
      · next e2 =>
        cases h
        obtain ⟨r', hr', he⟩ := ih e2
        exact ⟨r', List.mem_cons_of_mem _ hr', he⟩
      · cases h

/-- A fit of several chains that returns: all chains return. -/
theorem layer_chains_ok {c : Reference.Config ℝ} {y : Fin n → ℝ} {rs : List (Rand ℝ)} : ∀ {l}, Layers.chains c X y rs = .ok l → ∀ r ∈ rs, ∃ l', Layers.chain c X y r = .ok l' := by
  induction rs with
  | nil => intro l _ r hr; cases hr
  | cons r rs ih =>
    intro l h r' hr'
    unfold Layers.chains at h
    split at h
    · cases h
    · next l1 e1 =>
      split at h
      · cases h
      · next l2 e2 =>
        rcases List.mem_cons.1 hr' with rfl | hr'
        · exact ⟨l1, e1⟩
        · exact ih e2 r' hr'

/-- With probability 1, a fit comes to its end when enough draws are ready: it returns, or raises AttributeError (only if no column has two values after the first row). -/
theorem ofit_ends (hX : ∀ r, GoodRow (X r)) (hp : 0 < p) {s : SkModel ℝ p} (hs : ValidSettings s) {y : Fin n → ℝ} {a b : Fin n} (hy : y a ≠ y b)
    (hN : n ≤ N) {ν : Measure (Fin N × Method)} [IsProbabilityMeasure ν] (hν : ∀ x, ν {x} ≠ 0) (u z g : Nat → Nat → ℝ) (hg : ∀ i k, 0 < g i k) :
    ∀ᵐ ω ∂(Measure.infinitePi (fun _ : ℕ × ℕ => ν)), ∃ L0, ∀ L ≥ L0,
      (∃ s', fit s X y (fun i => firstDraws (fun k => ω (i, k)) (u i) (z i) (g i) L) = .ok s') ∨
      (fit s X y (fun i => firstDraws (fun k => ω (i, k)) (u i) (z i) (g i) L) = .error .attributeError ∧ ∀ j, ¬ HasTwoValues (column X (fun _ => true) j).tail) := by
  have hn : 0 < n := a.pos
  obtain ⟨lo, hi, hlo, hhi, hlt⟩ := exists_range ⟨a, b, hy⟩
  have hall : ∀ᵐ ω ∂(Measure.infinitePi (fun _ : ℕ × ℕ => ν)), ∀ i, ∃ L0, ∀ L ≥ L0,
      Layers.chain s.config X (scaled lo hi y) (firstDraws (fun k => ω (i, k)) (u i) (z i) (g i) L) ≠ .error .outOfDraws :=
    ae_all_iff.2 (fun i => layer_chain_ends (fun r j => (hX r j).1) hn hN s.config (scaled lo hi y) (u i) (z i) (g i) hν i)
  filter_upwards [hall] with ω hω
  choose L0 hL0 using hω
  refine ⟨∑ i ∈ Finset.range s.nChains, L0 i, fun L hL => ?_⟩
  have href : Layers.fit s.config X lo hi y (fun i => firstDraws (fun k => ω (i, k)) (u i) (z i) (g i) L) ≠ .error .outOfDraws := by
    intro h
    obtain ⟨r, hr, he⟩ := layer_chains_error h
    obtain ⟨i, hi', rfl⟩ := List.mem_map.1 hr
    have hi'' : i ∈ Finset.range s.nChains := Finset.mem_range.2 (List.mem_range.1 hi')
    exact hL0 i L (le_trans (Finset.single_le_sum (f := L0) (fun _ _ => Nat.zero_le _) hi'') hL) he
  have h127 := C127_fit hX hp hs.grow hs.prune hs.thin hs.chains hlo hhi hlt (fun i => firstDraws (fun k => ω (i, k)) (u i) (z i) (g i) L)
  cases hf : fit s X y (fun i => firstDraws (fun k => ω (i, k)) (u i) (z i) (g i) L) with
  | ok s' => exact .inl ⟨s', rfl⟩
  | error e =>
    rw [hf] at h127
    rcases C126_valid hX hp hs hy _ (by
      intro i x hx
      simp only [firstDraws, List.mem_map] at hx
      obtain ⟨k, -, rfl⟩ := hx
      exact hg i k) hf with rfl | ⟨rfl, h⟩
    · exact absurd h127 href
    · exact .inr ⟨rfl, h⟩

/-! ### C134 -/

/-- C134, for all distributions of the picks and kinds of move under which every pick and kind is possible: if some column has two different values among the training rows after the first, then with
probability 1 a fit with the oblivious tree sampler returns when enough draws are ready, whatever the uniform, normal and (positive) gamma numbers are. -/
theorem C134_almost_surely (hX : ∀ r, GoodRow (X r)) {s : SkModel ℝ p} (hs : ValidSettings s) {y : Fin n → ℝ} {a b : Fin n} (hy : y a ≠ y b) {j : Fin p}
    (hj : HasTwoValues (column X (fun _ => true) j).tail) (hN : n ≤ N) {ν : Measure (Fin N × Method)} [IsProbabilityMeasure ν] (hν : ∀ x, ν {x} ≠ 0) (u z g : Nat → Nat → ℝ) (hg : ∀ i k, 0 < g i k) :
    ∀ᵐ ω ∂(Measure.infinitePi (fun _ : ℕ × ℕ => ν)), ∃ L0, ∀ L ≥ L0, ∃ s', fit s X y (fun i => firstDraws (fun k => ω (i, k)) (u i) (z i) (g i) L) = .ok s' := by
  filter_upwards [ofit_ends hX j.pos hs hy hN hν u z g hg] with ω hω
  obtain ⟨L0, h⟩ := hω
  refine ⟨L0, fun L hL => ?_⟩
  rcases h L hL with h | ⟨-, h⟩
  · exact h
  · exact absurd hj (h j)

/-- Otherwise a fit returns, when enough draws are ready, if and only if all moves that are drawn are to prune. -/
theorem ofit_stuck (hX : ∀ r, GoodRow (X r)) (hp : 0 < p) {s : SkModel ℝ p} (hs : ValidSettings s) {y : Fin n → ℝ} {a b : Fin n} (hy : y a ≠ y b)
    (hj : ∀ j, ¬ HasTwoValues (column X (fun _ => true) j).tail) {ω : ℕ × ℕ → Fin N × Method} {u z g : Nat → Nat → ℝ} {L : Nat} :
    ((∃ s', fit s X y (fun i => firstDraws (fun k => ω (i, k)) (u i) (z i) (g i) L) = .ok s') →
      ∀ i < s.nChains, ∀ k < (s.nBurn + s.nSamples) * s.nTrees, (ω (i, k)).2 = .prune) ∧
    (fit s X y (fun i => firstDraws (fun k => ω (i, k)) (u i) (z i) (g i) L) = .error .attributeError → (s.nBurn + s.nSamples) * s.nTrees ≤ L →
      ¬∀ i < s.nChains, ∀ k < (s.nBurn + s.nSamples) * s.nTrees, (ω (i, k)).2 = .prune) := by
  obtain ⟨lo, hi, hlo, hhi, hlt⟩ := exists_range ⟨a, b, hy⟩
  have h127 := C127_fit hX hp hs.grow hs.prune hs.thin hs.chains hlo hhi hlt (fun i => firstDraws (fun k => ω (i, k)) (u i) (z i) (g i) L)
  have hcol : columns X (Layers.rowsOn X []) = [] := by
    unfold columns
    rw [List.filter_eq_nil_iff]
    intro j _ h1
    obtain ⟨v, hv, h2⟩ := List.any_eq_true.1 h1
    obtain ⟨w, hw, h3⟩ := List.any_eq_true.1 h2
    exact hj j ⟨v, hv, w, hw, of_decide_eq_true h3⟩
  have hstuck : ∀ r : Rand ℝ, _ := fun r => LayerReturns.sweeps_stuck (c := s.config.toSettings) (y := scaled lo hi y) hcol (T := s.nTrees) (s.nBurn + s.nSamples) (s := Layers.start s.config.toSettings)
    (by intro t ht; rw [List.eq_of_mem_replicate ht]; rfl) (by simp [Layers.start]; rfl) r
  have hmeth : ∀ i, ((∃ l, (firstDraws (fun k => ω (i, k)) (u i) (z i) (g i) L).methods = List.replicate ((s.nBurn + s.nSamples) * s.nTrees) .prune ++ l) →
      ∀ k < (s.nBurn + s.nSamples) * s.nTrees, (ω (i, k)).2 = .prune) ∧
      ((s.nBurn + s.nSamples) * s.nTrees ≤ L → (∀ k < (s.nBurn + s.nSamples) * s.nTrees, (ω (i, k)).2 = .prune) →
        ∃ l, (firstDraws (fun k => ω (i, k)) (u i) (z i) (g i) L).methods = List.replicate ((s.nBurn + s.nSamples) * s.nTrees) .prune ++ l) := by
    intro i
    generalize (s.nBurn + s.nSamples) * s.nTrees = M
    simp only [firstDraws]
    constructor
    · rintro ⟨l, hl⟩ k hk
      have h1 : (List.replicate M Method.prune ++ l)[k]? = some .prune := by
        rw [List.getElem?_append_left (by simpa using hk), List.getElem?_replicate, if_pos hk]
      rw [← hl, List.getElem?_map, Option.map_eq_some_iff] at h1
      obtain ⟨k', h1, h2⟩ := h1
      rw [List.getElem?_range (by
        have := congrArg List.length hl
        simp at this
        omega)] at h1
      cases h1
      exact h2
    · intro hML h
      obtain ⟨d, rfl⟩ := Nat.exists_eq_add_of_le hML
      refine ⟨(List.range d).map (fun k => (ω (i, M + k)).2), ?_⟩
      rw [List.range_add, List.map_append]
      congr 1
      · refine List.eq_replicate_iff.2 ⟨by simp, ?_⟩
        intro m hm
        obtain ⟨k, hk, rfl⟩ := List.mem_map.1 hm
        exact h k (List.mem_range.1 hk)
      · simp [Function.comp_def]
  constructor
  · rintro ⟨s', hs'⟩ i hi'
    rw [hs'] at h127
    obtain ⟨samples, c, h1, -⟩ := h127
    obtain ⟨l', hl'⟩ := layer_chains_ok h1 _ (List.mem_map.2 ⟨i, List.mem_range.2 hi', rfl⟩)
    unfold Layers.chain at hl'
    split at hl'
    · cases hl'
    · next h2 => exact (hmeth i).1 ((hstuck _).1 h2)
  · intro he hL hall
    rw [he] at h127
    obtain ⟨r, hr, h1⟩ := layer_chains_error h127
    obtain ⟨i, hi', rfl⟩ := List.mem_map.1 hr
    unfold Layers.chain at h1
    split at h1
    · next h2 =>
      cases h1
      exact (hstuck _).2 h2 ((hmeth i).2 hL (hall i (List.mem_range.1 hi')))
    · cases h1

/-- C134, the probability that a fit with the oblivious tree sampler returns, for uniformly distributed picks and kinds of move drawn with probability `p_grow`, all independent: 1 if some column has two values
after the first row, otherwise the probability that no move is to grow (if one is, fit raises AttributeError). -/
theorem C134_probability (hX : ∀ r, GoodRow (X r)) (hp : 0 < p) {s : SkModel ℝ p} (hs : ValidSettings s) (h0 : 0 < s.pGrow) (h1 : s.pGrow < 1) {y : Fin n → ℝ} {a b : Fin n} (hy : y a ≠ y b)
    (hN : n ≤ N) (u z g : Nat → Nat → ℝ) (hg : ∀ i k, 0 < g i k) :
    Measure.infinitePi (fun _ : ℕ × ℕ => drawMeasure N s.pGrow) {ω | ∃ L s', fit s X y (fun i => firstDraws (fun k => ω (i, k)) (u i) (z i) (g i) L) = .ok s'} =
      (open Classical in if ∃ j, HasTwoValues (column X (fun _ => true) j).tail then 1 else ENNReal.ofReal (1 - s.pGrow) ^ (s.nChains * ((s.nBurn + s.nSamples) * s.nTrees))) := by
  have hnz : NeZero N := ⟨by have := a.pos; omega⟩
  have := methodMeasure_univ h0 h1
  have : IsProbabilityMeasure (drawMeasure N s.pGrow) := by unfold drawMeasure; infer_instance
  by_cases hc : ∃ j, HasTwoValues (column X (fun _ => true) j).tail
  · rw [if_pos hc]
    obtain ⟨j, hj⟩ := hc
    have hae := C134_almost_surely hX hs hy hj hN (drawMeasure_singleton h0 h1) u z g hg
    have heq : {ω : ℕ × ℕ → Fin N × Method | ∃ L s', fit s X y (fun i => firstDraws (fun k => ω (i, k)) (u i) (z i) (g i) L) = .ok s'} =ᵐ[Measure.infinitePi (fun _ : ℕ × ℕ => drawMeasure N s.pGrow)] Set.univ := by
      rw [Filter.eventuallyEq_univ]
      filter_upwards [hae] with ω hω
      obtain ⟨L0, h⟩ := hω
      exact ⟨L0, h L0 (le_refl _)⟩
    rw [measure_congr heq, measure_univ]
  · rw [if_neg hc]
    push Not at hc
    have hae := ofit_ends hX hp hs hy hN (drawMeasure_singleton h0 h1) u z g hg
    have heq : {ω : ℕ × ℕ → Fin N × Method | ∃ L s', fit s X y (fun i => firstDraws (fun k => ω (i, k)) (u i) (z i) (g i) L) = .ok s'} =ᵐ[Measure.infinitePi (fun _ : ℕ × ℕ => drawMeasure N s.pGrow)]
        Set.pi ↑(Finset.range s.nChains ×ˢ Finset.range ((s.nBurn + s.nSamples) * s.nTrees)) (fun _ => Set.univ ×ˢ {Method.prune}) := by
      refine Filter.eventuallyEq_set.2 ?_
      filter_upwards [hae] with ω hω
      obtain ⟨L0, h⟩ := hω
      have hset : ω ∈ Set.pi ↑(Finset.range s.nChains ×ˢ Finset.range ((s.nBurn + s.nSamples) * s.nTrees)) (fun _ => (Set.univ : Set (Fin N)) ×ˢ {Method.prune}) ↔
          ∀ i < s.nChains, ∀ k < (s.nBurn + s.nSamples) * s.nTrees, (ω (i, k)).2 = .prune := by
        simp only [Set.mem_pi, Finset.coe_product, Set.mem_prod, Finset.coe_range, Set.mem_Iio, Set.mem_univ, true_and, Set.mem_singleton_iff, Prod.forall]
        exact ⟨fun h i hi k hk => h i k ⟨hi, hk⟩, fun h i k hik => h i hik.1 k hik.2⟩
      rw [hset]
      constructor
      · rintro ⟨L, hL⟩
        exact (ofit_stuck hX hp hs hy hc).1 hL
      · intro hall
        refine ⟨max L0 ((s.nBurn + s.nSamples) * s.nTrees), ?_⟩
        rcases h (max L0 ((s.nBurn + s.nSamples) * s.nTrees)) (le_max_left _ _) with h | ⟨h, -⟩
        · exact h
        · exact absurd hall ((ofit_stuck hX hp hs hy hc).2 h (le_max_right _ _))
    rw [measure_congr heq, Measure.infinitePi_pi]
    · have hq : drawMeasure N s.pGrow (Set.univ ×ˢ {Method.prune}) = ENNReal.ofReal (1 - s.pGrow) := by
        rw [drawMeasure, Measure.prod_prod, measure_univ, one_mul]
        simp [methodMeasure]
      simp only [hq, Finset.prod_const, Finset.card_product, Finset.card_range]
    · intro _ _
      exact MeasurableSet.univ.prod (MeasurableSpace.measurableSet_top)

/-! ### concrete cases -/

/-- A fit of the rows 0, 1, 2 with target 0, 1, 2 returns with probability 1. -/
example : ∀ᵐ ω ∂(Measure.infinitePi (fun _ : ℕ × ℕ => drawMeasure 6 (exSkReal true).pGrow)), ∃ L0, ∀ L ≥ L0, ∃ s',
    fit (exSkReal true) (rampX 3) (fun r => (r.val : ℝ)) (fun i => firstDraws (fun k => ω (i, k)) (fun _ => 0) (fun _ => 1) (fun _ => 1) L) = .ok s' := by
  have h0 : 0 < (exSkReal true).pGrow := by simp [exSkReal]
  have h1 : (exSkReal true).pGrow < 1 := by simp [exSkReal]; norm_num
  have := methodMeasure_univ h0 h1
  have : IsProbabilityMeasure (drawMeasure 6 (exSkReal true).pGrow) := by unfold drawMeasure; infer_instance
  have hj : HasTwoValues (column (rampX 3) (fun _ => true) 0).tail := by
    refine (isNotConstant_noNan ?_).1 (ramp_splittable ?_)
    · intro x hx; obtain ⟨r, -, hr⟩ := mem_column.1 hx; rw [← hr]; exact rampX_noNan 3 r 0
    · simp [count]
  exact C134_almost_surely (fun r j => ⟨by simp [rampX], by simp [rampX]⟩) (exSkReal_valid true) (a := 0) (b := 1) (by norm_num) hj (by norm_num) (drawMeasure_singleton h0 h1)
    (fun _ _ => 0) (fun _ _ => 1) (fun _ _ => 1) (fun _ _ => one_pos)

/-- For the rows 1, 2, 2 (two different values, but not after the first row) the probability is that of drawing no grow move at all. -/
example : Measure.infinitePi (fun _ : ℕ × ℕ => drawMeasure 6 (exSkReal true).pGrow)
    {ω | ∃ L s', fit (exSkReal true) (fun (r : Fin 3) (_ : Fin 1) => if r = 0 then (.fin 1 : Fl ℝ) else .fin 2) (fun r => (r.val : ℝ))
      (fun i => firstDraws (fun k => ω (i, k)) (fun _ => 0) (fun _ => 1) (fun _ => 1) L) = .ok s'} =
    ENNReal.ofReal (1 / 2) ^ 16 := by
  rw [C134_probability (fun r j => ⟨by split <;> simp, by split <;> simp⟩) (by norm_num) (exSkReal_valid true) (by simp [exSkReal]) (by simp [exSkReal]; norm_num) (a := 0) (b := 1)
    (by norm_num) (by norm_num) (fun _ _ => 0) (fun _ _ => 1) (fun _ _ => 1) (fun _ _ => one_pos), if_neg]
  · norm_num [exSkReal]
  · rintro ⟨j, hj⟩
    rw [column_three] at hj
    obtain ⟨a, ha, b, hb, hab⟩ := hj
    simp at ha hb
    exact hab (ha.trans hb.symm)

end Bart.Oblivious
