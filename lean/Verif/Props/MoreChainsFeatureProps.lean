import Verif.Props.MoreChainsProps
import Verif.Props.StoredTreesProps

/-! Property theorems C121: the shares of the columns with more and more chains. -/

set_option linter.unusedSectionVars false

namespace Bart
open Spec Reference MeasureTheory Returns FiniteRange Filter Topology
variable {n p : Nat} {A : Type} {X : Fin n → Fin p → Fl ℝ}

theorem totalSplitsOn_append (a b : List (State ℝ p)) (j : Fin p) : totalSplitsOn (a ++ b) j = totalSplitsOn a j + totalSplitsOn b j := by simp [totalSplitsOn]

theorem nodesIn_append (a b : List (State ℝ p)) : nodesIn (a ++ b) = nodesIn a + nodesIn b := by simp [nodesIn]

/-- What is counted in the samples of several chains is the sum over the chains. -/
theorem counts_chains {Ω : Type} (H : Ω → List (State ℝ p)) (ω : ℕ → Ω) (c : ℕ) :
    (∀ j, totalSplitsOn ((List.range c).flatMap (fun i => H (ω i))) j = ∑ i ∈ Finset.range c, totalSplitsOn (H (ω i)) j) ∧
    nodesIn ((List.range c).flatMap (fun i => H (ω i))) = ∑ i ∈ Finset.range c, nodesIn (H (ω i)) := by
  induction c with
  | zero => exact ⟨fun j => rfl, rfl⟩
  | succ c ih =>
    rw [List.range_succ, List.flatMap_append]
    refine ⟨fun j => ?_, ?_⟩
    · rw [totalSplitsOn_append, ih.1, Finset.sum_range_succ]; simp
    · rw [nodesIn_append, ih.2, Finset.sum_range_succ]; simp

variable [Fintype A] [MeasurableSpace A] [MeasurableSingletonClass A] {S : Readings A} {s : SkModel ℝ p} {y : Fin n → ℝ}

/-- The samples of a fit with `c` chains, all of which come to their end. -/
theorem chains_history (hX : NoNan X) (hn : 0 < n) (hp : 0 < p) (hs : ValidSettings s) {a b : Fin n} (hy : y a ≠ y b) {lo hi : ℝ} (hlo : IsLeast (Set.range y) lo) (hhi : IsGreatest (Set.range y) hi)
    (hlt : lo < hi) (hg : ∀ a, 0 < S.gamma a) {ω : ℕ → ℕ → A} {c : ℕ} (hc : 0 < c) {L0 : ℕ → ℕ} (h : ∀ i < c, Reference.chain s.config X (scaled lo hi y) (S.first (ω i) (L0 i)) ≠ .error .outOfDraws)
    {L : Nat} (hL : ∀ i < c, L0 i ≤ L) :
    ∃ f m l, ({ s with nChains := c } : SkModel ℝ p).fit X y (fun i => S.first (ω i) L) = .ok f ∧ f.samples = some m ∧ List.Forall₂ SampleRef m.models l ∧
      l.map Prod.snd = (List.range c).flatMap (fun i => history s.config X (scaled lo hi y) S (ω i)) := by
  have hsc : ValidSettings ({ s with nChains := c } : SkModel ℝ p) := ⟨hs.trees, hc, hs.thin, hs.grow, hs.prune, hs.priorA, hs.priorB⟩
  have h1 := C103_fit hX hp hsc.grow hsc.prune hsc.thin hsc.chains hlo hhi hlt (fun i => S.first (ω i) L)
  have hend : ∀ i < c, Reference.chain s.config X (scaled lo hi y) (S.first (ω i) L) ≠ .error .outOfDraws := by
    intro i hi'
    rw [chain_settled S (h i hi') (hL i hi')]
    exact h i hi'
  cases hf : ({ s with nChains := c } : SkModel ℝ p).fit X y (fun i => S.first (ω i) L) with
  | error e =>
    exfalso
    rw [hf] at h1
    have he := C70_no_exception hX hn hp hsc hy _ (by
      intro i x hx
      simp only [Readings.first, List.mem_map] at hx
      obtain ⟨k, -, rfl⟩ := hx
      exact hg _) hf
    subst he
    refine chains_returns ?_ h1
    intro r hr
    obtain ⟨i, hi', rfl⟩ := List.mem_map.1 hr
    exact hend i (List.mem_range.1 hi')
  | ok f =>
    obtain ⟨l, m, a1, a2, a3⟩ := fit_samples hX hp hsc.grow hsc.prune hsc.thin hsc.chains hlo hhi hlt hf
    refine ⟨f, m, l, rfl, a2, a3, ?_⟩
    obtain ⟨Ls, b1, rfl⟩ := chains_split.1 a1
    clear a1 a2 a3 h1 hf h
    have key : ∀ (is : List ℕ) (Ls : List (List (List Bool × State ℝ p))), (∀ i ∈ is, i < c) →
        List.Forall₂ (fun r l => Reference.chain s.config X (scaled lo hi y) r = .ok l) (is.map (fun i => S.first (ω i) L)) Ls →
        Ls.flatten.map Prod.snd = is.flatMap (fun i => history s.config X (scaled lo hi y) S (ω i)) := by
      intro is
      induction is with
      | nil => intro Ls _ h; cases h; rfl
      | cons i is ih =>
        intro Ls hlt' h
        rw [List.map_cons] at h
        cases h with
        | @cons _ l _ Ls e h =>
          rw [List.flatten_cons, List.map_append, List.flatMap_cons, ih Ls (fun i hi' => hlt' i (List.mem_cons_of_mem _ hi')) h]
          congr 1
          obtain ⟨L1, hL1⟩ := history_settled (X := X) s.config (scaled lo hi y) S (ω i)
          rw [← hL1 (max L L1) (le_max_right _ _), chain_settled S (hend i (hlt' i (List.mem_cons_self ..))) (le_max_left L L1), e]
          rfl
    exact key (List.range c) Ls (fun i hi' => List.mem_range.1 hi') b1

/-- A chain that comes to its end has nodes in its samples. -/
theorem nodes_pos (hX : NoNan X) (hn : 0 < n) (hp : 0 < p) (hs : ValidSettings s) (hns : 0 < s.nSamples) {a b : Fin n} (hy : y a ≠ y b) {lo hi : ℝ} (hlo : IsLeast (Set.range y) lo)
    (hhi : IsGreatest (Set.range y) hi) (hlt : lo < hi) (hg : ∀ a, 0 < S.gamma a) {w : ℕ → A} {L0 : ℕ} (h : Reference.chain s.config X (scaled lo hi y) (S.first w L0) ≠ .error .outOfDraws) :
    0 < nodesIn (history s.config X (scaled lo hi y) S w) := by
  obtain ⟨f, m, l, hf, a2, a3, a4⟩ := chains_history hX hn hp hs hy hlo hhi hlt hg (ω := fun _ => w) one_pos (L0 := fun _ => L0) (fun _ _ => h) (L := L0) (fun _ _ => le_refl _)
  obtain ⟨m', Ms, b1, b2, b3, b4, -⟩ := C57_fit hX (s := { s with nChains := 1 }) hs.grow hs.prune hf
  rw [a2] at b1
  cases b1
  have e1 := (samples_counts a3).2
  rw [a4] at e1
  simp only [List.range_one, List.flatMap_cons, List.flatMap_nil, List.append_nil] at e1
  rw [← e1, splitVariables_show b2, (count_flatMap_treeVars hX b4).2.2]
  have h1 : (treesOf Ms).length ≤ totalNodes (treesOf Ms) := by
    rw [← totalDecisionsOn_sum hX b4]; omega
  have h2 : l ≠ [] := by
    rintro rfl
    obtain ⟨l', e⟩ : ∃ l', Reference.chain s.config X (scaled lo hi y) (S.first w L0) = .ok l' := by
      obtain ⟨l', e⟩ := (fit_ok_iff hX (s := { s with nChains := 1 }) hp hs.grow hs.prune hs.thin (by norm_num) hlo hhi hlt).1 ⟨f, hf⟩
      exact ⟨l', ref_single.1 e⟩
    have hl := chain_length e
    have hh : history s.config X (scaled lo hi y) S w = l'.map Prod.snd := by
      obtain ⟨L1, hL1⟩ := history_settled (X := X) s.config (scaled lo hi y) S w
      rw [← hL1 (max L0 L1) (le_max_right _ _), chain_settled S h (le_max_left L0 L1), e]
      rfl
    simp only [List.map_nil, List.range_one, List.flatMap_cons, List.flatMap_nil, List.append_nil, hh] at a4
    have hpos := storedTimes_pos hns s.thin
    have : l' = [] := by simpa using a4.symm
    rw [this] at hl
    have hl' : (storedTimes s.nSamples s.thin).length = 0 := hl.symm
    omega
  have h3 : 0 < (treesOf Ms).length := by
    have hlen : Ms.length = l.length := by rw [← b2.length_eq, a3.length_eq]
    obtain ⟨M, hM⟩ : ∃ M, M ∈ Ms := by
      apply List.exists_mem_of_ne_nil
      rintro rfl
      exact h2 (List.length_eq_zero_iff.1 (by simpa using hlen.symm))
    have hT := (b3 M hM).2
    have h0 : 0 < M.trees.length := by rw [hT]; exact hs.trees
    obtain ⟨t, ht⟩ := List.exists_mem_of_length_pos h0
    exact List.length_pos_of_mem (List.mem_flatMap.2 ⟨M, hM, ht⟩)
  omega

/-! ### C121 -/

/-- C121: chains as in C119. There are numbers `N` and `C j` of one chain (the number of nodes in the trees of its samples, and twice the number of splits by column `j`) such that with probability 1 a fit with `c`
chains returns for every `c`, the share that `feature_split_proportions` returns for column `j` is the sum of the `C j` of the chains divided by the sum of their `N`, and as `c` grows the shares converge to the
expectation of `C j` divided by the expectation of `N`. -/
theorem C121_shares (hX : NoNan X) (hs : ValidSettings s) (hns : 0 < s.nSamples) {a b : Fin n} (hy : y a ≠ y b) {j : Fin p} (hj : HasTwoValues (column X (fun _ => true) j).tail)
    (hg : ∀ a, 0 < S.gamma a) (hall : ∀ k < n, ∀ m, ∃ a, S.pick a = k ∧ S.kind a = m) {ν : Measure A} [IsProbabilityMeasure ν] (hν : ∀ a, ν {a} ≠ 0) :
    ∃ (N : (ℕ → A) → ℕ) (C : Fin p → (ℕ → A) → ℕ),
      (∀ᵐ ω ∂allDraws ν, ∀ c > 0, ∃ L0, ∀ L ≥ L0, ∃ s' m d, ({ s with nChains := c } : SkModel ℝ p).fit X y (fun i => S.first (ω i) L) = .ok s' ∧ s'.samples = some m ∧
        (splitVariables m.models).length = ∑ i ∈ Finset.range c, N (ω i) ∧ (∀ j, (splitVariables m.models).count (some j) = ∑ i ∈ Finset.range c, C j (ω i)) ∧
        s'.featureSplitProportions (some (List.finRange p)) = .ok d ∧ IsDict d ∧ ∀ j v, (j, v) ∈ d ↔ v = ((∑ i ∈ Finset.range c, C j (ω i) : ℕ) : ℝ) / ((∑ i ∈ Finset.range c, N (ω i) : ℕ) : ℝ)) ∧
      (∀ᵐ ω ∂allDraws ν, ∀ j, Tendsto (fun c : ℕ => ((∑ i ∈ Finset.range c, C j (ω i) : ℕ) : ℝ) / ((∑ i ∈ Finset.range c, N (ω i) : ℕ) : ℝ)) atTop
        (𝓝 ((∫ w, (C j w : ℝ) ∂(Measure.infinitePi (fun _ : ℕ => ν))) / ∫ w, (N w : ℝ) ∂(Measure.infinitePi (fun _ : ℕ => ν))))) ∧
      0 < ∫ w, (N w : ℝ) ∂(Measure.infinitePi (fun _ : ℕ => ν)) := by
  have hn : 0 < n := a.pos
  have hp : 0 < p := j.pos
  have hc : columns X (fun _ => true) ≠ [] := by
    obtain ⟨v, hv, w, hw, hvw⟩ := hj
    exact List.ne_nil_of_mem (List.mem_filter.2 ⟨List.mem_finRange j, List.any_eq_true.2 ⟨v, hv, List.any_eq_true.2 ⟨w, hw, decide_eq_true hvw⟩⟩⟩)
  obtain ⟨lo, hi, hlo, hhi, hlt⟩ := exists_range (K := ℝ) ⟨a, b, hy⟩
  let H : (ℕ → A) → List (State ℝ p) := history s.config X (scaled lo hi y) S
  have hfin := histories_finite (X := X) s.config (scaled lo hi y) S
  have hmem : ∀ w, H w ∈ histories s.config X (scaled lo hi y) S := history_mem s.config (scaled lo hi y) S
  have hmeas : ∀ b, MeasurableSet {w | H w = b} := history_measurable s.config (scaled lo hi y) S
  have hends := chain_ends hX hn hc S hall s.config (scaled lo hi y) hν
  have hends' : ∀ᵐ ω ∂allDraws ν, ∀ i, ∃ L, Reference.chain s.config X (scaled lo hi y) (S.first (ω i) L) ≠ .error .outOfDraws :=
    ae_all_iff.2 (fun i => (measurePreserving_eval_infinitePi (fun _ : ℕ => Measure.infinitePi (fun _ : ℕ => ν)) i).quasiMeasurePreserving.ae hends)
  have hcount : ∀ g : List (State ℝ p) → ℕ, Measurable (fun w => (g (H w) : ℝ)) ∧ ∃ B : ℝ, ∀ w, |(g (H w) : ℝ)| ≤ B := by
    intro g
    constructor
    · intro t _
      have e : (fun w => (g (H w) : ℝ)) ⁻¹' t = ⋃ b ∈ {b ∈ histories s.config X (scaled lo hi y) S | (g b : ℝ) ∈ t}, {w | H w = b} := by
        ext w
        simp only [Set.mem_preimage, Set.mem_iUnion, Set.mem_setOf_eq, exists_prop]
        constructor
        · intro h; exact ⟨H w, ⟨hmem w, h⟩, rfl⟩
        · rintro ⟨b, ⟨-, h⟩, rfl⟩; exact h
      rw [e]
      exact (hfin.subset (Set.sep_subset _ _)).measurableSet_biUnion (fun b _ => hmeas b)
    · obtain ⟨M, hM⟩ := (hfin.image (fun b => |(g b : ℝ)|)).bddAbove
      exact ⟨M, fun w => hM ⟨_, hmem w, rfl⟩⟩
  obtain ⟨hNm, BN, hBN⟩ := hcount nodesIn
  have hpos : 0 < ∫ w, (nodesIn (H w) : ℝ) ∂(Measure.infinitePi (fun _ : ℕ => ν)) := by
    have h1 : (1 : ℝ) ≤ ∫ w, (nodesIn (H w) : ℝ) ∂(Measure.infinitePi (fun _ : ℕ => ν)) := by
      have : ∫ _w, (1 : ℝ) ∂(Measure.infinitePi (fun _ : ℕ => ν)) = 1 := by simp
      rw [← this]
      refine integral_mono_ae (integrable_const _) (Integrable.of_bound hNm.aestronglyMeasurable BN (Eventually.of_forall (fun w => by simpa using hBN w))) ?_
      filter_upwards [hends] with w hw
      obtain ⟨L, hL⟩ := hw
      have := nodes_pos hX hn hp hs hns hy hlo hhi hlt hg hL
      exact_mod_cast this
    linarith
  refine ⟨fun w => nodesIn (H w), fun j w => 2 * totalSplitsOn (H w) j, ?_, ?_, hpos⟩
  · filter_upwards [hends'] with ω hω c hc0
    choose L0 hL0 using hω
    refine ⟨∑ i ∈ Finset.range c, L0 i, fun L hL => ?_⟩
    obtain ⟨f, m, l, a1, a2, a3, a4⟩ := chains_history hX hn hp hs hy hlo hhi hlt hg hc0 (L0 := L0) (fun i _ => hL0 i)
      (L := L) (fun i hi' => le_trans (Finset.single_le_sum (f := L0) (fun _ _ => Nat.zero_le _) (Finset.mem_range.2 hi')) hL)
    obtain ⟨k1, k2⟩ := counts_chains H ω c
    obtain ⟨c1, c2⟩ := samples_counts a3
    have e2 : (splitVariables m.models).length = ∑ i ∈ Finset.range c, nodesIn (H (ω i)) := by rw [c2, a4, k2]
    have e1 : ∀ j, (splitVariables m.models).count (some j) = ∑ i ∈ Finset.range c, 2 * totalSplitsOn (H (ω i)) j := by
      intro j
      rw [c1, a4, k1, Finset.mul_sum]
    refine ⟨f, m, _, a1, a2, e2, e1, by unfold SkModel.featureSplitProportions; rw [a2], ?_⟩
    rw [featureSplitProportions_eq]
    obtain ⟨i1, i2⟩ := Dict.foldl_set (fun j => ((splitVariables m.models).count (some j) : ℝ) / ((splitVariables m.models).length : ℝ))
      ((some (List.finRange p)).getD ((List.finRange p).filter (fun j => (splitVariables m.models).contains (some j)))) [] (by simp [IsDict]) (by simp)
    refine ⟨i1, fun j v => ?_⟩
    rw [i2, e1, e2]
    simp [Dict.keys]
  · have hN := Averages.converges (Measure.infinitePi (fun _ : ℕ => ν)) hNm hBN
    have hC : ∀ᵐ ω ∂allDraws ν, ∀ j, Tendsto (fun c : ℕ => (∑ i ∈ Finset.range c, ((2 * totalSplitsOn (H (ω i)) j : ℕ) : ℝ)) / (c : ℝ)) atTop
        (𝓝 (∫ w, ((2 * totalSplitsOn (H w) j : ℕ) : ℝ) ∂(Measure.infinitePi (fun _ : ℕ => ν)))) :=
      ae_all_iff.2 (fun j => by
        obtain ⟨hm, B, hB⟩ := hcount (fun ss => 2 * totalSplitsOn ss j)
        exact Averages.converges _ hm hB)
    filter_upwards [hN, hC] with ω h1 h2 j
    refine ((h2 j).div h1 hpos.ne').congr' ?_
    filter_upwards [eventually_gt_atTop 0] with c hc0
    have : (c : ℝ) ≠ 0 := by positivity
    push_cast
    rw [Pi.div_apply, div_div_div_cancel_right₀ this]

/-! ### a concrete case -/

/-- C121, the example: the data and the draws of the example of C119. -/
example : ∃ (N : (ℕ → Fin 12) → ℕ) (C : Fin 1 → (ℕ → Fin 12) → ℕ),
    (∀ᵐ ω ∂allDraws (pickMeasure 12), ∀ j, Tendsto (fun c : ℕ => ((∑ i ∈ Finset.range c, C j (ω i) : ℕ) : ℝ) / ((∑ i ∈ Finset.range c, N (ω i) : ℕ) : ℝ)) atTop
      (𝓝 ((∫ w, (C j w : ℝ) ∂(Measure.infinitePi (fun _ : ℕ => pickMeasure 12))) / ∫ w, (N w : ℝ) ∂(Measure.infinitePi (fun _ : ℕ => pickMeasure 12))))) ∧
    0 < ∫ w, (N w : ℝ) ∂(Measure.infinitePi (fun _ : ℕ => pickMeasure 12)) := by
  obtain ⟨j, hj⟩ := (C108_exactly_partial (rampX_noNan 3) (exSkReal_valid true) (by simp [exSkReal]) (y := fun r => (r.val : ℝ)) (a := 0) (b := 1) (by norm_num)).1 (exists_fit true)
  obtain ⟨N, C, -, h2, h3⟩ := C121_shares (S := exReadings) (ν := pickMeasure 12) (rampX_noNan 3) (exSkReal_valid true) (by simp [exSkReal]) (y := fun r => (r.val : ℝ)) (a := 0) (b := 1) (by norm_num) hj
    (by intro a; simp only [exReadings]; split <;> norm_num) (by
      intro k hk m
      interval_cases k <;> cases m
      · exact ⟨0, by decide⟩
      · exact ⟨3, by decide⟩
      · exact ⟨1, by decide⟩
      · exact ⟨4, by decide⟩
      · exact ⟨2, by decide⟩
      · exact ⟨5, by decide⟩) (by intro a; rw [pickMeasure_singleton]; simp)
  exact ⟨N, C, h2, h3⟩

end Bart
