import Verif.Props.ObliviousMoreChainsProps
import Verif.Props.ObliviousFeatureProps

/-! Property theorems C140: the shares of the columns with more and more chains, with the oblivious tree sampler. -/

set_option linter.unusedSectionVars false

namespace Bart.Oblivious
open Bart Spec Reference MeasureTheory Returns FiniteRange Filter Topology
variable {n p : Nat} {A : Type} {X : Fin n → Fin p → Fl ℝ}

/-- Twice the splits by column `j` and the doublings below a comparison with it, in the trees of several states. -/
def countsOn (ss : List (Layers.State ℝ p)) (j : Fin p) : Nat := 2 * (splitsIn (ss.map (fun st => (([] : List Bool), st))) j + doublingsIn (ss.map (fun st => (([] : List Bool), st))) j)

/-- The number of nodes in several states. -/
def allNodes (ss : List (Layers.State ℝ p)) : Nat := nodesIn (ss.map (fun st => (([] : List Bool), st)))

theorem countsOn_states (l : List (List Bool × Layers.State ℝ p)) (j : Fin p) : countsOn (l.map Prod.snd) j = 2 * (splitsIn l j + doublingsIn l j) := by
  simp [countsOn, splitsIn, doublingsIn, List.flatMap_map]

theorem allNodes_states (l : List (List Bool × Layers.State ℝ p)) : allNodes (l.map Prod.snd) = nodesIn l := by
  simp [allNodes, nodesIn, List.flatMap_map]

theorem countsOn_append (a b : List (Layers.State ℝ p)) (j : Fin p) : countsOn (a ++ b) j = countsOn a j + countsOn b j := by
  simp only [countsOn, splitsIn, doublingsIn, List.map_append, List.flatMap_append, List.sum_append]; ring

theorem allNodes_append (a b : List (Layers.State ℝ p)) : allNodes (a ++ b) = allNodes a + allNodes b := by simp [allNodes, nodesIn]

/-- What is counted in the samples of several chains is the sum over the chains. -/
theorem layer_counts_chains {Ω : Type} (H : Ω → List (Layers.State ℝ p)) (ω : ℕ → Ω) (c : ℕ) :
    (∀ j, countsOn ((List.range c).flatMap (fun i => H (ω i))) j = ∑ i ∈ Finset.range c, countsOn (H (ω i)) j) ∧
    allNodes ((List.range c).flatMap (fun i => H (ω i))) = ∑ i ∈ Finset.range c, allNodes (H (ω i)) := by
  induction c with
  | zero => exact ⟨fun j => rfl, rfl⟩
  | succ c ih =>
    rw [List.range_succ, List.flatMap_append]
    refine ⟨fun j => ?_, ?_⟩
    · rw [countsOn_append, ih.1, Finset.sum_range_succ]; simp
    · rw [allNodes_append, ih.2, Finset.sum_range_succ]; simp

theorem layer_sweeps_trees {c : Reference.Settings ℝ} {y : Fin n → ℝ} {T : Nat} (k : Nat) : ∀ {s s' : Layers.State ℝ p} {r r' : Rand ℝ} {l : List (List Bool × Layers.State ℝ p)} {d : Nat},
    (∀ t ∈ s.trees, t.layers.length ≤ d) → s.trees.length = T → Layers.sweeps c X y k s r = .ok (l, s', r') → ∀ q ∈ l, q.2.trees.length = T := by
  induction k with
  | zero => intro s s' r r' l d _ _ h; cases h; simp
  | succ k ih =>
    intro s s' r r' l d hd hT h
    unfold Layers.sweeps at h
    split at h
    · cases h
    · next bs s1 r1 e1 =>
      split at h
      · cases h
      · next l2 s2 r2 e2 =>
        cases h
        obtain ⟨h1, h2, -⟩ := LayerReturns.sweep_shape hd e1
        intro q hq
        rcases List.mem_cons.1 hq with rfl | hq
        · exact h2.trans hT
        · exact ih h1 (h2.trans hT) e2 q hq

theorem layer_chain_trees {c : Reference.Config ℝ} {y : Fin n → ℝ} {r : Rand ℝ} {l : List (List Bool × Layers.State ℝ p)} (h : Layers.chain c X y r = .ok l) : ∀ q ∈ l, q.2.trees.length = c.nTrees := by
  unfold Layers.chain at h
  split at h
  · cases h
  · next l1 s1 r1 e =>
    cases h
    intro q hq
    obtain ⟨t, -, ht⟩ := List.mem_filterMap.1 hq
    refine layer_sweeps_trees (T := c.nTrees) _ (d := 0) ?_ (by simp [Layers.start]) e q (List.mem_of_getElem? ht)
    intro t ht
    rw [List.eq_of_mem_replicate ht]
    simp [Layers.LTree.root]

theorem allNodes_pos {ss : List (Layers.State ℝ p)} {st : Layers.State ℝ p} (h : st ∈ ss) (ht : 0 < st.trees.length) : 0 < allNodes ss := by
  obtain ⟨t, ht⟩ := List.exists_mem_of_length_pos ht
  unfold allNodes nodesIn
  have h1 : 2 ^ (t.layers.length + 1) - 1 ∈ (ss.map (fun st => (([] : List Bool), st))).flatMap (fun st => st.2.trees.map (fun T => 2 ^ (T.layers.length + 1) - 1)) :=
    List.mem_flatMap.2 ⟨_, List.mem_map.2 ⟨st, h, rfl⟩, List.mem_map.2 ⟨t, ht, rfl⟩⟩
  have h2 := List.le_sum_of_mem h1
  have h3 : 2 ≤ 2 ^ (t.layers.length + 1) := by
    calc 2 = 2 ^ 1 := rfl
      _ ≤ _ := Nat.pow_le_pow_right (by norm_num) (by omega)
  omega

variable [Fintype A] [MeasurableSpace A] [MeasurableSingletonClass A] {S : Readings A} {s : SkModel ℝ p} {y : Fin n → ℝ}

/-- The samples of a fit with `c` chains, all of which come to their end. -/
theorem layer_chains_history (hX : ∀ r, GoodRow (X r)) {j : Fin p} (hj : HasTwoValues (column X (fun _ => true) j).tail) (hs : ValidSettings s) {a b : Fin n} (hy : y a ≠ y b) {lo hi : ℝ} (hlo : IsLeast (Set.range y) lo) (hhi : IsGreatest (Set.range y) hi)
    (hlt : lo < hi) (hg : ∀ a, 0 < S.gamma a) {ω : ℕ → ℕ → A} {c : ℕ} (hc : 0 < c) {L0 : ℕ → ℕ} (h : ∀ i < c, Layers.chain s.config X (scaled lo hi y) (S.first (ω i) (L0 i)) ≠ .error .outOfDraws)
    {L : Nat} (hL : ∀ i < c, L0 i ≤ L) :
    ∃ f m l, fit ({ s with nChains := c } : SkModel ℝ p) X y (fun i => S.first (ω i) L) = .ok f ∧ f.samples = some m ∧ List.Forall₂ OSample m.models l ∧
      l.map Prod.snd = (List.range c).flatMap (fun i => layerHistory s.config X (scaled lo hi y) S (ω i)) := by
  have hsc : ValidSettings ({ s with nChains := c } : SkModel ℝ p) := ⟨hs.trees, hc, hs.thin, hs.grow, hs.prune, hs.priorA, hs.priorB⟩
  have h1 := C127_fit hX j.pos hsc.grow hsc.prune hsc.thin hsc.chains hlo hhi hlt (fun i => S.first (ω i) L)
  have hend : ∀ i < c, Layers.chain s.config X (scaled lo hi y) (S.first (ω i) L) ≠ .error .outOfDraws := by
    intro i hi'
    rw [layer_settled S (h i hi') (hL i hi')]
    exact h i hi'
  cases hf : fit ({ s with nChains := c } : SkModel ℝ p) X y (fun i => S.first (ω i) L) with
  | error e =>
    exfalso
    rw [hf] at h1
    rcases C126_valid hX j.pos hsc hy _ (by
      intro i x hx
      simp only [Readings.first, List.mem_map] at hx
      obtain ⟨k, -, rfl⟩ := hx
      exact hg _) hf with rfl | ⟨-, h0⟩
    · obtain ⟨r, hr, he⟩ := layer_chains_error h1
      obtain ⟨i, hi', rfl⟩ := List.mem_map.1 hr
      exact hend i (List.mem_range.1 hi') he
    · exact h0 j hj
  | ok f =>
    obtain ⟨l, m, a1, a2, a3⟩ := ofit_samples hX j.pos hsc.grow hsc.prune hsc.thin hlo hhi hlt hf
    refine ⟨f, m, l, rfl, a2, a3, ?_⟩
    obtain ⟨Ls, b1, rfl⟩ := layer_chains_split.1 a1
    clear a1 a2 a3 h1 hf h
    have key : ∀ (is : List ℕ) (Ls : List (List (List Bool × Layers.State ℝ p))), (∀ i ∈ is, i < c) →
        List.Forall₂ (fun r l => Layers.chain s.config X (scaled lo hi y) r = .ok l) (is.map (fun i => S.first (ω i) L)) Ls →
        Ls.flatten.map Prod.snd = is.flatMap (fun i => layerHistory s.config X (scaled lo hi y) S (ω i)) := by
      intro is
      induction is with
      | nil => intro Ls _ h; cases h; rfl
      | cons i is ih =>
        intro Ls hlt' h
        rw [List.map_cons] at h
        cases h with
        | @cons _ l _ Ls e h =>
          rw [List.flatten_cons, List.map_append, List.flatMap_cons, ih Ls (fun i hi' => hlt' i (List.mem_cons_of_mem _ hi')) h]
          congr 1
          obtain ⟨L1, hL1⟩ := layerHistory_settled (X := X) s.config (scaled lo hi y) S (ω i)
          rw [← hL1 (max L L1) (le_max_right _ _), layer_settled S (hend i (hlt' i (List.mem_cons_self ..))) (le_max_left L L1), e]
          rfl
    exact key (List.range c) Ls (fun i hi' => List.mem_range.1 hi') b1

/-- A chain that comes to its end has nodes in its samples. -/
theorem layer_nodes_pos (hX : ∀ r, GoodRow (X r)) {j : Fin p} (hj : HasTwoValues (column X (fun _ => true) j).tail) (hs : ValidSettings s) (hns : 0 < s.nSamples) {a b : Fin n} (hy : y a ≠ y b) {lo hi : ℝ}
    (hlo : IsLeast (Set.range y) lo) (hhi : IsGreatest (Set.range y) hi) (hlt : lo < hi) (hg : ∀ a, 0 < S.gamma a) {w : ℕ → A} {L0 : ℕ}
    (h : Layers.chain s.config X (scaled lo hi y) (S.first w L0) ≠ .error .outOfDraws) : 0 < allNodes (layerHistory s.config X (scaled lo hi y) S w) := by
  have hs1 : ValidSettings ({ s with nChains := 1 } : SkModel ℝ p) := ⟨hs.trees, one_pos, hs.thin, hs.grow, hs.prune, hs.priorA, hs.priorB⟩
  obtain ⟨f, m, l0, hf, -⟩ := layer_chains_history hX hj hs hy hlo hhi hlt hg (ω := fun _ => w) one_pos (L0 := fun _ => L0) (fun _ _ => h) (L := L0) (fun _ _ => le_refl _)
  obtain ⟨l, c, a1, -⟩ := ofit_samples hX j.pos hs1.grow hs1.prune hs1.thin hlo hhi hlt hf
  have e := layer_single.1 a1
  have hh : layerHistory s.config X (scaled lo hi y) S w = l.map Prod.snd := by
    obtain ⟨L1, hL1⟩ := layerHistory_settled (X := X) s.config (scaled lo hi y) S w
    rw [← hL1 (max L0 L1) (le_max_right _ _), layer_settled S h (le_max_left L0 L1), e]
    rfl
  have hl := layer_chain_length e
  have hpos : 0 < l.length := by
    have := storedTimes_pos hns s.thin
    have hl' : l.length = (storedTimes s.nSamples s.thin).length := hl
    omega
  obtain ⟨q, hq⟩ := List.exists_mem_of_length_pos hpos
  rw [hh]
  refine allNodes_pos (List.mem_map.2 ⟨q, hq, rfl⟩) ?_
  rw [layer_chain_trees e q hq]
  exact hs.trees

/-! ### C140 -/

attribute [local irreducible] countsOn allNodes layerHistory

/-- C140: with the oblivious tree sampler: chains as in C139. There are numbers `N` and `C j` of one chain (the number of nodes in the trees of its samples, and twice the number of splits by column `j` and of doublings of leaves below a comparison with it) such that with probability 1 a fit with `c`
chains returns for every `c`, the share that `feature_split_proportions` returns for column `j` is the sum of the `C j` of the chains divided by the sum of their `N`, and as `c` grows the shares converge to the
expectation of `C j` divided by the expectation of `N`. -/
theorem C140_shares (hX : ∀ r, GoodRow (X r)) (hs : ValidSettings s) (hns : 0 < s.nSamples) {a b : Fin n} (hy : y a ≠ y b) {j : Fin p} (hj : HasTwoValues (column X (fun _ => true) j).tail)
    (hg : ∀ a, 0 < S.gamma a) (hall : ∀ k < n, ∀ m, ∃ a, S.pick a = k ∧ S.kind a = m) {ν : Measure A} [IsProbabilityMeasure ν] (hν : ∀ a, ν {a} ≠ 0) :
    ∃ (N : (ℕ → A) → ℕ) (C : Fin p → (ℕ → A) → ℕ),
      (∀ᵐ ω ∂allDraws ν, ∀ c > 0, ∃ L0, ∀ L ≥ L0, ∃ s' m d, fit ({ s with nChains := c } : SkModel ℝ p) X y (fun i => S.first (ω i) L) = .ok s' ∧ s'.samples = some m ∧
        (splitVariables m.models).length = ∑ i ∈ Finset.range c, N (ω i) ∧ (∀ j, (splitVariables m.models).count (some j) = ∑ i ∈ Finset.range c, C j (ω i)) ∧
        s'.featureSplitProportions (some (List.finRange p)) = .ok d ∧ IsDict d ∧ ∀ j v, (j, v) ∈ d ↔ v = ((∑ i ∈ Finset.range c, C j (ω i) : ℕ) : ℝ) / ((∑ i ∈ Finset.range c, N (ω i) : ℕ) : ℝ)) ∧
      (∀ᵐ ω ∂allDraws ν, ∀ j, Tendsto (fun c : ℕ => ((∑ i ∈ Finset.range c, C j (ω i) : ℕ) : ℝ) / ((∑ i ∈ Finset.range c, N (ω i) : ℕ) : ℝ)) atTop
        (𝓝 ((∫ w, (C j w : ℝ) ∂(Measure.infinitePi (fun _ : ℕ => ν))) / ∫ w, (N w : ℝ) ∂(Measure.infinitePi (fun _ : ℕ => ν))))) ∧
      0 < ∫ w, (N w : ℝ) ∂(Measure.infinitePi (fun _ : ℕ => ν)) := by
  have hn : 0 < n := a.pos
  have hp : 0 < p := j.pos
  obtain ⟨lo, hi, hlo, hhi, hlt⟩ := exists_range (K := ℝ) ⟨a, b, hy⟩
  let H : (ℕ → A) → List (Layers.State ℝ p) := layerHistory s.config X (scaled lo hi y) S
  have hfin := layerHistories_finite (X := X) s.config (scaled lo hi y) S
  have hmem : ∀ w, H w ∈ layerHistories s.config X (scaled lo hi y) S := layerHistory_mem s.config (scaled lo hi y) S
  have hmeas : ∀ b, MeasurableSet {w | H w = b} := layerHistory_measurable s.config (scaled lo hi y) S
  have hends := layer_ends (fun r j => (hX r j).1) hn S hall s.config (scaled lo hi y) hν
  have hends' : ∀ᵐ ω ∂allDraws ν, ∀ i, ∃ L, Layers.chain s.config X (scaled lo hi y) (S.first (ω i) L) ≠ .error .outOfDraws :=
    ae_all_iff.2 (fun i => (measurePreserving_eval_infinitePi (fun _ : ℕ => Measure.infinitePi (fun _ : ℕ => ν)) i).quasiMeasurePreserving.ae hends)
  have hcount : ∀ g : List (Layers.State ℝ p) → ℕ, Measurable (fun w => (g (H w) : ℝ)) ∧ ∃ B : ℝ, ∀ w, |(g (H w) : ℝ)| ≤ B := by
    intro g
    constructor
    · intro t _
      have e : (fun w => (g (H w) : ℝ)) ⁻¹' t = ⋃ b ∈ {b ∈ layerHistories s.config X (scaled lo hi y) S | (g b : ℝ) ∈ t}, {w | H w = b} := by
        ext w
        simp only [Set.mem_preimage, Set.mem_iUnion, Set.mem_ofPred_eq, exists_prop]
        constructor
        · intro h; exact ⟨H w, ⟨hmem w, h⟩, rfl⟩
        · rintro ⟨b, ⟨-, h⟩, rfl⟩; exact h
      rw [e]
      exact (hfin.subset (Set.sep_subset _ _)).measurableSet_biUnion (fun b _ => hmeas b)
    · obtain ⟨M, hM⟩ := (hfin.image (fun b => |(g b : ℝ)|)).bddAbove
      exact ⟨M, fun w => hM ⟨_, hmem w, rfl⟩⟩
  obtain ⟨hNm, BN, hBN⟩ := hcount allNodes
  have hpos : 0 < ∫ w, (allNodes (H w) : ℝ) ∂(Measure.infinitePi (fun _ : ℕ => ν)) := by
    have h1 : (1 : ℝ) ≤ ∫ w, (allNodes (H w) : ℝ) ∂(Measure.infinitePi (fun _ : ℕ => ν)) := by
      have : ∫ _w, (1 : ℝ) ∂(Measure.infinitePi (fun _ : ℕ => ν)) = 1 := by simp
      rw [← this]
      refine integral_mono_ae (integrable_const _) (Integrable.of_bound hNm.aestronglyMeasurable BN (Eventually.of_forall (fun w => by simpa using hBN w))) ?_
      filter_upwards [hends] with w hw
      obtain ⟨L, hL⟩ := hw
      have := layer_nodes_pos hX hj hs hns hy hlo hhi hlt hg hL
      exact_mod_cast this
    linarith
  refine ⟨fun w => allNodes (H w), fun j w => countsOn (H w) j, ?_, ?_, hpos⟩
  · filter_upwards [hends'] with ω hω c hc0
    choose L0 hL0 using hω
    refine ⟨∑ i ∈ Finset.range c, L0 i, fun L hL => ?_⟩
    obtain ⟨f, m, l, a1, a2, a3, a4⟩ := layer_chains_history hX hj hs hy hlo hhi hlt hg hc0 (L0 := L0) (fun i _ => hL0 i)
      (L := L) (fun i hi' => le_trans (Finset.single_le_sum (f := L0) (fun _ _ => Nat.zero_le _) (Finset.mem_range.2 hi')) hL)
    obtain ⟨k1, k2⟩ := layer_counts_chains H ω c
    obtain ⟨c1, c2⟩ := osamples_counts a3
    have e2 : (splitVariables m.models).length = ∑ i ∈ Finset.range c, allNodes (H (ω i)) := by rw [c2, ← allNodes_states, a4, k2]
    have e1 : ∀ j, (splitVariables m.models).count (some j) = ∑ i ∈ Finset.range c, countsOn (H (ω i)) j := by
      intro j
      rw [c1, ← countsOn_states, a4, k1]
    refine ⟨f, m, _, a1, a2, e2, e1, by unfold SkModel.featureSplitProportions; rw [a2], ?_⟩
    rw [featureSplitProportions_eq]
    obtain ⟨i1, i2⟩ := Dict.foldl_set (fun j => ((splitVariables m.models).count (some j) : ℝ) / ((splitVariables m.models).length : ℝ))
      ((some (List.finRange p)).getD ((List.finRange p).filter (fun j => (splitVariables m.models).contains (some j)))) [] (by simp [IsDict]) (by simp)
    refine ⟨i1, fun j v => ?_⟩
    rw [i2, e1, e2]
    simp [Dict.keys]
  · have hN := Averages.converges (Measure.infinitePi (fun _ : ℕ => ν)) hNm hBN
    have hC1 : ∀ j, ∀ᵐ ω ∂allDraws ν, Tendsto (fun c : ℕ => (∑ i ∈ Finset.range c, ((countsOn (H (ω i)) j : ℕ) : ℝ)) / (c : ℝ)) atTop
        (𝓝 (∫ w, ((countsOn (H w) j : ℕ) : ℝ) ∂(Measure.infinitePi (fun _ : ℕ => ν)))) := by
      intro j
      obtain ⟨hm, B, hB⟩ := hcount (fun ss => countsOn ss j)
      exact Averages.converges (Measure.infinitePi (fun _ : ℕ => ν)) hm hB
    have hC : ∀ᵐ ω ∂allDraws ν, ∀ j, Tendsto (fun c : ℕ => (∑ i ∈ Finset.range c, ((countsOn (H (ω i)) j : ℕ) : ℝ)) / (c : ℝ)) atTop
        (𝓝 (∫ w, ((countsOn (H w) j : ℕ) : ℝ) ∂(Measure.infinitePi (fun _ : ℕ => ν)))) :=
      ae_all_iff.2 hC1
    filter_upwards [hN, hC] with ω h1 h2 j
    refine ((h2 j).div h1 hpos.ne').congr' ?_
    filter_upwards [eventually_gt_atTop 0] with c hc0
    have : (c : ℝ) ≠ 0 := by positivity
    push_cast
    rw [Pi.div_apply, div_div_div_cancel_right₀ this]

/-! ### a concrete case -/

/-- C140, the example: the data and the draws of the example of C139. -/
example : ∃ (N : (ℕ → Fin 12) → ℕ) (C : Fin 1 → (ℕ → Fin 12) → ℕ),
    (∀ᵐ ω ∂allDraws (pickMeasure 12), ∀ j, Tendsto (fun c : ℕ => ((∑ i ∈ Finset.range c, C j (ω i) : ℕ) : ℝ) / ((∑ i ∈ Finset.range c, N (ω i) : ℕ) : ℝ)) atTop
      (𝓝 ((∫ w, (C j w : ℝ) ∂(Measure.infinitePi (fun _ : ℕ => pickMeasure 12))) / ∫ w, (N w : ℝ) ∂(Measure.infinitePi (fun _ : ℕ => pickMeasure 12))))) ∧
    0 < ∫ w, (N w : ℝ) ∂(Measure.infinitePi (fun _ : ℕ => pickMeasure 12)) := by
  have hj : HasTwoValues (column (rampX 3) (fun _ => true) 0).tail := by
    refine (isNotConstant_noNan ?_).1 (ramp_splittable ?_)
    · intro x hx; obtain ⟨r, -, hr⟩ := mem_column.1 hx; rw [← hr]; exact rampX_noNan 3 r 0
    · simp [count]
  obtain ⟨N, C, -, h2, h3⟩ := C140_shares (S := exReadings) (ν := pickMeasure 12) (fun r j => ⟨by simp [rampX], by simp [rampX]⟩) (exSkReal_valid true) (by simp [exSkReal]) (y := fun r => (r.val : ℝ)) (a := 0) (b := 1) (by norm_num) hj
    (by intro a; simp only [exReadings]; split <;> norm_num) (by
      intro k hk m
      interval_cases k <;> cases m
      · exact ⟨0, by decide⟩
      · exact ⟨3, by decide⟩
      · exact ⟨1, by decide⟩
      · exact ⟨4, by decide⟩
      · exact ⟨2, by decide⟩
      · exact ⟨5, by decide⟩) (by intro a; rw [pickMeasure_singleton]; simp)
  exact ⟨N, C, h2, h3⟩

end Bart.Oblivious
