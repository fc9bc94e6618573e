import Verif.Spec.Layers
import Verif.Proofs.LayerFinite
import Verif.Props.MoreChainsProps
import Verif.Props.ObliviousReturnsProps

/-! Property theorems C139: what more chains are good for, with the oblivious tree sampler. -/

set_option linter.unusedSectionVars false

namespace Bart.Oblivious
open Bart Spec Reference MeasureTheory Returns FiniteRange Filter Topology
variable {n p : Nat} {A : Type} {X : Fin n → Fin p → Fl ℝ}

theorem layer_more {c : Reference.Config ℝ} {y : Fin n → ℝ} {r : Rand ℝ} (e : Rand ℝ) (h : Layers.chain c X y r ≠ .error .outOfDraws) : Layers.chain c X y (more r e) = Layers.chain c X y r := by
  have h1 : Layers.sweeps c.toSettings X y (c.nBurn + c.nSamples) (Layers.start c.toSettings) r ≠ .error .outOfDraws := by
    intro h'
    refine h ?_
    unfold Layers.chain
    rw [h']
  unfold Layers.chain
  rw [LayerReturns.sweeps_more _ _ h1]
  cases Layers.sweeps c.toSettings X y (c.nBurn + c.nSamples) (Layers.start c.toSettings) r <;> rfl

theorem layer_settled (S : Readings A) {c : Reference.Config ℝ} {y : Fin n → ℝ} {w : ℕ → A} {L0 : Nat} (h : Layers.chain c X y (S.first w L0) ≠ .error .outOfDraws) {L : Nat} (hL : L0 ≤ L) :
    Layers.chain c X y (S.first w L) = Layers.chain c X y (S.first w L0) := by
  obtain ⟨d, rfl⟩ := Nat.exists_eq_add_of_le hL
  rw [first_eq] at h
  rw [first_eq, first_eq, List.range_add, List.map_append, ready_append, layer_more _ h]

variable [Fintype A] [MeasurableSpace A] [MeasurableSingletonClass A]

theorem layer_ends (hX : NoNan X) (hn : 0 < n) (S : Readings A) (hall : ∀ k < n, ∀ m, ∃ a, S.pick a = k ∧ S.kind a = m) (c : Reference.Config ℝ) (y : Fin n → ℝ)
    {ν : Measure A} [IsProbabilityMeasure ν] (hν : ∀ a, ν {a} ≠ 0) :
    ∀ᵐ w ∂(Measure.infinitePi (fun _ : ℕ => ν)), ∃ L, Layers.chain c X y (S.first w L) ≠ .error .outOfDraws := by
  have mono : ∀ l e : List A, Layers.chain c X y (S.ready l) ≠ .error .outOfDraws → Layers.chain c X y (S.ready (l ++ e)) ≠ .error .outOfDraws := by
    intro l e h
    rw [ready_append, layer_more _ h]
    exact h
  have hcomp : ∀ l : List A,
      (c.nBurn + c.nSamples) * c.nTrees + (c.nBurn + c.nSamples) * (c.nTrees * 2 ^ (0 + (c.nBurn + c.nSamples))) + (c.nBurn + c.nSamples) ≤ l.length →
      ∃ e : List A, e.length = (c.nBurn + c.nSamples) * (c.nTrees * 2 ^ (0 + (c.nBurn + c.nSamples))) ∧ Layers.chain c X y (S.ready (l ++ e)) ≠ .error .outOfDraws := by
    intro l hl
    obtain ⟨e0, l0, b0, h0⟩ := LayerReturns.sweeps_completes (c := c.toSettings) hX hn (y := y) (c.nBurn + c.nSamples) (s := Layers.start c.toSettings) (r := S.ready l) (d := 0) (T := c.nTrees)
      (by simp [Layers.start]) (by
        intro t ht
        rw [List.eq_of_mem_replicate ht]
        simp [Layers.LTree.root])
      (by simp only [Readings.ready, List.length_map]; omega) (by simp only [Readings.ready, List.length_map]; omega)
      (by simp only [Readings.ready, List.length_map]; omega)
    obtain ⟨e, rfl⟩ := lift_readings S hall e0 b0
    rw [List.length_map] at l0
    obtain ⟨a0, -⟩ := hall 0 hn .grow
    refine ⟨e ++ List.replicate ((c.nBurn + c.nSamples) * (c.nTrees * 2 ^ (0 + (c.nBurn + c.nSamples))) - e.length) a0, by rw [List.length_append, List.length_replicate]; omega, ?_⟩
    rw [← List.append_assoc]
    refine mono _ _ ?_
    have h1 : Layers.chain c X y (more (S.ready l) (pairs (e.map (fun a => (S.pick a, S.kind a))))) ≠ .error .outOfDraws := by
      intro h'
      unfold Layers.chain at h'
      split at h'
      · next e1 => cases h'; exact h0 e1
      · cases h'
    rw [ready_append', layer_more _ h1]
    exact h1
  have := almost_sure (ι := ℕ) hν id (fun _ _ h => h) mono hcomp
  filter_upwards [this] with w hw
  obtain ⟨L, hL⟩ := hw
  exact ⟨L, by rw [first_eq]; exact hL⟩

/-! ### the layerHistory of a chain -/

/-- The states of the samples. -/
def layerStates (q : Except PyErr (List (List Bool × Layers.State ℝ p))) : List (Layers.State ℝ p) :=
  match q with
  | .ok l => l.map Prod.snd
  | .error _ => []

open Classical in
/-- The states of the samples of a chain, if it comes to its end. -/
noncomputable def layerHistory (c : Reference.Config ℝ) (X : Fin n → Fin p → Fl ℝ) (y : Fin n → ℝ) (S : Readings A) (w : ℕ → A) : List (Layers.State ℝ p) :=
  if h : ∃ L, Layers.chain c X y (S.first w L) ≠ .error .outOfDraws then layerStates (Layers.chain c X y (S.first w (Nat.find h))) else []

theorem layerHistory_settled (c : Reference.Config ℝ) (y : Fin n → ℝ) (S : Readings A) (w : ℕ → A) : ∃ L0, ∀ L ≥ L0, layerStates (Layers.chain c X y (S.first w L)) = layerHistory c X y S w := by
  classical
  by_cases h : ∃ L, Layers.chain c X y (S.first w L) ≠ .error .outOfDraws
  · refine ⟨Nat.find h, fun L hL => ?_⟩
    unfold layerHistory
    rw [dif_pos h, layer_settled S (Nat.find_spec h) hL]
  · refine ⟨0, fun L _ => ?_⟩
    unfold layerHistory
    rw [dif_neg h]
    have : Layers.chain c X y (S.first w L) = .error .outOfDraws := by
      by_contra h'
      exact h ⟨L, h'⟩
    rw [this]; rfl

theorem layerHistory_measurable (c : Reference.Config ℝ) (y : Fin n → ℝ) (S : Readings A) (b : List (Layers.State ℝ p)) : MeasurableSet {w : ℕ → A | layerHistory c X y S w = b} := by
  refine Averages.settles_measurable (h := fun L w => layerStates (Layers.chain c X y (S.first w L))) (layerHistory_settled c y S) (fun L b => ?_) b
  have hf : Measurable (fun (w : ℕ → A) (k : Fin L) => w k) := measurable_pi_iff.2 (fun k => measurable_pi_apply _)
  have e : {w : ℕ → A | layerStates (Layers.chain c X y (S.first w L)) = b} = (fun (w : ℕ → A) (k : Fin L) => w k) ⁻¹' {v | layerStates (Layers.chain c X y (S.ready (List.ofFn v))) = b} := by
    ext w
    simp only [Set.mem_ofPred_eq, Set.mem_preimage]
    have e1 : (List.ofFn fun k : Fin L => w k) = (List.range L).map w := by
      rw [List.ofFn_eq_map, ← List.map_coe_finRange_eq_range, List.map_map]; rfl
    rw [e1, first_eq]
  rw [e]
  exact hf (Set.toFinite _).measurableSet

/-- The layerHistories that are possible. -/
def layerHistories (c : Reference.Config ℝ) (X : Fin n → Fin p → Fl ℝ) (y : Fin n → ℝ) (S : Readings A) : Set (List (Layers.State ℝ p)) :=
  {[]} ∪ {ss | ∃ r l, Within (Set.range S.normal) (Set.range S.gamma) r ∧ Layers.chain c X y r = .ok l ∧ ss = l.map Prod.snd}

theorem layerHistories_finite (c : Reference.Config ℝ) (y : Fin n → ℝ) (S : Readings A) : (layerHistories c X y S).Finite :=
  (Set.finite_singleton _).union (LayerFinite.chain_finite c X y (Set.finite_range _) (Set.finite_range _))

theorem layerHistory_mem (c : Reference.Config ℝ) (y : Fin n → ℝ) (S : Readings A) (w : ℕ → A) : layerHistory c X y S w ∈ layerHistories c X y S := by
  obtain ⟨L0, h⟩ := layerHistory_settled (X := X) c y S w
  rw [← h L0 (le_refl _)]
  cases e : Layers.chain c X y (S.first w L0) with
  | error er => exact .inl rfl
  | ok l =>
    refine .inr ⟨_, l, ⟨?_, ?_⟩, e, rfl⟩
    · intro z hz
      obtain ⟨k, -, rfl⟩ := List.mem_map.1 hz
      exact ⟨_, rfl⟩
    · intro z hz
      obtain ⟨k, -, rfl⟩ := List.mem_map.1 hz
      exact ⟨_, rfl⟩

/-- The prediction for a row from the states of the samples. -/
noncomputable def layerPrediction (lo hi : ℝ) (ss : List (Layers.State ℝ p)) (x : Fin p → Fl ℝ) : ℝ := originalScale lo hi (mean (ss.map (fun st => Layers.forest st.trees x)))

theorem layerPrediction_states (lo hi : ℝ) (l : List (List Bool × Layers.State ℝ p)) (x : Fin p → Fl ℝ) : layerPrediction lo hi (l.map Prod.snd) x = Layers.prediction lo hi l x := by
  rw [layer_prediction_eq]; unfold layerPrediction; rw [List.map_map]; rfl

theorem layer_value_finite (t : Layers.LTree ℝ p) : (Set.range fun x => Layers.LTree.value t x).Finite := by
  have h1 : {q | q ∈ (Layers.paths t.layers).zip t.values}.Finite := List.finite_toSet _
  refine ((Set.finite_singleton 0).union (h1.image Prod.snd)).subset ?_
  rintro _ ⟨x, rfl⟩
  show Layers.LTree.value t x ∈ _
  unfold Layers.LTree.value
  split
  · next q e => exact .inr ⟨q, (List.mem_filter.1 (List.mem_of_getLast? e)).1, rfl⟩
  · exact .inl rfl

theorem layer_forest_finite (ts : List (Layers.LTree ℝ p)) : (Set.range fun x => Layers.forest ts x).Finite := by
  induction ts with
  | nil => exact (Set.finite_singleton 0).subset (by rintro _ ⟨x, rfl⟩; simp [Layers.forest])
  | cons t ts ih =>
    refine (Set.Finite.image2 (fun a b => a + b) (layer_value_finite t) ih).subset ?_
    rintro _ ⟨x, rfl⟩
    exact ⟨_, ⟨x, rfl⟩, _, ⟨x, rfl⟩, by simp [Layers.forest]⟩

theorem layer_sum_forest_finite (ss : List (Layers.State ℝ p)) : (Set.range fun x => (ss.map (fun st => Layers.forest st.trees x)).sum).Finite := by
  induction ss with
  | nil => exact (Set.finite_singleton 0).subset (by rintro _ ⟨x, rfl⟩; simp)
  | cons s ss ih =>
    refine (Set.Finite.image2 (fun a b => a + b) (layer_forest_finite s.trees) ih).subset ?_
    rintro _ ⟨x, rfl⟩
    exact ⟨_, ⟨x, rfl⟩, _, ⟨x, rfl⟩, by simp⟩

theorem layerPrediction_bounded (lo hi : ℝ) (ss : List (Layers.State ℝ p)) : ∃ B, ∀ x, |layerPrediction lo hi ss x| ≤ B := by
  have h : (Set.range fun x => |layerPrediction lo hi ss x|).Finite := by
    refine ((layer_sum_forest_finite ss).image (fun a => |originalScale lo hi (a / (ss.length : ℝ))|)).subset ?_
    rintro _ ⟨x, rfl⟩
    refine ⟨_, ⟨x, rfl⟩, ?_⟩
    simp [layerPrediction, mean]
  obtain ⟨B, hB⟩ := h.bddAbove
  exact ⟨B, fun x => hB ⟨x, rfl⟩⟩

/-! ### one chain -/

variable {S : Readings A} {s : SkModel ℝ p} {y : Fin n → ℝ}

theorem layer_single_chain (hX : ∀ r, GoodRow (X r)) {j : Fin p} (hj : HasTwoValues (column X (fun _ => true) j).tail) (hs : ValidSettings s) (hns : 0 < s.nSamples) {a b : Fin n} (hy : y a ≠ y b) {lo hi : ℝ} (hlo : IsLeast (Set.range y) lo) (hhi : IsGreatest (Set.range y) hi)
    (hlt : lo < hi) (hg : ∀ a, 0 < S.gamma a) {w : ℕ → A} {L0 : Nat} (h : Layers.chain s.config X (scaled lo hi y) (S.first w L0) ≠ .error .outOfDraws) {L : Nat} (hL : L0 ≤ L) :
    ∃ f, fit ({ s with nChains := 1 } : SkModel ℝ p) X y (fun _ => S.first w L) = .ok f ∧ ∀ {q : Nat} (Z : Fin q → Fin p → Fl ℝ), (∀ r, GoodRow (Z r)) →
      f.predict (some ⟨q, Z⟩) = .ok (List.ofFn fun r => layerPrediction lo hi (layerHistory s.config X (scaled lo hi y) S w) (Z r)) := by
  have hs1 : ValidSettings ({ s with nChains := 1 } : SkModel ℝ p) := ⟨hs.trees, one_pos, hs.thin, hs.grow, hs.prune, hs.priorA, hs.priorB⟩
  have h1 := C127_fit hX j.pos hs1.grow hs1.prune hs1.thin hs1.chains hlo hhi hlt (fun _ => S.first w L)
  have hend : Layers.chain s.config X (scaled lo hi y) (S.first w L) ≠ .error .outOfDraws := by rw [layer_settled S h hL]; exact h
  cases hf : fit ({ s with nChains := 1 } : SkModel ℝ p) X y (fun _ => S.first w L) with
  | error e =>
    exfalso
    rw [hf] at h1
    rcases C126_valid hX j.pos hs1 hy _ (by
      intro i x hx
      simp only [Readings.first, List.mem_map] at hx
      obtain ⟨k, -, rfl⟩ := hx
      exact hg _) hf with rfl | ⟨-, h0⟩
    · obtain ⟨r, hr, he⟩ := layer_chains_error h1
      obtain ⟨i, -, rfl⟩ := List.mem_map.1 hr
      exact hend he
    · exact h0 j hj
  | ok f =>
    refine ⟨f, rfl, fun Z hZ => ?_⟩
    rw [hf] at h1
    obtain ⟨l, c, a1, -, -, -, -, -, -, -, a7⟩ := h1
    have e := layer_single.1 a1
    have hl := layer_chain_length e
    have hne : l ≠ [] := by
      rintro rfl
      have := storedTimes_pos hns s.thin
      have hl' : (storedTimes s.nSamples s.thin).length = 0 := hl.symm
      omega
    rw [(a7 hne).1 Z hZ]
    have hh : layerHistory s.config X (scaled lo hi y) S w = l.map Prod.snd := by
      obtain ⟨L1, hL1⟩ := layerHistory_settled (X := X) s.config (scaled lo hi y) S w
      rw [← hL1 (max L L1) (le_max_right _ _), layer_settled S hend (le_max_left L L1), e]
      rfl
    simp only [hh, layerPrediction_states]

/-! ### C139 -/

/-- C139, with the oblivious tree sampler: chains whose draws are independent, each draw from a finite set of outcomes in which every pick and every kind of move is possible. There is a function `f` of a row such that with probability 1 a fit with
`c` chains returns for every `c` and its predictions `P c` come closer and closer to `f` as `c` grows, for all rows at the same time and uniformly. For every row the expected prediction is `f`, for any number of
chains, and the mean square of the distance from `f` with `c` chains is that with one chain divided by `c`. -/
theorem C139_more_chains (hX : ∀ r, GoodRow (X r)) (hs : ValidSettings s) (hns : 0 < s.nSamples) {a b : Fin n} (hy : y a ≠ y b) {j : Fin p} (hj : HasTwoValues (column X (fun _ => true) j).tail)
    (hg : ∀ a, 0 < S.gamma a) (hall : ∀ k < n, ∀ m, ∃ a, S.pick a = k ∧ S.kind a = m) {ν : Measure A} [IsProbabilityMeasure ν] (hν : ∀ a, ν {a} ≠ 0) :
    ∃ (P : ℕ → (ℕ → ℕ → A) → (Fin p → Fl ℝ) → ℝ) (f : (Fin p → Fl ℝ) → ℝ),
      (∀ᵐ ω ∂allDraws ν, ∀ c > 0, ∃ L0, ∀ L ≥ L0, ∃ s', fit ({ s with nChains := c } : SkModel ℝ p) X y (fun i => S.first (ω i) L) = .ok s' ∧
        ∀ {q : Nat} (Z : Fin q → Fin p → Fl ℝ), (∀ r, GoodRow (Z r)) → s'.predict (some ⟨q, Z⟩) = .ok (List.ofFn fun r => P c ω (Z r))) ∧
      (∀ᵐ ω ∂allDraws ν, ∀ ε > 0, ∃ c0, ∀ c ≥ c0, ∀ x, |P c ω x - f x| < ε) ∧
      (∃ B, ∀ c ω x, |P c ω x| ≤ B) ∧
      ∀ c > 0, ∀ x, Measurable (fun ω => P c ω x) ∧ ∫ ω, P c ω x ∂allDraws ν = f x ∧
        ∫ ω, (P c ω x - f x) ^ 2 ∂allDraws ν = (∫ ω, (P 1 ω x - f x) ^ 2 ∂allDraws ν) / (c : ℝ) := by
  have hn : 0 < n := a.pos
  have hp : 0 < p := j.pos
  obtain ⟨lo, hi, hlo, hhi, hlt⟩ := exists_range (K := ℝ) ⟨a, b, hy⟩
  let H : (ℕ → A) → List (Layers.State ℝ p) := layerHistory s.config X (scaled lo hi y) S
  let V : (Fin p → Fl ℝ) → (ℕ → A) → ℝ := fun x w => layerPrediction lo hi (H w) x
  have hfin := layerHistories_finite (X := X) s.config (scaled lo hi y) S
  have hmem : ∀ w, H w ∈ layerHistories s.config X (scaled lo hi y) S := layerHistory_mem s.config (scaled lo hi y) S
  have hmeas : ∀ b, MeasurableSet {w | H w = b} := layerHistory_measurable s.config (scaled lo hi y) S
  obtain ⟨B, hB⟩ : ∃ B, ∀ x w, |V x w| ≤ B := by
    choose B hB using fun ss => layerPrediction_bounded (p := p) lo hi ss
    obtain ⟨M, hM⟩ := (hfin.image B).bddAbove
    exact ⟨M, fun x w => le_trans (hB (H w) x) (hM ⟨_, hmem w, rfl⟩)⟩
  have hVm : ∀ x, Measurable (V x) := by
    intro x t _
    have e : V x ⁻¹' t = ⋃ b ∈ {b ∈ layerHistories s.config X (scaled lo hi y) S | layerPrediction lo hi b x ∈ t}, {w | H w = b} := by
      ext w
      simp only [Set.mem_preimage, Set.mem_iUnion, Set.mem_ofPred_eq, exists_prop]
      constructor
      · intro h; exact ⟨H w, ⟨hmem w, h⟩, rfl⟩
      · rintro ⟨b, ⟨-, h⟩, rfl⟩; exact h
    rw [e]
    exact (hfin.subset (Set.sep_subset _ _)).measurableSet_biUnion (fun b _ => hmeas b)
  refine ⟨fun c ω x => (∑ i ∈ Finset.range c, V x (ω i)) / (c : ℝ), fun x => ∫ w, V x w ∂(Measure.infinitePi (fun _ : ℕ => ν)), ?_, ?_, ?_, ?_⟩
  · have hends := layer_ends (fun r j => (hX r j).1) hn S hall s.config (scaled lo hi y) hν
    have hends' : ∀ᵐ ω ∂allDraws ν, ∀ i, ∃ L, Layers.chain s.config X (scaled lo hi y) (S.first (ω i) L) ≠ .error .outOfDraws :=
      ae_all_iff.2 (fun i => (measurePreserving_eval_infinitePi (fun _ : ℕ => Measure.infinitePi (fun _ : ℕ => ν)) i).quasiMeasurePreserving.ae hends)
    filter_upwards [hends'] with ω hω c hc0
    choose L0 hL0 using hω
    refine ⟨∑ i ∈ Finset.range c, L0 i, fun L hL => ?_⟩
    have hone := fun i (hi' : i < c) => layer_single_chain hX hj hs hns hy hlo hhi hlt hg (hL0 i) (L := L) (le_trans (Finset.single_le_sum (f := L0) (fun _ _ => Nat.zero_le _) (Finset.mem_range.2 hi')) hL)
    have h128 := C128_chains hX (s := { s with nChains := c }) hp hs.grow hs.prune hs.thin hc0 hns ⟨a, b, hy⟩ (fun i => S.first (ω i) L)
    obtain ⟨f, hf⟩ := h128.1.2 (fun i hi' => (hone i hi').imp (fun _ h => h.1))
    refine ⟨f, hf, fun Z hZ => ?_⟩
    choose fs hfs hpr using hone
    obtain ⟨v, hv1, hv2⟩ := h128.2 hf (fs := fun i => fs i.val i.isLt) (fun i => hfs i.val i.isLt) Z hZ
    rw [hv2]
    have hv : ∀ (i : Fin c) r, v i r = V (Z r) (ω i.val) := by
      intro i r
      have e1 := hv1 i
      rw [hpr i.val i.isLt Z hZ] at e1
      exact (congrFun (List.ofFn_injective (Except.ok.inj e1)) r).symm
    congr 2
    funext r
    simp only [hv]
    rw [Finset.sum_range]
  · exact Averages.converges_uniformly _ hfin hmem hmeas (val := layerPrediction lo hi) (layerPrediction_bounded lo hi)
  · refine ⟨|B|, fun c ω x => ?_⟩
    rcases Nat.eq_zero_or_pos c with rfl | hc0
    · simp
    rw [abs_div, Nat.abs_cast, div_le_iff₀ (by exact_mod_cast hc0)]
    refine le_trans (Finset.abs_sum_le_sum_abs _ _) ?_
    refine le_trans (Finset.sum_le_sum (fun i _ => le_trans (hB x (ω i)) (le_abs_self B))) ?_
    simp [mul_comm]
  · intro c hc0 x
    refine ⟨(Finset.measurable_sum _ (fun i _ => (hVm x).comp (measurable_pi_apply i))).div_const _, Averages.average_mean _ (hVm x) (hB x) hc0, ?_⟩
    unfold allDraws
    rw [Averages.average_variance _ (hVm x) (hB x) hc0, Averages.average_variance _ (hVm x) (hB x) one_pos]
    simp

/-! ### a concrete case -/

/-- C139, the example: the rows 0, 1, 2 with target 0, 1, 2, all outcomes equally likely. -/
example : ∃ (P : ℕ → (ℕ → ℕ → Fin 12) → (Fin 1 → Fl ℝ) → ℝ) (f : (Fin 1 → Fl ℝ) → ℝ),
    (∀ᵐ ω ∂allDraws (pickMeasure 12), ∀ c > 0, ∃ L0, ∀ L ≥ L0, ∃ s', fit ({ exSkReal true with nChains := c } : SkModel ℝ 1) (rampX 3) (fun r => (r.val : ℝ)) (fun i => exReadings.first (ω i) L) = .ok s' ∧
      ∀ {q : Nat} (Z : Fin q → Fin 1 → Fl ℝ), (∀ r, GoodRow (Z r)) → s'.predict (some ⟨q, Z⟩) = .ok (List.ofFn fun r => P c ω (Z r))) ∧
    (∀ᵐ ω ∂allDraws (pickMeasure 12), ∀ ε > 0, ∃ c0, ∀ c ≥ c0, ∀ x, |P c ω x - f x| < ε) := by
  have hj : HasTwoValues (column (rampX 3) (fun _ => true) 0).tail := by
    refine (isNotConstant_noNan ?_).1 (ramp_splittable ?_)
    · intro x hx; obtain ⟨r, -, hr⟩ := mem_column.1 hx; rw [← hr]; exact rampX_noNan 3 r 0
    · simp [count]
  obtain ⟨P, f, h1, h2, -⟩ := C139_more_chains (S := exReadings) (ν := pickMeasure 12) (fun r j => ⟨by simp [rampX], by simp [rampX]⟩) (exSkReal_valid true) (by simp [exSkReal])
    (y := fun r => (r.val : ℝ)) (a := 0) (b := 1) (by norm_num) hj
    (by intro a; simp only [exReadings]; split <;> norm_num) (by
      intro k hk m
      interval_cases k <;> cases m
      · exact ⟨0, by decide⟩
      · exact ⟨3, by decide⟩
      · exact ⟨1, by decide⟩
      · exact ⟨4, by decide⟩
      · exact ⟨2, by decide⟩
      · exact ⟨5, by decide⟩) (by intro a; rw [pickMeasure_singleton]; simp)
  exact ⟨P, f, h1, h2⟩

end Bart.Oblivious
