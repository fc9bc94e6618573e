import Verif.Spec.Readings
import Verif.Proofs.Averages
import Verif.Proofs.FiniteRange
import Verif.Props.ReturnsProps
import Verif.Props.RunLengthProps

/-! Property theorems C119: what more chains are good for. -/

set_option linter.unusedSectionVars false

namespace Bart
open Spec Reference MeasureTheory Returns FiniteRange Filter Topology
variable {n p : Nat} {A : Type}

/-! ### the draws -/

/-- What a chain has to draw from if these outcomes are ready. -/
def Spec.Readings.ready (S : Readings A) (l : List A) : Rand ℝ := ⟨l.map S.kind, l.map S.pick, l.map S.uniform, l.map S.normal, l.map S.gamma⟩

theorem first_eq (S : Readings A) (ω : ℕ → A) (L : Nat) : S.first ω L = S.ready ((List.range L).map ω) := by simp [Readings.first, Readings.ready, Function.comp_def]

theorem ready_append (S : Readings A) (l e : List A) : S.ready (l ++ e) = more (S.ready l) (S.ready e) := by simp [Readings.ready, more]

theorem ready_append' (S : Readings A) (l e : List A) : S.ready (l ++ e) =
    more (more (S.ready l) (pairs (e.map (fun a => (S.pick a, S.kind a))))) ⟨[], [], e.map S.uniform, e.map S.normal, e.map S.gamma⟩ := by
  simp [Readings.ready, more, pairs, Function.comp_def]

theorem lift_readings (S : Readings A) (hall : ∀ k < n, ∀ m, ∃ a, S.pick a = k ∧ S.kind a = m) (e : List (Nat × Method)) (h : ∀ x ∈ e, x.1 < n) :
    ∃ e' : List A, e'.map (fun a => (S.pick a, S.kind a)) = e := by
  induction e with
  | nil => exact ⟨[], rfl⟩
  | cons x e ih =>
    obtain ⟨e', he'⟩ := ih (fun y hy => h y (List.mem_cons_of_mem _ hy))
    obtain ⟨a, h1, h2⟩ := hall x.1 (h x (List.mem_cons_self ..)) x.2
    exact ⟨a :: e', by simp [he', h1, h2]⟩

variable {X : Fin n → Fin p → Fl ℝ}

theorem chain_more {c : Reference.Config ℝ} {y : Fin n → ℝ} {r : Rand ℝ} (e : Rand ℝ) (h : Reference.chain c X y r ≠ .error .outOfDraws) : Reference.chain c X y (more r e) = Reference.chain c X y r := by
  have h1 : Reference.sweeps c.toSettings X y (c.nBurn + c.nSamples) (start c.toSettings) r ≠ .error .outOfDraws := by
    intro h'
    refine h ?_
    unfold Reference.chain
    rw [h']
  unfold Reference.chain
  rw [sweeps_more _ _ h1]
  cases Reference.sweeps c.toSettings X y (c.nBurn + c.nSamples) (start c.toSettings) r <;> rfl

theorem chain_settled (S : Readings A) {c : Reference.Config ℝ} {y : Fin n → ℝ} {w : ℕ → A} {L0 : Nat} (h : Reference.chain c X y (S.first w L0) ≠ .error .outOfDraws) {L : Nat} (hL : L0 ≤ L) :
    Reference.chain c X y (S.first w L) = Reference.chain c X y (S.first w L0) := by
  obtain ⟨d, rfl⟩ := Nat.exists_eq_add_of_le hL
  rw [first_eq] at h
  rw [first_eq, first_eq, List.range_add, List.map_append, ready_append, chain_more _ h]

variable [Fintype A] [MeasurableSpace A] [MeasurableSingletonClass A]

theorem chain_ends (hX : NoNan X) (hn : 0 < n) (hc : columns X (fun _ => true) ≠ []) (S : Readings A) (hall : ∀ k < n, ∀ m, ∃ a, S.pick a = k ∧ S.kind a = m) (c : Reference.Config ℝ) (y : Fin n → ℝ)
    {ν : Measure A} [IsProbabilityMeasure ν] (hν : ∀ a, ν {a} ≠ 0) :
    ∀ᵐ w ∂(Measure.infinitePi (fun _ : ℕ => ν)), ∃ L, Reference.chain c X y (S.first w L) ≠ .error .outOfDraws := by
  have mono : ∀ l e : List A, Reference.chain c X y (S.ready l) ≠ .error .outOfDraws → Reference.chain c X y (S.ready (l ++ e)) ≠ .error .outOfDraws := by
    intro l e h
    rw [ready_append, chain_more _ h]
    exact h
  have hcomp : ∀ l : List A,
      (c.nBurn + c.nSamples) * c.nTrees + (c.nBurn + c.nSamples) * (c.nTrees * (1 + 3 * (c.nBurn + c.nSamples))) + (c.nBurn + c.nSamples) ≤ l.length →
      ∃ e : List A, e.length = (c.nBurn + c.nSamples) * (3 * c.nTrees) ∧ Reference.chain c X y (S.ready (l ++ e)) ≠ .error .outOfDraws := by
    intro l hl
    obtain ⟨e0, l0, b0, h0⟩ := sweeps_completes (c := c.toSettings) hX hn hc (y := y) (c.nBurn + c.nSamples) (s := start c.toSettings) (r := S.ready l) (d := 1) (T := c.nTrees)
      (by simp [start]) (by
        intro t ht
        rw [List.eq_of_mem_replicate ht]
        exact ⟨alive_root, by simp [RTree.root]⟩)
      (by simp only [Readings.ready, List.length_map]; omega) (by simp only [Readings.ready, List.length_map]; omega)
      (by simp only [Readings.ready, List.length_map]; omega)
    obtain ⟨e, rfl⟩ := lift_readings S hall e0 b0
    refine ⟨e, by simpa using l0, ?_⟩
    have h1 : Reference.chain c X y (more (S.ready l) (pairs (e.map (fun a => (S.pick a, S.kind a))))) ≠ .error .outOfDraws := by
      intro h'
      unfold Reference.chain at h'
      split at h'
      · next e1 => cases h'; exact h0 e1
      · cases h'
    rw [ready_append', chain_more _ h1]
    exact h1
  have := almost_sure (ι := ℕ) hν id (fun _ _ h => h) mono hcomp
  filter_upwards [this] with w hw
  obtain ⟨L, hL⟩ := hw
  exact ⟨L, by rw [first_eq]; exact hL⟩

/-! ### the history of a chain -/

/-- The states of the samples. -/
def statesOf (q : Except PyErr (List (List Bool × State ℝ p))) : List (State ℝ p) :=
  match q with
  | .ok l => l.map Prod.snd
  | .error _ => []

open Classical in
/-- The states of the samples of a chain, if it comes to its end. -/
noncomputable def history (c : Reference.Config ℝ) (X : Fin n → Fin p → Fl ℝ) (y : Fin n → ℝ) (S : Readings A) (w : ℕ → A) : List (State ℝ p) :=
  if h : ∃ L, Reference.chain c X y (S.first w L) ≠ .error .outOfDraws then statesOf (Reference.chain c X y (S.first w (Nat.find h))) else []

theorem history_settled (c : Reference.Config ℝ) (y : Fin n → ℝ) (S : Readings A) (w : ℕ → A) : ∃ L0, ∀ L ≥ L0, statesOf (Reference.chain c X y (S.first w L)) = history c X y S w := by
  classical
  by_cases h : ∃ L, Reference.chain c X y (S.first w L) ≠ .error .outOfDraws
  · refine ⟨Nat.find h, fun L hL => ?_⟩
    unfold history
    rw [dif_pos h, chain_settled S (Nat.find_spec h) hL]
  · refine ⟨0, fun L _ => ?_⟩
    unfold history
    rw [dif_neg h]
    have : Reference.chain c X y (S.first w L) = .error .outOfDraws := by
      by_contra h'
      exact h ⟨L, h'⟩
    rw [this]; rfl

theorem history_measurable (c : Reference.Config ℝ) (y : Fin n → ℝ) (S : Readings A) (b : List (State ℝ p)) : MeasurableSet {w : ℕ → A | history c X y S w = b} := by
  refine Averages.settles_measurable (h := fun L w => statesOf (Reference.chain c X y (S.first w L))) (history_settled c y S) (fun L b => ?_) b
  have hf : Measurable (fun (w : ℕ → A) (k : Fin L) => w k) := measurable_pi_iff.2 (fun k => measurable_pi_apply _)
  have e : {w : ℕ → A | statesOf (Reference.chain c X y (S.first w L)) = b} = (fun (w : ℕ → A) (k : Fin L) => w k) ⁻¹' {v | statesOf (Reference.chain c X y (S.ready (List.ofFn v))) = b} := by
    ext w
    simp only [Set.mem_setOf_eq, Set.mem_preimage]
    have e1 : (List.ofFn fun k : Fin L => w k) = (List.range L).map w := by
      rw [List.ofFn_eq_map, ← List.map_coe_finRange_eq_range, List.map_map]; rfl
    rw [e1, first_eq]
  rw [e]
  exact hf (Set.toFinite _).measurableSet

/-- The histories that are possible. -/
def histories (c : Reference.Config ℝ) (X : Fin n → Fin p → Fl ℝ) (y : Fin n → ℝ) (S : Readings A) : Set (List (State ℝ p)) :=
  {[]} ∪ {ss | ∃ r l, Within (Set.range S.normal) (Set.range S.gamma) r ∧ Reference.chain c X y r = .ok l ∧ ss = l.map Prod.snd}

theorem histories_finite (c : Reference.Config ℝ) (y : Fin n → ℝ) (S : Readings A) : (histories c X y S).Finite :=
  (Set.finite_singleton _).union (chain_finite c X y (Set.finite_range _) (Set.finite_range _))

theorem history_mem (c : Reference.Config ℝ) (y : Fin n → ℝ) (S : Readings A) (w : ℕ → A) : history c X y S w ∈ histories c X y S := by
  obtain ⟨L0, h⟩ := history_settled (X := X) c y S w
  rw [← h L0 (le_refl _)]
  cases e : Reference.chain c X y (S.first w L0) with
  | error er => exact .inl rfl
  | ok l =>
    refine .inr ⟨_, l, ⟨?_, ?_⟩, e, rfl⟩
    · intro z hz
      obtain ⟨k, -, rfl⟩ := List.mem_map.1 hz
      exact ⟨_, rfl⟩
    · intro z hz
      obtain ⟨k, -, rfl⟩ := List.mem_map.1 hz
      exact ⟨_, rfl⟩

/-- The prediction for a row from the states of the samples. -/
noncomputable def predictionOf (lo hi : ℝ) (ss : List (State ℝ p)) (x : Fin p → Fl ℝ) : ℝ := originalScale lo hi (mean (ss.map (fun st => forest st.trees x)))

theorem predictionOf_states (lo hi : ℝ) (l : List (List Bool × State ℝ p)) (x : Fin p → Fl ℝ) : predictionOf lo hi (l.map Prod.snd) x = prediction lo hi l x := by
  rw [prediction_eq]; unfold predictionOf; rw [List.map_map]; rfl

theorem value_finite (t : RTree ℝ p) : (Set.range fun x => RTree.value t x).Finite := by
  have h1 : {nd | nd ∈ t}.Finite := List.finite_toSet t
  let f : RNode ℝ p → ℝ := fun nd => match nd.content with
    | .leaf v => v
    | .split _ _ => 0
  refine ((Set.finite_singleton 0).union (h1.image f)).subset ?_
  rintro _ ⟨x, rfl⟩
  show RTree.value t x ∈ _
  unfold RTree.value
  split
  · next path v e => exact .inr ⟨⟨path, .leaf v⟩, List.mem_of_find?_eq_some e, rfl⟩
  · exact .inl rfl

theorem forest_finite (ts : List (RTree ℝ p)) : (Set.range fun x => forest ts x).Finite := by
  induction ts with
  | nil => exact (Set.finite_singleton 0).subset (by rintro _ ⟨x, rfl⟩; simp [forest])
  | cons t ts ih =>
    refine (Set.Finite.image2 (fun a b => a + b) (value_finite t) ih).subset ?_
    rintro _ ⟨x, rfl⟩
    exact ⟨_, ⟨x, rfl⟩, _, ⟨x, rfl⟩, by simp [forest]⟩

theorem sum_forest_finite (ss : List (State ℝ p)) : (Set.range fun x => (ss.map (fun st => forest st.trees x)).sum).Finite := by
  induction ss with
  | nil => exact (Set.finite_singleton 0).subset (by rintro _ ⟨x, rfl⟩; simp)
  | cons s ss ih =>
    refine (Set.Finite.image2 (fun a b => a + b) (forest_finite s.trees) ih).subset ?_
    rintro _ ⟨x, rfl⟩
    exact ⟨_, ⟨x, rfl⟩, _, ⟨x, rfl⟩, by simp⟩

theorem predictionOf_bounded (lo hi : ℝ) (ss : List (State ℝ p)) : ∃ B, ∀ x, |predictionOf lo hi ss x| ≤ B := by
  have h : (Set.range fun x => |predictionOf lo hi ss x|).Finite := by
    refine ((sum_forest_finite ss).image (fun a => |originalScale lo hi (a / (ss.length : ℝ))|)).subset ?_
    rintro _ ⟨x, rfl⟩
    refine ⟨_, ⟨x, rfl⟩, ?_⟩
    simp [predictionOf, mean]
  obtain ⟨B, hB⟩ := h.bddAbove
  exact ⟨B, fun x => hB ⟨x, rfl⟩⟩

/-! ### one chain -/

variable {S : Readings A} {s : SkModel ℝ p} {y : Fin n → ℝ}

theorem single_chain (hX : NoNan X) (hn : 0 < n) (hp : 0 < p) (hs : ValidSettings s) (hns : 0 < s.nSamples) {a b : Fin n} (hy : y a ≠ y b) {lo hi : ℝ} (hlo : IsLeast (Set.range y) lo) (hhi : IsGreatest (Set.range y) hi)
    (hlt : lo < hi) (hg : ∀ a, 0 < S.gamma a) {w : ℕ → A} {L0 : Nat} (h : Reference.chain s.config X (scaled lo hi y) (S.first w L0) ≠ .error .outOfDraws) {L : Nat} (hL : L0 ≤ L) :
    ∃ f, ({ s with nChains := 1 } : SkModel ℝ p).fit X y (fun _ => S.first w L) = .ok f ∧ ∀ {q : Nat} (Z : Fin q → Fin p → Fl ℝ), (∀ r, GoodRow (Z r)) →
      f.predict (some ⟨q, Z⟩) = .ok (List.ofFn fun r => predictionOf lo hi (history s.config X (scaled lo hi y) S w) (Z r)) := by
  have hs1 : ValidSettings ({ s with nChains := 1 } : SkModel ℝ p) := ⟨hs.trees, one_pos, hs.thin, hs.grow, hs.prune, hs.priorA, hs.priorB⟩
  have h1 := C103_fit hX hp hs1.grow hs1.prune hs1.thin hs1.chains hlo hhi hlt (fun _ => S.first w L)
  have hend : Reference.chain s.config X (scaled lo hi y) (S.first w L) ≠ .error .outOfDraws := by rw [chain_settled S h hL]; exact h
  cases hf : ({ s with nChains := 1 } : SkModel ℝ p).fit X y (fun _ => S.first w L) with
  | error e =>
    exfalso
    rw [hf] at h1
    have he := C70_no_exception hX hn hp hs1 hy _ (by
      intro i x hx
      simp only [Readings.first, List.mem_map] at hx
      obtain ⟨k, -, rfl⟩ := hx
      exact hg _) hf
    subst he
    refine chains_returns ?_ h1
    intro r hr
    obtain ⟨i, -, rfl⟩ := List.mem_map.1 hr
    exact hend
  | ok f =>
    refine ⟨f, rfl, fun Z hZ => ?_⟩
    rw [hf] at h1
    obtain ⟨l, c, a1, -, -, -, -, -, -, a7⟩ := h1
    have e := ref_single.1 a1
    have hl := chain_length e
    have hne : l ≠ [] := by
      rintro rfl
      have := storedTimes_pos hns s.thin
      have hl' : (storedTimes s.nSamples s.thin).length = 0 := hl.symm
      omega
    rw [(a7 hne).1 Z hZ]
    have hh : history s.config X (scaled lo hi y) S w = l.map Prod.snd := by
      obtain ⟨L1, hL1⟩ := history_settled (X := X) s.config (scaled lo hi y) S w
      rw [← hL1 (max L L1) (le_max_right _ _), chain_settled S hend (le_max_left L L1), e]
      rfl
    simp only [hh, predictionOf_states]

/-! ### C119 -/

/-- C119: chains whose draws are independent, each draw from a finite set of outcomes in which every pick and every kind of move is possible. There is a function `f` of a row such that with probability 1 a fit with
`c` chains returns for every `c` and its predictions `P c` come closer and closer to `f` as `c` grows, for all rows at the same time and uniformly. For every row the expected prediction is `f`, for any number of
chains, and the mean square of the distance from `f` with `c` chains is that with one chain divided by `c`. -/
theorem C119_more_chains (hX : NoNan X) (hs : ValidSettings s) (hns : 0 < s.nSamples) {a b : Fin n} (hy : y a ≠ y b) {j : Fin p} (hj : HasTwoValues (column X (fun _ => true) j).tail)
    (hg : ∀ a, 0 < S.gamma a) (hall : ∀ k < n, ∀ m, ∃ a, S.pick a = k ∧ S.kind a = m) {ν : Measure A} [IsProbabilityMeasure ν] (hν : ∀ a, ν {a} ≠ 0) :
    ∃ (P : ℕ → (ℕ → ℕ → A) → (Fin p → Fl ℝ) → ℝ) (f : (Fin p → Fl ℝ) → ℝ),
      (∀ᵐ ω ∂allDraws ν, ∀ c > 0, ∃ L0, ∀ L ≥ L0, ∃ s', ({ s with nChains := c } : SkModel ℝ p).fit X y (fun i => S.first (ω i) L) = .ok s' ∧
        ∀ {q : Nat} (Z : Fin q → Fin p → Fl ℝ), (∀ r, GoodRow (Z r)) → s'.predict (some ⟨q, Z⟩) = .ok (List.ofFn fun r => P c ω (Z r))) ∧
      (∀ᵐ ω ∂allDraws ν, ∀ ε > 0, ∃ c0, ∀ c ≥ c0, ∀ x, |P c ω x - f x| < ε) ∧
      (∃ B, ∀ c ω x, |P c ω x| ≤ B) ∧
      ∀ c > 0, ∀ x, Measurable (fun ω => P c ω x) ∧ ∫ ω, P c ω x ∂allDraws ν = f x ∧
        ∫ ω, (P c ω x - f x) ^ 2 ∂allDraws ν = (∫ ω, (P 1 ω x - f x) ^ 2 ∂allDraws ν) / (c : ℝ) := by
  have hn : 0 < n := a.pos
  have hp : 0 < p := j.pos
  have hc : columns X (fun _ => true) ≠ [] := by
    obtain ⟨v, hv, w, hw, hvw⟩ := hj
    exact List.ne_nil_of_mem (List.mem_filter.2 ⟨List.mem_finRange j, List.any_eq_true.2 ⟨v, hv, List.any_eq_true.2 ⟨w, hw, decide_eq_true hvw⟩⟩⟩)
  obtain ⟨lo, hi, hlo, hhi, hlt⟩ := exists_range (K := ℝ) ⟨a, b, hy⟩
  let H : (ℕ → A) → List (State ℝ p) := history s.config X (scaled lo hi y) S
  let V : (Fin p → Fl ℝ) → (ℕ → A) → ℝ := fun x w => predictionOf lo hi (H w) x
  have hfin := histories_finite (X := X) s.config (scaled lo hi y) S
  have hmem : ∀ w, H w ∈ histories s.config X (scaled lo hi y) S := history_mem s.config (scaled lo hi y) S
  have hmeas : ∀ b, MeasurableSet {w | H w = b} := history_measurable s.config (scaled lo hi y) S
  obtain ⟨B, hB⟩ : ∃ B, ∀ x w, |V x w| ≤ B := by
    choose B hB using fun ss => predictionOf_bounded (p := p) lo hi ss
    obtain ⟨M, hM⟩ := (hfin.image B).bddAbove
    exact ⟨M, fun x w => le_trans (hB (H w) x) (hM ⟨_, hmem w, rfl⟩)⟩
  have hVm : ∀ x, Measurable (V x) := by
    intro x t _
    have e : V x ⁻¹' t = ⋃ b ∈ {b ∈ histories s.config X (scaled lo hi y) S | predictionOf lo hi b x ∈ t}, {w | H w = b} := by
      ext w
      simp only [Set.mem_preimage, Set.mem_iUnion, Set.mem_setOf_eq, exists_prop]
      constructor
      · intro h; exact ⟨H w, ⟨hmem w, h⟩, rfl⟩
      · rintro ⟨b, ⟨-, h⟩, rfl⟩; exact h
    rw [e]
    exact (hfin.subset (Set.sep_subset _ _)).measurableSet_biUnion (fun b _ => hmeas b)
  refine ⟨fun c ω x => (∑ i ∈ Finset.range c, V x (ω i)) / (c : ℝ), fun x => ∫ w, V x w ∂(Measure.infinitePi (fun _ : ℕ => ν)), ?_, ?_, ?_, ?_⟩
  · have hends := chain_ends hX hn hc S hall s.config (scaled lo hi y) hν
    have hends' : ∀ᵐ ω ∂allDraws ν, ∀ i, ∃ L, Reference.chain s.config X (scaled lo hi y) (S.first (ω i) L) ≠ .error .outOfDraws :=
      ae_all_iff.2 (fun i => (measurePreserving_eval_infinitePi (fun _ : ℕ => Measure.infinitePi (fun _ : ℕ => ν)) i).quasiMeasurePreserving.ae hends)
    filter_upwards [hends'] with ω hω c hc0
    choose L0 hL0 using hω
    refine ⟨∑ i ∈ Finset.range c, L0 i, fun L hL => ?_⟩
    have hone := fun i (hi' : i < c) => single_chain hX hn hp hs hns hy hlo hhi hlt hg (hL0 i) (L := L) (le_trans (Finset.single_le_sum (f := L0) (fun _ _ => Nat.zero_le _) (Finset.mem_range.2 hi')) hL)
    obtain ⟨f, hf⟩ := (C109_returns hX (s := { s with nChains := c }) hp hs.grow hs.prune hs.thin hc0 ⟨a, b, hy⟩ (fun i => S.first (ω i) L)).2 (fun i hi' => (hone i hi').imp (fun _ h => h.1))
    refine ⟨f, hf, fun Z hZ => ?_⟩
    choose fs hfs hpr using hone
    obtain ⟨v, hv1, hv2⟩ := C109_average hX (s := { s with nChains := c }) hp hs.grow hs.prune hs.thin hns ⟨a, b, hy⟩ hf (fs := fun i => fs i.val i.isLt) (fun i => hfs i.val i.isLt) Z hZ
    rw [hv2]
    have hv : ∀ (i : Fin c) r, v i r = V (Z r) (ω i.val) := by
      intro i r
      have e1 := hv1 i
      rw [hpr i.val i.isLt Z hZ] at e1
      exact (congrFun (List.ofFn_injective (Except.ok.inj e1)) r).symm
    congr 2
    funext r
    simp only [hv]
    rw [Finset.sum_range]
  · exact Averages.converges_uniformly _ hfin hmem hmeas (val := predictionOf lo hi) (predictionOf_bounded lo hi)
  · refine ⟨|B|, fun c ω x => ?_⟩
    rcases Nat.eq_zero_or_pos c with rfl | hc0
    · simp
    rw [abs_div, Nat.abs_cast, div_le_iff₀ (by exact_mod_cast hc0)]
    refine le_trans (Finset.abs_sum_le_sum_abs _ _) ?_
    refine le_trans (Finset.sum_le_sum (fun i _ => le_trans (hB x (ω i)) (le_abs_self B))) ?_
    simp [mul_comm]
  · intro c hc0 x
    refine ⟨(Finset.measurable_sum _ (fun i _ => (hVm x).comp (measurable_pi_apply i))).div_const _, Averages.average_mean _ (hVm x) (hB x) hc0, ?_⟩
    unfold allDraws
    rw [Averages.average_variance _ (hVm x) (hB x) hc0, Averages.average_variance _ (hVm x) (hB x) one_pos]
    simp

/-! ### a concrete case -/

/-- Twelve outcomes: each of three picks with each kind of move, and a normal number that is 1 or -1. -/
def exReadings : Readings (Fin 12) where
  pick := fun a => a.val % 3
  kind := fun a => if a.val / 3 % 2 = 0 then .grow else .prune
  uniform := fun a => if a.val < 6 then -5 else 0
  normal := fun a => if a.val % 4 < 2 then 1 else -1
  gamma := fun a => if a.val < 6 then 4 else 1

/-- C119, the example: the rows 0, 1, 2 with target 0, 1, 2, all outcomes equally likely. -/
example : ∃ (P : ℕ → (ℕ → ℕ → Fin 12) → (Fin 1 → Fl ℝ) → ℝ) (f : (Fin 1 → Fl ℝ) → ℝ),
    (∀ᵐ ω ∂allDraws (pickMeasure 12), ∀ c > 0, ∃ L0, ∀ L ≥ L0, ∃ s', ({ exSkReal true with nChains := c } : SkModel ℝ 1).fit (rampX 3) (fun r => (r.val : ℝ)) (fun i => exReadings.first (ω i) L) = .ok s' ∧
      ∀ {q : Nat} (Z : Fin q → Fin 1 → Fl ℝ), (∀ r, GoodRow (Z r)) → s'.predict (some ⟨q, Z⟩) = .ok (List.ofFn fun r => P c ω (Z r))) ∧
    (∀ᵐ ω ∂allDraws (pickMeasure 12), ∀ ε > 0, ∃ c0, ∀ c ≥ c0, ∀ x, |P c ω x - f x| < ε) := by
  obtain ⟨j, hj⟩ := (C108_exactly_partial (rampX_noNan 3) (exSkReal_valid true) (by simp [exSkReal]) (y := fun r => (r.val : ℝ)) (a := 0) (b := 1) (by norm_num)).1 (exists_fit true)
  obtain ⟨P, f, h1, h2, -⟩ := C119_more_chains (S := exReadings) (ν := pickMeasure 12) (rampX_noNan 3) (exSkReal_valid true) (by simp [exSkReal]) (y := fun r => (r.val : ℝ)) (a := 0) (b := 1) (by norm_num) hj
    (by intro a; simp only [exReadings]; split <;> norm_num) (by
      intro k hk m
      interval_cases k <;> cases m
      · exact ⟨0, by decide⟩
      · exact ⟨3, by decide⟩
      · exact ⟨1, by decide⟩
      · exact ⟨4, by decide⟩
      · exact ⟨2, by decide⟩
      · exact ⟨5, by decide⟩) (by intro a; rw [pickMeasure_singleton]; simp)
  exact ⟨P, f, h1, h2⟩

end Bart
