import Verif.Proofs.LayerSamples

/-! C127: `fit` and `predict` with the oblivious tree sampler do what a reference implementation without caches, masks, links and nodes does. -/

set_option linter.unusedSectionVars false

namespace Bart.Oblivious
open Bart Spec Reference
variable {K : Type} [Field K] [LinearOrder K] [IsStrictOrderedRing K] {n p : Nat} {X : Fin n → Fin p → Fl K} [MathFns K] [FloorRing K]

theorem constructModel_start (hX : ∀ r, GoodRow (X r)) {s : SkModel K p} (hp : 0 < p) {y : Fin n → K} {lo hi : K} (hlo : IsLeast (Set.range y) lo) (hhi : IsGreatest (Set.range y) hi) (hlt : lo < hi) :
    ∃ d m, s.constructModel X y = .ok (d, m) ∧ LModel X (scaled lo hi y) s.config.toSettings m (Layers.start s.config.toSettings) ∧
      ∀ (q : Nat) (z : Fin q → K), d.y.unnormalizeY z = .ok (fun r => originalScale lo hi (z r)) := by
  obtain ⟨d, m, hc, hI, hlm, hset, hum⟩ := constructModel_ref (s := s) (X := X) hp hlo hhi hlt
  obtain ⟨-, -, -, hf, -⟩ := constructModel_spec hc
  refine ⟨d, m, hc, LModel.start hX hf hI ?_ hlm hset, hum⟩
  obtain ⟨nz, d', sigma, nT, al, be, kk, hd, hcc⟩ := hf
  unfold BModel.construct at hcc
  split at hcc
  · cases hcc
  · cases hcc; rfl

theorem runChain_ref (hX : ∀ r, GoodRow (X r)) {s : SkModel K p} (hp : 0 < p) (hp1 : s.pGrow ≠ 0) (hp2 : s.pPrune ≠ 0) (hth : s.thin ≠ 0) {y : Fin n → K} {lo hi : K}
    (hlo : IsLeast (Set.range y) lo) (hhi : IsGreatest (Set.range y) hi) (hlt : lo < hi) (r : Rand K) :
    match runChain s X y r with
    | .error e => Layers.chain s.config X (scaled lo hi y) r = .error e
    | .ok o => ∃ l, Layers.chain s.config X (scaled lo hi y) r = .ok l ∧ List.Forall₂ OSample o.models l ∧ (s.storeAcceptance = true → o.chain.acceptance = l.map Layers.acceptedShare) ∧
        (s.storePredictions = true → o.predictions = l.map (fun st => List.ofFn (fun i => Layers.forest st.2.trees (X i)))) := by
  obtain ⟨d, m, hc, hM, -⟩ := constructModel_start (s := s) hX hp hlo hhi hlt
  have h := samples_ref hX (c := s.config.toSettings) hp1 hp2 (sp := s.sampleParams) rfl rfl hth s.nSamples s.nBurn hM r
  unfold runChain Layers.chain
  rw [show s.config.nBurn = s.nBurn from rfl, show s.config.nSamples = s.nSamples from rfl, show s.config.thin = s.thin from rfl]
  simp only [hc]
  cases e : samples s.sampleParams s.nSamples s.nBurn m r with
  | error er => rw [e] at h; simp only at h ⊢; rw [h]
  | ok q =>
    obtain ⟨ch, m', r'⟩ := q
    rw [e] at h
    obtain ⟨l, st', a1, a2, a3, a4⟩ := h
    simp only
    rw [a1]
    refine ⟨_, rfl, ?_, a3, fun hs => ?_⟩
    · simp only [ChainOut.models]
      rw [List.forall₂_map_left_iff]
      exact a2
    · simp only [ChainOut.predictions]
      rw [a4 hs, List.map_map]
      rfl

theorem chains_ref (hX : ∀ r, GoodRow (X r)) {s : SkModel K p} (hp : 0 < p) (hp1 : s.pGrow ≠ 0) (hp2 : s.pPrune ≠ 0) (hth : s.thin ≠ 0) {y : Fin n → K} {lo hi : K}
    (hlo : IsLeast (Set.range y) lo) (hhi : IsGreatest (Set.range y) hi) (hlt : lo < hi) (rs : List (Rand K)) :
    match runChains s X y rs with
    | .error e => Layers.chains s.config X (scaled lo hi y) rs = .error e
    | .ok os => ∃ l, Layers.chains s.config X (scaled lo hi y) rs = .ok l ∧ List.Forall₂ OSample (os.flatMap ChainOut.models) l ∧
        (s.storeAcceptance = true → os.flatMap (fun o => o.chain.acceptance) = l.map Layers.acceptedShare) ∧
        (s.storePredictions = true → os.flatMap ChainOut.predictions = l.map (fun st => List.ofFn (fun i => Layers.forest st.2.trees (X i)))) := by
  induction rs with
  | nil => exact ⟨[], rfl, .nil, fun _ => rfl, fun _ => rfl⟩
  | cons r rs ih =>
    have h1 := runChain_ref hX hp hp1 hp2 hth hlo hhi hlt r
    simp only [runChains, Layers.chains]
    cases e : runChain s X y r with
    | error er => rw [e] at h1; simp only at h1 ⊢; rw [h1]
    | ok o =>
      rw [e] at h1
      obtain ⟨l, a1, a2, a3, a4⟩ := h1
      simp only
      rw [a1]
      simp only
      cases e2 : runChains s X y rs with
      | error er => rw [e2] at ih; simp only at ih ⊢; rw [ih]
      | ok os =>
        rw [e2] at ih
        obtain ⟨ls, b1, b2, b3, b4⟩ := ih
        simp only
        rw [b1]
        exact ⟨_, rfl, by rw [List.flatMap_cons]; exact List.rel_append a2 b2, fun hs => by rw [List.flatMap_cons, List.map_append, a3 hs, b3 hs],
          fun hs => by rw [List.flatMap_cons, List.map_append, a4 hs, b4 hs]⟩

theorem layer_prediction_eq (lo hi : K) (l : List (List Bool × Layers.State K p)) (x : Fin p → Fl K) :
    Layers.prediction lo hi l x = originalScale lo hi (mean (l.map (fun st => Layers.forest st.2.trees x))) := by
  unfold Layers.prediction originalScale mean
  rw [List.length_map]
  ring

/-! ### C127 -/

/-- C127. With the oblivious tree sampler, `fit` raises what the reference implementation raises. If it returns, then so does the reference implementation, and the samples agree one by one:
the leaves of the trees with their comparisons and values, predictions for rows without NaN and -inf, predictions for the training data, sigma, shares of accepted proposals. -/
theorem C127_fit (hX : ∀ r, GoodRow (X r)) {s : SkModel K p} (hp : 0 < p) (hp1 : s.pGrow ≠ 0) (hp2 : s.pPrune ≠ 0) (hth : s.thin ≠ 0) (hch : 0 < s.nChains) {y : Fin n → K} {lo hi : K}
    (hlo : IsLeast (Set.range y) lo) (hhi : IsGreatest (Set.range y) hi) (hlt : lo < hi) (rs : Nat → Rand K) :
    match fit s X y rs with
    | .error e => Layers.fit s.config X lo hi y rs = .error e
    | .ok f => ∃ samples c, Layers.fit s.config X lo hi y rs = .ok samples ∧ f.samples = some c ∧ c.models.length = samples.length ∧
        c.models.map (fun x => x.trees.map leavesOf) = samples.map (fun st => st.2.trees.map layerLeaves) ∧
        c.models.map (fun x => (x.live.storedSigma x.stored).current) = samples.map (fun st => st.2.sigma) ∧
        (∀ {q : Nat} (Z : Fin q → Fin p → Fl K), (∀ r, GoodRow (Z r)) →
          c.models.map (fun x => List.ofFn (x.predictX Z)) = samples.map (fun st => List.ofFn (fun r => Layers.forest st.2.trees (Z r)))) ∧
        (s.storePredictions = true → c.predictions = samples.map (fun st => List.ofFn (fun r => Layers.forest st.2.trees (X r)))) ∧
        (s.storeAcceptance = true → c.acceptance = samples.map Layers.acceptedShare) ∧
        (samples ≠ [] → (∀ {q : Nat} (Z : Fin q → Fin p → Fl K), (∀ r, GoodRow (Z r)) → f.predict (some ⟨q, Z⟩) = .ok (List.ofFn (fun r => Layers.prediction lo hi samples (Z r)))) ∧
          (s.storePredictions = true → f.predict none = .ok (List.ofFn (fun r => Layers.prediction lo hi samples (X r))))) := by
  obtain ⟨d, m, hc, -, hum⟩ := constructModel_start (s := s) hX hp hlo hhi hlt
  have h1 := chains_ref hX hp hp1 hp2 hth hlo hhi hlt ((List.range s.nChains).map rs)
  unfold fit Layers.fit
  rw [show s.config.nChains = s.nChains from rfl]
  simp only [hc]
  cases e : runChains s X y ((List.range s.nChains).map rs) with
  | error er => rw [e] at h1; exact h1
  | ok os =>
    rw [e] at h1
    obtain ⟨l, a1, a2, a3, a4⟩ := h1
    have hall := chains_spec e
    have hf : ∀ o ∈ os, o.n = n ∧ o.chain.model.length = (storedTimes s.nSamples s.thin).length ∧ o.chain.acceptance.length = (if s.storeAcceptance then o.chain.model.length else 0) ∧
        o.chain.predictions.length = (if s.storePredictions then o.chain.model.length else 0) := by
      intro o ho
      obtain ⟨j, hj, rfl⟩ := List.mem_iff_getElem.1 ho
      have h2 := (List.forall₂_iff_get.1 hall).2 j (by rw [hall.length_eq]; exact hj) hj
      have h3 := chain_spec hX s hc (((List.range s.nChains).map rs).get ⟨j, by rw [hall.length_eq]; exact hj⟩)
      rw [h2] at h3
      obtain ⟨ch, m', e4, -, -, -, h5, h6, h7⟩ := h3
      rw [List.get_eq_getElem] at e4
      simp only at e4
      rw [e4]
      exact ⟨rfl, h5, h6, h7⟩
    have hne : os ≠ [] := by
      intro h0
      rw [h0] at hall
      have := hall.length_eq
      simp at this
      omega
    obtain ⟨c, hc1, -⟩ := combine_ok hne hf
    obtain ⟨m1, m2, m3, -⟩ := C51_combine hc1
    simp only [hc1]
    rw [show (fun o : ChainOut K p => o.chain.model.map (fun x => (⟨o.n, o.live, x⟩ : Sample K p))) = ChainOut.models from rfl] at m1
    rw [show (fun o : ChainOut K p => o.chain.predictions.map List.ofFn) = ChainOut.predictions from rfl] at m3
    rw [← m1] at a2
    rw [← m2] at a3
    rw [← m3] at a4
    have hpred : ∀ {q : Nat} (Z : Fin q → Fin p → Fl K), (∀ r, GoodRow (Z r)) →
        c.models.map (fun x => List.ofFn (x.predictX Z)) = l.map (fun st => List.ofFn (fun r => Layers.forest st.2.trees (Z r))) := fun Z hZ =>
      (forall₂_map_eq (fun x st h => by
        congr 1
        funext r
        exact (h.predict Z r (hZ r)).symm) a2).symm
    refine ⟨l, c, a1, rfl, a2.length_eq, (forall₂_map_eq (fun x st h => h.trees.symm) a2).symm, (forall₂_map_eq (fun x st h => h.sigma.symm) a2).symm, fun Z hZ => hpred Z hZ, a4, a3,
      fun hl => ⟨fun {q} Z hZ => ?_, fun hs => ?_⟩⟩
    · simp only [SkModel.predict, SkModel.outOfSamplePredict]
      rw [hpred Z hZ, meanRows_spec l hl (fun st r => Layers.forest st.2.trees (Z r))]
      simp only
      rw [unnormalizeList_spec hum]
      congr 1
      rw [List.map_ofFn]
      congr 1
      funext r
      exact (layer_prediction_eq lo hi l (Z r)).symm
    · simp only [SkModel.predict, hs, if_true]
      rw [a4 hs, meanRows_spec l hl (fun st r => Layers.forest st.2.trees (X r))]
      simp only
      rw [unnormalizeList_spec hum]
      congr 1
      rw [List.map_ofFn]
      congr 1
      funext r
      exact (layer_prediction_eq lo hi l (X r)).symm

/-! ### the hypotheses can be met -/

section examples
attribute [local instance] exFns

example : (∀ r, GoodRow (exXf r)) ∧ exSkf.pGrow ≠ 0 ∧ exSkf.pPrune ≠ 0 ∧ exSkf.thin ≠ 0 ∧ 0 < exSkf.nChains ∧ IsLeast (Set.range exYf) 0 ∧ IsGreatest (Set.range exYf) 1 ∧ (0 : ℚ) < 1 := by
  refine ⟨exXf_good, by decide +kernel, by decide +kernel, by decide +kernel, by decide +kernel, ⟨⟨0, by decide +kernel⟩, ?_⟩, ⟨⟨2, by decide +kernel⟩, ?_⟩, by norm_num⟩
  · rintro _ ⟨r, rfl⟩; revert r; decide +kernel
  · rintro _ ⟨r, rfl⟩; revert r; decide +kernel

/-- The fit of the example returns; the trees of its samples have two, four and eight leaves, and the comparisons on the way to the leaves differ. -/
example : (match exFitf with
    | .ok f => f.samples.any (fun c => decide (c.models.map (fun x => x.trees.map (fun t => (leavesOf t).map (fun l => l.1.length))) = [[[1, 1]], [[1, 1, 2, 2]], [[1, 1, 1, 1, 2, 2, 2, 2]]]))
    | .error _ => false) = true := by decide +kernel

/-- The reference implementation on the example: the first proposal is rejected, the others are accepted. The root is split; then its left leaf is doubled and its right leaf is split; then all four
leaves are doubled. The leaf values change. -/
example : (match Layers.sweeps exSkf.config.toSettings exXf (scaled 0 1 exYf) 4 (Layers.start exSkf.config.toSettings) exRf with
    | .ok (l, s, _) => decide (l.map Prod.fst = [[false], [true], [true], [true]] ∧
        s.trees.map (fun T => T.layers.map (fun rules => rules.map Option.isSome)) = [[[false, false, false, false], [false, true], [true]]] ∧
        (l.map (fun st => Layers.forest st.2.trees (exXf 3))).Nodup)
    | .error _ => false) = true := by decide +kernel

/-- Two growths, and the second of them taken back. -/
example : (match Layers.sweeps exSkf.config.toSettings exXf (scaled 0 1 exYf) 4 (Layers.start exSkf.config.toSettings) { exRf with methods := [.grow, .grow, .grow, .prune], uniforms := [1/2, 1/2, 1/2, -100] } with
    | .ok (l, s, _) => decide (l.map Prod.fst = [[false], [true], [true], [true]] ∧ s.trees.map (fun T => T.layers.map (fun rules => rules.map Option.isSome)) = [[[true]]])
    | .error _ => false) = true := by decide +kernel

end examples
end Bart.Oblivious
