import Verif.Proofs.RefStored
import Verif.Props.StoringProps

/-! C103: `fit` and `predict` do what a reference implementation without caches, masks, links and shared objects does. -/

set_option linter.unusedSectionVars false

namespace Bart
open Spec Reference
variable {K : Type} [Field K] [LinearOrder K] [IsStrictOrderedRing K] {n p : Nat} {X : Fin n → Fin p → Fl K} [MathFns K] [FloorRing K]

/-- The settings of the estimator, for the reference implementation (`k` has its default value 2). -/
def SkModel.config (s : SkModel K p) : Reference.Config K :=
  { nTrees := s.nTrees, alpha := s.alpha, beta := s.beta, k := 2, sigmaA := s.sigmaA, sigmaB := s.sigmaB, pGrow := s.pGrow, pPrune := s.pPrune, nChains := s.nChains,
    nSamples := s.nSamples, nBurn := s.nBurn, thin := s.thin }

/-! ### the initial model -/

theorem look_initial {N : Prop} {t : Tree K n p} {y : Option (Fin n → K)} {fl : CacheFlags} (hG : Good N X y t fl) (h0 : t.nodes = [0]) (hv : ∀ i, (t.heap.node i).value = 0) : look t = RTree.root := by
  obtain ⟨s, hI⟩ := hG.inv
  unfold look RTree.root
  rw [h0, List.map_singleton]
  have hs : s = .leaf 0 := by
    have hp := hI.perm
    rw [h0] at hp
    have hl := hp.length_eq
    cases s with
    | leaf i => have := hp.mem_iff (a := i); simp [Shape.ids] at this; rw [this]
    | node i l r =>
      have h1 := List.length_pos_of_mem l.root_mem
      simp [Shape.ids] at hl
      simp [hl.1] at h1
  subst hs
  have hR := hI.repr
  have h1 : (t.heap.node 0).split.combined.conditions = [] := hR.root_path.1
  have h2 : (t.heap.node 0).kind = .leaf := hR.1
  simp [lookNode, pathOf, contentOf, h1, h2, hv]

theorem constructModel_ref {s : SkModel K p} (hp : 0 < p) {y : Fin n → K} {lo hi : K} (hlo : IsLeast (Set.range y) lo) (hhi : IsGreatest (Set.range y) hi) (hlt : lo < hi) :
    ∃ d m, s.constructModel X y = .ok (d, m) ∧ ModelInv False X (scaled lo hi y) m ∧ lookModel m = start s.config.toSettings ∧ settingsOf m s.pGrow s.pPrune = s.config.toSettings ∧
      ∀ (q : Nat) (z : Fin q → K), d.y.unnormalizeY z = .ok (fun r => originalScale lo hi (z r)) := by
  obtain ⟨⟨r1, e1⟩, hl⟩ := hlo
  obtain ⟨⟨r2, e2⟩, hh⟩ := hhi
  have hne : y r1 ≠ y r2 := by rw [e1, e2]; exact ne_of_lt hlt
  obtain ⟨d, lo', hi', hd, -, -, -, -, -, -⟩ := C10_unnormalise (X := X) (y := y) (mask := none) r1 r2 hne
  have hd' : SkModel.convertData X y = .ok d := hd
  obtain ⟨lo', hi', ⟨a, ha⟩, ⟨b, hb⟩, hab, hun, hns, hum⟩ := convertData_spec hd'
  have el : lo' = lo := le_antisymm (by rw [← e1]; exact (hab r1).1) (by rw [← ha]; exact hl ⟨a, rfl⟩)
  have eh : hi' = hi := le_antisymm (by rw [← hb]; exact hh ⟨b, rfl⟩) (by rw [← e2]; exact (hab r2).2)
  subst el eh
  obtain ⟨m, y', t, hc, hy, hI, q1, q2, q3, q4, q5, q6, -, htr, hG, h0, -, hv⟩ := construct_inv (N := False) (fun h => h.elim) hd
    { alpha := s.sigmaA, beta := s.sigmaB, current := 1, scalingFactor := hi' - lo' } s.nTrees s.alpha s.beta 2
  have hyy : y' = scaled lo' hi' y := by
    unfold Target.unnormalizedY at hun
    rw [hy] at hun
    simp only [hum, Except.ok.injEq] at hun
    funext r
    have h := congrFun hun r
    have hpos : hi' - lo' ≠ 0 := sub_ne_zero.2 (ne_of_gt hlt)
    rw [originalScale_affine] at h
    unfold scaled
    rw [← h]
    field_simp
    ring
  subst hyy
  refine ⟨d, m, ?_, hI, ?_, ?_, fun q z => hum q z⟩
  · unfold SkModel.constructModel
    rw [if_neg (by rintro (h | h) <;> [(subst h; exact r1.elim0); omega])]
    simp only [hd', hns, hc]
  · unfold lookModel start
    rw [htr, q2, List.map_replicate, look_initial hG h0 hv]
    rfl
  · unfold settingsOf
    rw [q2, q3, q4, q5, q6]
    rfl

/-! ### a chain -/

theorem getElem?_filterMap_some {α β : Type} {f : α → Option β} : ∀ {l : List α} (_ : ∀ a ∈ l, ∃ b, f a = some b) (j : Nat), (l.filterMap f)[j]? = l[j]?.bind f
  | [], _, j => by simp
  | a :: l, h, j => by
    obtain ⟨b, hb⟩ := h a (by simp)
    rw [List.filterMap_cons, hb]
    cases j with
    | zero => simp [hb]
    | succ j => simpa using getElem?_filterMap_some (fun a ha => h a (by simp [ha])) j

theorem length_filterMap_some {α β : Type} {f : α → Option β} : ∀ {l : List α} (_ : ∀ a ∈ l, ∃ b, f a = some b), (l.filterMap f).length = l.length
  | [], _ => rfl
  | a :: l, h => by
    obtain ⟨b, hb⟩ := h a (by simp)
    rw [List.filterMap_cons, hb]
    simpa using length_filterMap_some (fun a ha => h a (by simp [ha]))

/-- A stored sample shows a sample of the reference implementation. -/
structure SampleRef (x : Sample K p) (st : List Bool × State K p) : Prop where
  predict : ∀ {q : Nat} (Z : Fin q → Fin p → Fl K) (r : Fin q), GoodRow (Z r) → x.predictX Z r = forest st.2.trees (Z r)
  sigma : (x.live.storedSigma x.stored).current = st.2.sigma
  trees : shownTrees x = referenceTrees st.2
  shape : ∀ t ∈ st.2.trees, ∃ (n : Nat) (X : Fin n → Fin p → Fl K) (t' : Tree K n p) (y : Option (Fin n → K)) (s : Shape), TreeInv X y t' s ∧ t = look t'

theorem acceptance_ref (mus : List (Option TreeMutation)) (s : State K p) : (BModel.acceptance mus : Option K) = acceptedShare (mus.map Option.isSome, s) := by
  unfold BModel.acceptance acceptedShare
  simp only [List.map_eq_nil_iff, List.length_map]
  have : List.count true (mus.map Option.isSome) = mus.countP Option.isSome := by
    rw [List.count, List.countP_map]
    congr 1
    funext a; cases a <;> rfl
  rw [this]

theorem runChain_ref (hX : NoNan X) {s : SkModel K p} (hp : 0 < p) (hp1 : s.pGrow ≠ 0) (hp2 : s.pPrune ≠ 0) (hth : s.thin ≠ 0) {y : Fin n → K} {lo hi : K}
    (hlo : IsLeast (Set.range y) lo) (hhi : IsGreatest (Set.range y) hi) (hlt : lo < hi) (r : Rand K) :
    match s.runChain X y r with
    | .error e => Reference.chain s.config X (scaled lo hi y) r = .error e
    | .ok o => ∃ l, Reference.chain s.config X (scaled lo hi y) r = .ok l ∧ List.Forall₂ SampleRef o.models l ∧ (s.storeAcceptance = true → o.chain.acceptance = l.map acceptedShare) ∧
        (s.storePredictions = true → o.predictions = l.map (fun st => List.ofFn (fun i => forest st.2.trees (X i)))) := by
  obtain ⟨d, m, hc, hI, hlm, hset, -⟩ := constructModel_ref (s := s) (X := X) hp hlo hhi hlt
  have h1 := runChain_sweeps hX hp1 hp2 hth hc r
  have h2 := sweeps_ref hX hp1 hp2 (s.nBurn + s.nSamples) hI r
  rw [hset, hlm] at h2
  unfold Reference.chain
  rw [show s.config.nBurn = s.nBurn from rfl, show s.config.nSamples = s.nSamples from rfl, show s.config.thin = s.thin from rfl]
  cases e2 : Sim.sweeps s.pGrow s.pPrune (s.nBurn + s.nSamples) m r with
  | error e =>
    rw [e2] at h1 h2
    cases e3 : s.runChain X y r with
    | error e' => rw [e3] at h1; cases h1; simp only at h2 ⊢; rw [h2]
    | ok o => rw [e3] at h1; cases h1
  | ok q =>
    obtain ⟨m', r'⟩ := q
    rw [e2] at h1 h2
    obtain ⟨l, a1, a2, a3⟩ := h2
    cases e3 : s.runChain X y r with
    | error e' => rw [e3] at h1; cases h1
    | ok o =>
      clear h1
      simp only
      rw [a1]
      obtain ⟨-, l1, l2, l3⟩ := chain_facts hX hp1 hp2 e3
      obtain ⟨d', m0, m1, ch, r1, c1, c2, rfl⟩ := runChain_spec e3
      rw [hc] at c1
      injection c1 with c1
      injection c1 with c0 c1
      subst c1 c0
      obtain ⟨-, -, -, hf, -⟩ := constructModel_spec hc
      have hall : ∀ t ∈ storedTimes s.nSamples s.thin, ∃ b, l[s.nBurn + t]? = some b := by
        intro t ht
        have : t < s.nSamples := by simpa using (List.mem_filter.1 ht).1
        exact ⟨l[s.nBurn + t]'(by omega), List.getElem?_eq_getElem (by omega)⟩
      have hlen : (List.filterMap (fun t => l[s.nBurn + t]?) (storedTimes s.nSamples s.thin)).length = (storedTimes s.nSamples s.thin).length := by
        exact length_filterMap_some hall
      have key : ∀ j < (storedTimes s.nSamples s.thin).length, ∃ x st, ch.model[j]? = some x ∧
          (List.filterMap (fun t => l[s.nBurn + t]?) (storedTimes s.nSamples s.thin))[j]? = some st ∧ SampleRef (⟨n, m1, x⟩ : Sample K p) st ∧
          (s.storeAcceptance = true → ch.acceptance[j]? = some (acceptedShare st)) ∧ (s.storePredictions = true → ch.predictions[j]? = some (fun i => forest st.2.trees (X i))) := by
        intro j hj
        have hjt := List.getElem?_eq_getElem hj
        have ht := List.getElem_mem hj
        generalize (storedTimes s.nSamples s.thin)[j] = t at hjt ht
        have htlt : t < s.nSamples := by simpa using (List.mem_filter.1 ht).1
        obtain ⟨x, P, mus, M, r0, rM, b1, b2, b3, b4, -, b6, b7, b8, b9⟩ := Sim.stored_sweeps hX hf (c := s.sampleParams) hp1 hp2 (constructModel_refl hc) hI c2 hjt
        have b5 := a3 (s.nBurn + t) P r0 mus M rM (by omega) b2 b3
        refine ⟨x, (mus.map Option.isSome, lookModel M), b1, ?_, ⟨?_, ?_, ?_, ?_⟩, ?_, ?_⟩
        · rw [getElem?_filterMap_some hall, hjt]
          exact b5
        · intro q Z row hrow
          show m1.storedPredictX x Z row = _
          rw [b7]
          exact (forest_predictX M.trees b4.fitted Z row hrow).symm
        · show (m1.storedSigma x).current = _
          rw [b6]; rfl
        · exact stored_trees hX hf (c := s.sampleParams) hp1 hp2 (constructModel_refl hc) hI c2 hjt b1 b2 b3
        · intro t ht
          obtain ⟨t', ht', rfl⟩ := List.mem_map.1 ht
          obtain ⟨y', s', hT⟩ := (b4.fitted t' ht').inv
          exact ⟨n, X, t', y', s', hT, rfl⟩
        · intro hs
          rw [b8 hs, acceptance_ref mus (lookModel M)]
        · intro hs
          rw [b9 hs]
          congr 1
          funext i
          exact (forest_look hX b4.fitted i).symm
      refine ⟨_, rfl, ?_, ?_, ?_⟩
      · refine forall₂_getElem? (by simp [ChainOut.models, hlen, l1]) ?_
        intro j x st e e'
        have hj : j < (storedTimes s.nSamples s.thin).length := by
          have := (List.getElem?_eq_some_iff.1 e').1
          rwa [hlen] at this
        obtain ⟨x', st', g1, g2, g3, -⟩ := key j hj
        rw [g2] at e'
        simp only [ChainOut.models, List.getElem?_map, g1, Option.map_some] at e
        cases e; cases e'
        exact g3
      · intro hs
        apply List.ext_getElem?
        intro j
        by_cases hj : j < (storedTimes s.nSamples s.thin).length
        · obtain ⟨x', st', g1, g2, g3, g4, g5⟩ := key j hj
          rw [g4 hs, List.getElem?_map, g2]; rfl
        · rw [List.getElem?_eq_none (by rw [l2, l1, if_pos hs]; omega), List.getElem?_eq_none (by rw [List.length_map, hlen]; omega)]
      · intro hs
        apply List.ext_getElem?
        intro j
        by_cases hj : j < (storedTimes s.nSamples s.thin).length
        · obtain ⟨x', st', g1, g2, g3, g4, g5⟩ := key j hj
          simp only [ChainOut.predictions, List.getElem?_map, g5 hs, g2, Option.map_some]
        · rw [List.getElem?_eq_none (by simp only [ChainOut.predictions, List.length_map]; rw [l3, l1, if_pos hs]; omega),
            List.getElem?_eq_none (by rw [List.length_map, hlen]; omega)]

/-! ### the chains -/

theorem chains_ref (hX : NoNan X) {s : SkModel K p} (hp : 0 < p) (hp1 : s.pGrow ≠ 0) (hp2 : s.pPrune ≠ 0) (hth : s.thin ≠ 0) {y : Fin n → K} {lo hi : K}
    (hlo : IsLeast (Set.range y) lo) (hhi : IsGreatest (Set.range y) hi) (hlt : lo < hi) (rs : List (Rand K)) :
    match s.runChains X y rs with
    | .error e => Reference.chains s.config X (scaled lo hi y) rs = .error e
    | .ok os => ∃ l, Reference.chains s.config X (scaled lo hi y) rs = .ok l ∧ List.Forall₂ SampleRef (os.flatMap ChainOut.models) l ∧
        (s.storeAcceptance = true → os.flatMap (fun o => o.chain.acceptance) = l.map acceptedShare) ∧
        (s.storePredictions = true → os.flatMap ChainOut.predictions = l.map (fun st => List.ofFn (fun i => forest st.2.trees (X i)))) := by
  induction rs with
  | nil => exact ⟨[], rfl, .nil, fun _ => rfl, fun _ => rfl⟩
  | cons r rs ih =>
    have h1 := runChain_ref hX hp hp1 hp2 hth hlo hhi hlt r
    simp only [SkModel.runChains, Reference.chains]
    cases e : s.runChain X y r with
    | error er => rw [e] at h1; simp only at h1 ⊢; rw [h1]
    | ok o =>
      rw [e] at h1
      obtain ⟨l, a1, a2, a3, a4⟩ := h1
      simp only
      rw [a1]
      simp only
      cases e2 : s.runChains X y rs with
      | error er => rw [e2] at ih; simp only at ih ⊢; rw [ih]
      | ok os =>
        rw [e2] at ih
        obtain ⟨ls, b1, b2, b3, b4⟩ := ih
        simp only
        rw [b1]
        exact ⟨_, rfl, by rw [List.flatMap_cons]; exact List.rel_append a2 b2, fun hs => by rw [List.flatMap_cons, List.map_append, a3 hs, b3 hs],
          fun hs => by rw [List.flatMap_cons, List.map_append, a4 hs, b4 hs]⟩

theorem prediction_eq (lo hi : K) (l : List (List Bool × State K p)) (x : Fin p → Fl K) : prediction lo hi l x = originalScale lo hi (mean (l.map (fun st => forest st.2.trees x))) := by
  unfold prediction originalScale mean
  rw [List.length_map]
  ring

/-! ### C103 -/

/-- C103. `fit` raises what the reference implementation raises. If it returns, then so does the reference implementation, and the samples agree one by one: predictions for rows without NaN
and -inf, predictions for the training data, sigma, shares of accepted changes. -/
theorem C103_fit (hX : NoNan X) {s : SkModel K p} (hp : 0 < p) (hp1 : s.pGrow ≠ 0) (hp2 : s.pPrune ≠ 0) (hth : s.thin ≠ 0) (hch : 0 < s.nChains) {y : Fin n → K} {lo hi : K}
    (hlo : IsLeast (Set.range y) lo) (hhi : IsGreatest (Set.range y) hi) (hlt : lo < hi) (rs : Nat → Rand K) :
    match s.fit X y rs with
    | .error e => Reference.fit s.config X lo hi y rs = .error e
    | .ok f => ∃ samples c, Reference.fit s.config X lo hi y rs = .ok samples ∧ f.samples = some c ∧ c.models.length = samples.length ∧
        c.models.map (fun x => (x.live.storedSigma x.stored).current) = samples.map (fun st => st.2.sigma) ∧
        (∀ {q : Nat} (Z : Fin q → Fin p → Fl K), (∀ r, GoodRow (Z r)) → c.models.map (fun x => List.ofFn (x.predictX Z)) = samples.map (fun st => List.ofFn (fun r => forest st.2.trees (Z r)))) ∧
        (s.storePredictions = true → c.predictions = samples.map (fun st => List.ofFn (fun r => forest st.2.trees (X r)))) ∧
        (s.storeAcceptance = true → c.acceptance = samples.map acceptedShare) ∧
        (samples ≠ [] → (∀ {q : Nat} (Z : Fin q → Fin p → Fl K), (∀ r, GoodRow (Z r)) → f.predict (some ⟨q, Z⟩) = .ok (List.ofFn (fun r => prediction lo hi samples (Z r)))) ∧
          (s.storePredictions = true → f.predict none = .ok (List.ofFn (fun r => prediction lo hi samples (X r))))) := by
  obtain ⟨d, m, hc, -, -, -, hum⟩ := constructModel_ref (s := s) (X := X) hp hlo hhi hlt
  have h1 := chains_ref hX hp hp1 hp2 hth hlo hhi hlt ((List.range s.nChains).map rs)
  unfold SkModel.fit Reference.fit
  rw [show s.config.nChains = s.nChains from rfl]
  simp only [hc]
  cases e : s.runChains X y ((List.range s.nChains).map rs) with
  | error er => rw [e] at h1; exact h1
  | ok os =>
    rw [e] at h1
    obtain ⟨l, a1, a2, a3, a4⟩ := h1
    obtain ⟨c, hc1, -⟩ := C51_fit hX hp1 hp2 (by simp; omega) e
    obtain ⟨m1, m2, m3, -⟩ := C51_combine hc1
    simp only [hc1]
    rw [show (fun o : ChainOut K p => o.chain.model.map (fun x => (⟨o.n, o.live, x⟩ : Sample K p))) = ChainOut.models from rfl] at m1
    rw [show (fun o : ChainOut K p => o.chain.predictions.map List.ofFn) = ChainOut.predictions from rfl] at m3
    rw [← m1] at a2
    rw [← m2] at a3
    rw [← m3] at a4
    have hpred : ∀ {q : Nat} (Z : Fin q → Fin p → Fl K), (∀ r, GoodRow (Z r)) →
        c.models.map (fun x => List.ofFn (x.predictX Z)) = l.map (fun st => List.ofFn (fun r => forest st.2.trees (Z r))) := fun Z hZ =>
      (forall₂_map_eq (fun x st h => by
        congr 1
        funext r
        exact (h.predict Z r (hZ r)).symm) a2).symm
    refine ⟨l, c, a1, rfl, a2.length_eq, (forall₂_map_eq (fun x st h => h.sigma.symm) a2).symm, fun Z hZ => hpred Z hZ, a4, a3, fun hl => ⟨fun {q} Z hZ => ?_, fun hs => ?_⟩⟩
    · simp only [SkModel.predict, SkModel.outOfSamplePredict]
      rw [hpred Z hZ, meanRows_spec l hl (fun st r => forest st.2.trees (Z r))]
      simp only
      rw [unnormalizeList_spec hum]
      congr 1
      rw [List.map_ofFn]
      congr 1
      funext r
      exact (prediction_eq lo hi l (Z r)).symm
    · simp only [SkModel.predict, hs, if_true]
      rw [a4 hs, meanRows_spec l hl (fun st r => forest st.2.trees (X r))]
      simp only
      rw [unnormalizeList_spec hum]
      congr 1
      rw [List.map_ofFn]
      congr 1
      funext r
      exact (prediction_eq lo hi l (X r)).symm

/-- C103, a single Gibbs sweep: from a model on the way, whatever the draws, the sampler does what the reference implementation does with the trees and sigma that the model shows. -/
theorem C103_sweep (hX : NoNan X) {m : BModel K n p} (hm : ReachableModel X m) {pGrow pPrune : K} (hp1 : pGrow ≠ 0) (hp2 : pPrune ≠ 0) (r : Rand K) :
    ∃ y, m.data.y.y = some y ∧
    match m.sweep pGrow pPrune r with
    | .error e => Reference.sweep (settingsOf m pGrow pPrune) X y (lookModel m) r = .error e
    | .ok (mus, m', r') => Reference.sweep (settingsOf m pGrow pPrune) X y (lookModel m) r = .ok (mus.map Option.isSome, lookModel m', r') := by
  obtain ⟨y0, pg, pp, mm, kk, q1, q2, q3, q4⟩ := hm
  obtain ⟨y, -, hI, -⟩ := reachable_model_inv (N := False) hX (fun h => h.elim) q1 q2 q3 q4
  refine ⟨y, hI.target, ?_⟩
  have h := sweep_ref hX hI hp1 hp2 r
  generalize m.sweep pGrow pPrune r = res at h
  cases res with
  | error e => exact h
  | ok q => exact h.1

/-! ### the hypotheses can be met -/

section examples
attribute [local instance] exFns

example : NoNan exX ∧ (exSk true).pGrow ≠ 0 ∧ (exSk true).pPrune ≠ 0 ∧ (exSk true).thin ≠ 0 ∧ 0 < (exSk true).nChains ∧ IsLeast (Set.range exY) 0 ∧ IsGreatest (Set.range exY) 2 ∧ (0 : ℚ) < 2 := by
  refine ⟨exX_noNan, by decide +kernel, by decide +kernel, by decide +kernel, by decide +kernel, ⟨⟨0, by decide +kernel⟩, ?_⟩, ⟨⟨2, by decide +kernel⟩, ?_⟩, by norm_num⟩
  · rintro _ ⟨r, rfl⟩; revert r; decide +kernel
  · rintro _ ⟨r, rfl⟩; revert r; decide +kernel

/-- The reference implementation on the example: both trees are grown in the first of four sweeps, afterwards every proposal is rejected; the leaf values change in every sweep. -/
example : (match Reference.sweeps (exSk true).config.toSettings exX (scaled 0 2 exY) 4 (start (exSk true).config.toSettings) exRands1 with
    | .ok (l, s, _) => decide (l.map Prod.fst = [[true, true], [false, false], [false, false], [false, false]] ∧ s.trees.map List.length = [3, 3] ∧
        (l.map (fun st => forest st.2.trees (exX 0))).Nodup)
    | .error _ => false) = true := by decide +kernel

/-- The fit of the example returns, with four samples. -/
example : (match exFit true with
    | .ok f => f.samples.any (fun c => decide (c.models.length = 4))
    | .error _ => false) = true := by decide +kernel

end examples
end Bart
