import Verif.Model.SklearnInit
import Verif.Props.InitializerProps
import Verif.Props.FeatureProps
import Verif.Props.FitProps

/-! Property theorem C101: a fit that starts from trees made by an initializer. -/

set_option linter.unusedSectionVars false

namespace Bart
open Spec
variable {K : Type} [Field K] [LinearOrder K] [IsStrictOrderedRing K] {n p : Nat} {X : Fin n → Fin p → Fl K}

theorem constructModelWith_none (s : SkModel K p) (X : Fin n → Fin p → Fl K) (y : Fin n → K) : s.constructModelWith none X y = s.constructModel X y := by
  unfold SkModel.constructModelWith SkModel.constructModel BModel.constructWith
  split
  · rfl
  · cases SkModel.convertData X y with
    | error e => rfl
    | ok d =>
      simp only
      cases d.y.normalizingScale with
      | error e => rfl
      | ok c =>
        simp only
        cases BModel.construct d { alpha := s.sigmaA, beta := s.sigmaB, current := 1, scalingFactor := c } s.nTrees s.alpha s.beta 2 <;> rfl

/-- The model that a fit with an initializer of the user's own starts from. -/
theorem constructModelWith_spec (hX : NoNan X) {s : SkModel K p} {y : Fin n → K} {init : Tree K n p → Except PyErr (Tree K n p)} (hinit : InitializesBy X init)
    {d : Data K n p} {m : BModel K n p} (h : s.constructModelWith (some init) X y = .ok (d, m)) :
    ∃ z, SkModel.convertData X y = .ok d ∧ d.y.y = some z ∧ ModelInv False X z m ∧ (∀ t ∈ m.trees, ReachableTree X t ∧ FromInit X init t) ∧ m.prediction = some (sumValue m.trees) ∧ m.data = d ∧
      m.nTrees = s.nTrees ∧ m.alpha = s.alpha ∧ m.beta = s.beta ∧ m.k = 2 ∧ m.sigma.alpha = s.sigmaA ∧ m.sigma.beta = s.sigmaB ∧ m.sigma.current = 1 ∧
      d.y.normalizingScale = .ok m.sigma.scalingFactor := by
  unfold SkModel.constructModelWith at h
  split at h
  · cases h
  · split at h
    · cases h
    · next d' e1 =>
      split at h
      · cases h
      · next c e2 =>
        split at h
        · cases h
        · next m' e3 =>
          injection h with h; injection h with h1 h2; subst h1 h2
          obtain ⟨m2, z, e4, hz, hI, hT, hp, q1, q2, q3, q4, q5, q6⟩ := initialised_inv hX e1
            { alpha := s.sigmaA, beta := s.sigmaB, current := 1, scalingFactor := c } s.nTrees s.alpha s.beta 2 hinit
          rw [e3] at e4; injection e4 with e4; subst e4
          exact ⟨z, e1, hz, hI, hT, hp, q1, q3, q4, q5, q6, by rw [q2], by rw [q2], by rw [q2], by rw [q2, e2]⟩

/-- C63 for the estimator: with the initializer that ships with the library, `fit` raises AttributeError on any valid data. -/
theorem C63_fit [MathFns K] [FloorRing K] (hX : NoNan X) (hn : 0 < n) (hp : 0 < p) {s : SkModel K p} (hT : 0 < s.nTrees) {y : Fin n → K} {d : Data K n p} {c : K}
    (hd : SkModel.convertData X y = .ok d) (hc : d.y.normalizingScale = .ok c) (sk : Data K n p → Except PyErr (List (SkNode K p))) (rs : Nat → Rand K) :
    s.fitWith (some (sklearnInitializeTree sk)) X y rs = .error .attributeError := by
  unfold SkModel.fitWith SkModel.constructModelWith
  rw [if_neg (by omega)]
  simp only [hd, hc]
  rw [C63_refuted hX hd _ hT]

section
variable [MathFns K] [FloorRing K]

theorem runChainWith_none (s : SkModel K p) (X : Fin n → Fin p → Fl K) (y : Fin n → K) (r : Rand K) : s.runChainWith none X y r = s.runChain X y r := by
  unfold SkModel.runChainWith SkModel.runChain
  rw [constructModelWith_none]
  rfl

theorem runChainsWith_none (s : SkModel K p) (X : Fin n → Fin p → Fl K) (y : Fin n → K) (rs : List (Rand K)) : s.runChainsWith none X y rs = s.runChains X y rs := by
  induction rs with
  | nil => rfl
  | cons r rs ih =>
    unfold SkModel.runChainsWith SkModel.runChains
    rw [runChainWith_none, ih]
    rfl

/-- C101: without an initializer this is the `fit` of the other properties. -/
theorem C101_none (s : SkModel K p) (X : Fin n → Fin p → Fl K) (y : Fin n → K) (rs : Nat → Rand K) : s.fitWith none X y rs = s.fit X y rs := by
  unfold SkModel.fitWith SkModel.fit
  rw [constructModelWith_none, runChainsWith_none]
  rfl

theorem runChainWith_spec {init : Option (Tree K n p → Except PyErr (Tree K n p))} {s : SkModel K p} {y : Fin n → K} {r : Rand K} {o : ChainOut K p}
    (h : s.runChainWith init X y r = .ok o) :
    ∃ d m m' ch r', s.constructModelWith init X y = .ok (d, m) ∧ m.samples s.sampleParams s.nSamples s.nBurn r = .ok (ch, m', r') ∧ o = ⟨n, m', ch⟩ := by
  unfold SkModel.runChainWith at h
  split at h
  · cases h
  · next d m e =>
    split at h
    · cases h
    · next ch m' r' e' => injection h with h; exact ⟨d, m, m', ch, r', e, e', h.symm⟩

theorem runChainsWith_spec {init : Option (Tree K n p → Except PyErr (Tree K n p))} {s : SkModel K p} {y : Fin n → K} : ∀ {rs : List (Rand K)} {os : List (ChainOut K p)},
    s.runChainsWith init X y rs = .ok os → List.Forall₂ (fun r o => s.runChainWith init X y r = .ok o) rs os := by
  intro rs
  induction rs with
  | nil => intro os h; injection h with h; subst h; exact .nil
  | cons r rs ih =>
    intro os h
    unfold SkModel.runChainsWith at h
    split at h
    · cases h
    · next o e =>
      split at h
      · cases h
      · next os' e' => injection h with h; subst h; exact .cons e (ih e')

theorem fitWith_spec {init : Option (Tree K n p → Except PyErr (Tree K n p))} {s s' : SkModel K p} {y : Fin n → K} {rs : Nat → Rand K} (h : s.fitWith init X y rs = .ok s') :
    ∃ d m os c, s.constructModelWith init X y = .ok (d, m) ∧ List.Forall₂ (fun r o => s.runChainWith init X y r = .ok o) ((List.range s.nChains).map rs) os ∧ combineChains os = .ok c ∧
      s' = { s with data := some ⟨n, d⟩, model := some ⟨n, m⟩, samples := some c, extract := some os } := by
  unfold SkModel.fitWith at h
  split at h
  · cases h
  · next d m e =>
    split at h
    · cases h
    · next os e1 =>
      split at h
      · cases h
      · next c e2 => injection h with h; exact ⟨d, m, os, c, e, runChainsWith_spec e1, e2, h.symm⟩

variable {init : Tree K n p → Except PyErr (Tree K n p)}

/-- C101: while such a chain runs, the model has the settings of the estimator, the right number of trees, and `predict()` works and is the sum over the trees of the value of each row's
leaf; the running prediction, which the initializer has filled already before the first sweep, is this sum too. -/
theorem C101_during (hX : NoNan X) (hinit : InitializesBy X init) {s : SkModel K p} (hp1 : s.pGrow ≠ 0) (hp2 : s.pPrune ≠ 0)
    {y : Fin n → K} {d : Data K n p} {m0 m : BModel K n p} {k : Nat} (h : s.constructModelWith (some init) X y = .ok (d, m0)) (hR : ModelRun s.pGrow s.pPrune m0 k m) :
    m.trees.length = s.nTrees ∧ m.data = d ∧ m.alpha = s.alpha ∧ m.beta = s.beta ∧ m.k = 2 ∧ m.sigma.alpha = s.sigmaA ∧ m.sigma.beta = s.sigmaB ∧
      (∀ t ∈ m.trees, ReachableTree X t) ∧ (∃ f m', m.predict = .ok (f, m') ∧ (∀ r, f r = sumValue m.trees r) ∧ (∀ g, m.prediction = some g → g = f)) ∧ m0.prediction.isSome = true := by
  obtain ⟨z, -, -, hI, hT, hp, q1, q2, q3, q4, q5, q6, q7, -, -⟩ := constructModelWith_spec hX hinit h
  obtain ⟨i1, i2, i3, i4, i5, i6, v, i7⟩ := modelRun_inv hX hp1 hp2 hI hR
  obtain ⟨m', e, -⟩ := i1.predict hX
  refine ⟨by rw [i1.len, i6, q2], by rw [i2, q1], by rw [i3, q3], by rw [i4, q4], by rw [i5, q5], by rw [i7, q6], by rw [i7, q7], ((untouched_rel hX).run hX hp1 hp2 (fun t ht => (hT t ht).1) hR).1,
    ⟨_, m', e, fun r => rfl, fun g hg => funext (i1.pred g hg)⟩, by rw [hp]; rfl⟩

theorem chainWith_facts (hX : NoNan X) (hinit : InitializesBy X init) {s : SkModel K p} (hp1 : s.pGrow ≠ 0) (hp2 : s.pPrune ≠ 0) {y : Fin n → K} {r : Rand K} {o : ChainOut K p}
    (h : s.runChainWith (some init) X y r = .ok o) :
    (o.n = n ∧ o.chain.model.length = (storedTimes s.nSamples s.thin).length ∧ o.chain.acceptance.length = (if s.storeAcceptance then o.chain.model.length else 0) ∧
      o.chain.predictions.length = (if s.storePredictions then o.chain.model.length else 0)) ∧
    ∀ x ∈ o.models, ∃ M : BModel K n p, ((∃ d m k, s.constructModelWith (some init) X y = .ok (d, m) ∧ ModelRun s.pGrow s.pPrune m k M) ∧ M.trees.length = s.nTrees ∧
      ∀ t ∈ M.trees, ReachableTree X t) ∧ storedContent x.live x.stored = liveContent M := by
  obtain ⟨d, m, m', ch, r', e1, e2, rfl⟩ := runChainWith_spec h
  obtain ⟨z, -, -, hI, hT, -, -, hnt, -⟩ := constructModelWith_spec hX hinit e1
  obtain ⟨-, h2, h3, h4, h5⟩ := samples_from hX (c := s.sampleParams) (fun t ht => (hT t ht).1) hI hp1 hp2 e2
  refine ⟨⟨rfl, h2, h3, h4⟩, ?_⟩
  intro x hx
  obtain ⟨st, hst, rfl⟩ := List.mem_map.1 hx
  obtain ⟨i, hi, rfl⟩ := List.getElem_of_mem hst
  obtain ⟨st, m0, r0, mus, M, rM, k1, k2, k3, k4, -⟩ := h5 i ((storedTimes s.nSamples s.sampleParams.thin)[i]'(by rw [← h2]; exact hi)) (by simp)
  rw [List.getElem?_eq_getElem hi, Option.some.injEq] at k1
  subst k1
  have hR : ModelRun s.pGrow s.pPrune m _ M := .sweep k2.run k3
  obtain ⟨i1, -, -, -, -, i6, -⟩ := modelRun_inv hX hp1 hp2 hI hR
  exact ⟨M, ⟨⟨d, m, _, e1, hR⟩, by rw [i1.len, i6, hnt], ((untouched_rel hX).run hX hp1 hp2 (fun t ht => (hT t ht).1) hR).1⟩, k4⟩

/-- C101: a fit that starts from a legal initializer of the user's own holds `n_chains` times the number of samples of one chain, and each of them shows a model with `n_trees` trees that are
trees the API can reach, so that what is proved of reachable trees (C15-C23, C57) applies to them; each is a state of a run from the initialised model `m`. -/
theorem C101_samples (hX : NoNan X) (hinit : InitializesBy X init) {s s' : SkModel K p} (hp1 : s.pGrow ≠ 0) (hp2 : s.pPrune ≠ 0) {y : Fin n → K} {rs : Nat → Rand K}
    (h : s.fitWith (some init) X y rs = .ok s') :
    ∃ (c : Combined K p) (Ms : List (BModel K n p)), s'.samples = some c ∧ c.models.length = s.nChains * (storedTimes s.nSamples s.thin).length ∧ Show c.models Ms ∧
      ∀ M ∈ Ms, (∃ d m k, s.constructModelWith (some init) X y = .ok (d, m) ∧ ModelRun s.pGrow s.pPrune m k M) ∧ M.trees.length = s.nTrees ∧ ∀ t ∈ M.trees, ReachableTree X t := by
  obtain ⟨d, m, os, c, e1, e2, e3, rfl⟩ := fitWith_spec h
  obtain ⟨c1, -⟩ := C51_combine e3
  have hlen := e2.length_eq
  have hf : ∀ o ∈ os, (o.n = n ∧ o.chain.model.length = (storedTimes s.nSamples s.thin).length ∧ o.chain.acceptance.length = (if s.storeAcceptance then o.chain.model.length else 0) ∧
      o.chain.predictions.length = (if s.storePredictions then o.chain.model.length else 0)) ∧
      ∀ x ∈ o.models, ∃ M : BModel K n p, ((∃ d m k, s.constructModelWith (some init) X y = .ok (d, m) ∧ ModelRun s.pGrow s.pPrune m k M) ∧ M.trees.length = s.nTrees ∧
      ∀ t ∈ M.trees, ReachableTree X t) ∧ storedContent x.live x.stored = liveContent M := by
    clear e3 c1 h hlen
    generalize (List.range s.nChains).map rs = rl at e2
    induction e2 with
    | nil => simp
    | cons e _ ih =>
      intro o ho
      rcases List.mem_cons.1 ho with rfl | ho
      · exact chainWith_facts hX hinit hp1 hp2 e
      · exact ih o ho
  have hne : os ≠ [] := by
    rintro rfl
    unfold combineChains at e3; cases e3
  obtain ⟨c', q1, q2, -⟩ := combine_ok hne (fun o ho => (hf o ho).1)
  rw [e3] at q1; injection q1 with q1; subst q1
  have hall : ∀ x ∈ c.models, ∃ M : BModel K n p, ((∃ d m k, s.constructModelWith (some init) X y = .ok (d, m) ∧ ModelRun s.pGrow s.pPrune m k M) ∧ M.trees.length = s.nTrees ∧
      ∀ t ∈ M.trees, ReachableTree X t) ∧ storedContent x.live x.stored = liveContent M := by
    rw [c1]
    intro x hx
    obtain ⟨o, ho, hx⟩ := List.mem_flatMap.1 hx
    exact (hf o ho).2 x hx
  obtain ⟨Ms, hMs⟩ := forall₂_of_forall hall
  refine ⟨c, Ms, rfl, by rw [q2, ← hlen]; simp, List.Forall₂.imp (S := fun (x : Sample K p) (M : BModel K n p) => storedContent x.live x.stored = liveContent M) (fun _ _ h => h.2) hMs, ?_⟩
  clear hall e3 c1 e2 hf q2
  generalize c.models = xs at hMs
  induction hMs with
  | nil => simp
  | cons e _ ih =>
    intro M hM
    rcases List.mem_cons.1 hM with rfl | hM
    · exact e.1
    · exact ih M hM

/-- C101: `predict()` is `predict(X_train)` after such a fit as well. -/
theorem C101_in_sample (hX : ∀ r, GoodRow (X r)) (hinit : InitializesBy X init) {s s' : SkModel K p} (hp1 : s.pGrow ≠ 0) (hp2 : s.pPrune ≠ 0) (hst : s.storePredictions = true)
    {y : Fin n → K} {rs : Nat → Rand K} (h : s.fitWith (some init) X y rs = .ok s') : s'.predict none = s'.predict (some ⟨n, X⟩) := by
  have hX' : NoNan X := fun r v => (hX r v).1
  obtain ⟨d, m, os, c, e1, e2, e3, rfl⟩ := fitWith_spec h
  obtain ⟨c1, -, c3, -⟩ := C51_combine e3
  have key : c.predictions = c.models.map (fun x => List.ofFn (x.predictX X)) := by
    rw [c1, c3]
    clear e3 c1 c3 h
    generalize (List.range s.nChains).map rs = rl at e2
    induction e2 with
    | nil => rfl
    | cons e _ ih =>
      simp only [List.flatMap_cons, List.map_append]
      congr 1
      obtain ⟨d, m, m', ch, r', e1, e2, rfl⟩ := runChainWith_spec e
      obtain ⟨z, -, -, hI, hT, -⟩ := constructModelWith_spec hX' hinit e1
      have key := samples_predictions (c := s.sampleParams) hX (fun t ht => (hT t ht).1) hI hp1 hp2 hst e2
      show List.map List.ofFn ch.predictions = _
      rw [key]
      simp only [ChainOut.models, List.map_map]
      rfl
  unfold SkModel.predict SkModel.outOfSamplePredict
  simp only [hst, key, if_true]

section ex
attribute [local instance] exFns

/-- sklearn's arrays for `x <= 3/2 ? 10 : 20`. -/
def exStump : List (SkNode ℚ 1) := [⟨1, 2, some 0, .fin (3/2), 15⟩, ⟨-1, -1, none, .fin (-2), 10⟩, ⟨-1, -1, none, .fin (-2), 20⟩]

theorem exStump_tree : IsSkTree exStump (.node 0 (.fin (3/2)) (.leaf 10) (.leaf 20)) :=
  ⟨[0, 1, 2], .node (kl := 1) (kr := 2) (il := [1]) (nd := ⟨1, 2, some 0, .fin (3/2), 15⟩) rfl rfl rfl rfl (by simp)
    (.leaf (nd := ⟨-1, -1, none, .fin (-2), 10⟩) rfl rfl) (.leaf (nd := ⟨-1, -1, none, .fin (-2), 20⟩) rfl rfl), by decide⟩

def exInit : Tree ℚ 3 1 → Except PyErr (Tree ℚ 3 1) := fun t => mapSklearnTree t exStump

theorem exInit_legal : InitializesBy exX exInit := mapInitializes exX_noNan exStump_tree

/-- Draws for both chains: only prunes can be proposed, all are rejected. -/
def exInitRs : Nat → Rand ℚ := fun i => ⟨List.replicate 8 .prune, List.replicate 8 0, [20, 30, 40, 50, 60, 70, 80, 90], (List.range 16).map (fun k => (k : ℚ) + i), [2, 3, 4, 5]⟩

/-- C101, the example: two chains of two stored samples, in which all trees still have the split of the initializer. -/
theorem exInitFit : (match (exSk true).fitWith (some exInit) exX exY exInitRs with
    | .ok s =>
      match s.samples, s.predict none, s.predict (some ⟨3, exX⟩) with
      | some c, .ok f, .ok g => decide (c.models.length = 4 ∧ f = g ∧ f.length = 3 ∧ f.getD 0 0 ≠ f.getD 1 0 ∧
          c.models.map (fun x => x.trees.map (fun t => t.nodes.length)) = [[3, 3], [3, 3], [3, 3], [3, 3]])
      | _, _, _ => false
    | .error _ => false) = true := by decide +kernel

/-- The hypotheses of C101 hold of the example. -/
example : NoNan exX ∧ (∀ r, GoodRow (exX r)) ∧ InitializesBy exX exInit ∧ (exSk true).pGrow ≠ 0 ∧ (exSk true).pPrune ≠ 0 ∧ (exSk true).storePredictions = true ∧
    (∃ s', (exSk true).fitWith (some exInit) exX exY exInitRs = .ok s') ∧ ∃ d m0, (exSk true).constructModelWith (some exInit) exX exY = .ok (d, m0) := by
  have key : ∃ s', (exSk true).fitWith (some exInit) exX exY exInitRs = .ok s' := by
    have := exInitFit
    revert this
    cases (exSk true).fitWith (some exInit) exX exY exInitRs with
    | error e => intro h; cases h
    | ok s => exact fun _ => ⟨s, rfl⟩
  refine ⟨exX_noNan, ?_, exInit_legal, by norm_num [exSk], by norm_num [exSk], rfl, key, ?_⟩
  · intro r v
    fin_cases r <;> simp [exX, exX3]
  · obtain ⟨s', h⟩ := key
    obtain ⟨d, m, -, -, e, -⟩ := fitWith_spec h
    exact ⟨d, m, e⟩

/-- The hypotheses of `C63_fit` hold of the same data. -/
example : ∃ d c, SkModel.convertData exX exY = .ok d ∧ d.y.normalizingScale = .ok c := by
  have h : (match SkModel.convertData exX exY with
    | .ok d => (match d.y.normalizingScale with | .ok _ => true | .error _ => false)
    | .error _ => false) = true := by decide +kernel
  revert h
  cases SkModel.convertData exX exY with
  | error e => intro h; cases h
  | ok d =>
    simp only
    cases hd : d.y.normalizingScale with
    | error e => intro h; cases h
    | ok c => exact fun _ => ⟨d, c, rfl, hd⟩

end ex

end
end Bart
