import Verif.Model.Params
import Verif.Props.InvarianceProps
import Verif.Props.ExtensionProps

/-! Settings: `set_params` (C81), `clone` (C82), the selectors (C83). -/

set_option linter.unusedSectionVars false

namespace Bart
open Spec

namespace Spec
variable {K : Type} [Field K] [LinearOrder K] [MathFns K] [FloorRing K] {p : Nat}

/-- The life of a `SklearnModel` that was made with the settings `c0`: assignments by `set_params` and successful fits, in any order. -/
inductive Life (c0 : Settings K) : SkObj K p → Prop
  | made : Life c0 (SkObj.init c0)
  | set {o : SkObj K p} (ps : List (Param K)) : Life c0 o → Life c0 (o.setParams ps)
  | fitted {o o' : SkObj K p} {n : Nat} {X : Fin n → Fin p → Fl K} {y : Fin n → K} {rs : Nat → Rand K} : Life c0 o → o.fit X y rs = .ok o' → Life c0 o'

/-- The names of the parameters of `SklearnModel`. -/
inductive PName where
  | nTrees
  | nChains
  | sigmaA
  | sigmaB
  | nSamples
  | nBurn
  | thin
  | alpha
  | beta
  | storePredictions
  | storeAcceptance
  | treeSampler
  | nJobs
  deriving DecidableEq

/-- The values that parameters can have. -/
inductive PValue (K : Type) where
  | nat (v : Nat)
  | num (v : K)
  | flag (v : Bool)
  | sampler (v : TreeSampler K)
  | int (v : Int)

/-- The value reported under a name. -/
def reported {K : Type} (c : Settings K) : PName → PValue K
  | .nTrees => .nat c.nTrees
  | .nChains => .nat c.nChains
  | .sigmaA => .num c.sigmaA
  | .sigmaB => .num c.sigmaB
  | .nSamples => .nat c.nSamples
  | .nBurn => .nat c.nBurn
  | .thin => .num c.thin
  | .alpha => .num c.alpha
  | .beta => .num c.beta
  | .storePredictions => .flag c.storePredictions
  | .storeAcceptance => .flag c.storeAcceptance
  | .treeSampler => .sampler c.treeSampler
  | .nJobs => .int c.nJobs

/-- The name and the value in an assignment. -/
def assignment {K : Type} : Param K → PName × PValue K
  | .nTrees v => (.nTrees, .nat v)
  | .nChains v => (.nChains, .nat v)
  | .sigmaA v => (.sigmaA, .num v)
  | .sigmaB v => (.sigmaB, .num v)
  | .nSamples v => (.nSamples, .nat v)
  | .nBurn v => (.nBurn, .nat v)
  | .thin v => (.thin, .num v)
  | .alpha v => (.alpha, .num v)
  | .beta v => (.beta, .num v)
  | .storePredictions v => (.storePredictions, .flag v)
  | .storeAcceptance v => (.storeAcceptance, .flag v)
  | .treeSampler v => (.treeSampler, .sampler v)
  | .nJobs v => (.nJobs, .int v)

/-- The value under a name after assignments: the last value assigned to the name, otherwise what it was. -/
def afterAssignments {K : Type} (old : PName → PValue K) (ps : List (Param K)) (name : PName) : PValue K :=
  match ps.reverse.find? (fun q => decide ((assignment q).1 = name)) with
  | some q => (assignment q).2
  | none => old name

/-- Two estimators answer all the questions of a user in the same way. -/
def SameAnswers (o o' : SkObj K p) : Prop :=
  (∀ X, o'.predict X = o.predict X) ∧ (∀ X y, o'.toSk.residuals X y = o.toSk.residuals X y) ∧ o'.samples.map Combined.acceptance = o.samples.map Combined.acceptance

end Spec

section
variable {K : Type} [Field K] [LinearOrder K] [MathFns K] [FloorRing K] {n p : Nat}

/-- The new values of the attributes do not depend on their old values. -/
theorem fit_congr (s : SkModel K p) (d : Option (Σ n, Data K n p)) (m : Option (Σ n, BModel K n p)) (c : Option (Combined K p)) (e : Option (List (ChainOut K p)))
    (X : Fin n → Fin p → Fl K) (y : Fin n → K) (rs : Nat → Rand K) : ({ s with data := d, model := m, samples := c, extract := e } : SkModel K p).fit X y rs = s.fit X y rs := by
  have h1 : ∀ l, SkModel.runChains { s with data := d, model := m, samples := c, extract := e } X y l = s.runChains X y l := by
    intro l
    induction l with
    | nil => rfl
    | cons r l ih => simp only [SkModel.runChains, ih]; rfl
  unfold SkModel.fit
  simp only [h1]
  rfl

theorem skFit_keeps {s s1 : SkModel K p} {X : Fin n → Fin p → Fl K} {y : Fin n → K} {rs : Nat → Rand K} (h : s.fit X y rs = .ok s1) :
    s1 = { s with data := s1.data, model := s1.model, samples := s1.samples, extract := s1.extract } := by
  unfold SkModel.fit at h
  split at h
  · cases h
  · split at h
    · cases h
    · split at h
      · cases h
      · injection h with h; subst h; rfl

theorem objFit_eq {o : SkObj K p} {X : Fin n → Fin p → Fl K} {y : Fin n → K} {rs : Nat → Rand K} {o' : SkObj K p} (h : o.fit X y rs = .ok o') :
    o'.settings = o.settings ∧ o'.scheduled = o.scheduled ∧ o.toSk.fit X y rs = .ok o'.toSk := by
  unfold SkObj.fit at h
  split at h
  · cases h
  · next s e =>
    injection h with h; subst h
    refine ⟨rfl, rfl, ?_⟩
    rw [e]
    exact congrArg Except.ok (skFit_keeps e)

theorem life_scheduled {c0 : Settings K} {o : SkObj K p} (h : Life c0 o) : o.scheduled = c0.treeSampler := by
  induction h with
  | made => rfl
  | set ps _ ih => exact ih
  | fitted _ e ih => rw [(objFit_eq e).2.1]; exact ih

/-- C81 (partial): whatever settings were assigned and whatever fits were done before, a fit has the result of a new estimator with the present settings, except that the tree
sampler is still the one given to the constructor. Missing: an assigned tree sampler, which is ignored. -/
theorem C81_set_params_partial {c0 : Settings K} {o : SkObj K p} (h : Life c0 o) (X : Fin n → Fin p → Fl K) (y : Fin n → K) (rs : Nat → Rand K) :
    SameUpTo SameAnswers (o.fit X y rs) ((SkObj.init { o.getParams with treeSampler := c0.treeSampler } : SkObj K p).fit X y rs) := by
  have hs := life_scheduled h
  have h1 : (SkObj.init { o.getParams with treeSampler := c0.treeSampler } : SkObj K p).toSk = { o.toSk with data := none, model := none, samples := none, extract := none } := by
    simp only [SkObj.init, SkObj.toSk, SkObj.getParams, hs]
  have h2 := fit_congr o.toSk none none none none X y rs
  rw [← h1] at h2
  unfold SkObj.fit
  rw [h2]
  cases e : o.toSk.fit X y rs with
  | error e => rfl
  | ok s =>
    have h3 : ({ (SkObj.init { o.getParams with treeSampler := c0.treeSampler } : SkObj K p) with data := s.data, model := s.model, samples := s.samples, extract := s.extract } : SkObj K p).toSk =
        ({ o with data := s.data, model := s.model, samples := s.samples, extract := s.extract } : SkObj K p).toSk := by
      simp only [SkObj.init, SkObj.toSk, SkObj.getParams, hs]
    exact ⟨fun X => by unfold SkObj.predict; rw [h3], fun X y => by rw [h3], rfl⟩

/-- C81 (partial): so all settings other than the tree sampler have the effect that they would have in the constructor. -/
theorem C81_other_settings_partial {c0 : Settings K} {o : SkObj K p} (h : Life c0 o) (ht : o.getParams.treeSampler = c0.treeSampler) (X : Fin n → Fin p → Fl K) (y : Fin n → K)
    (rs : Nat → Rand K) : SameUpTo SameAnswers (o.fit X y rs) ((SkObj.init o.getParams : SkObj K p).fit X y rs) := by
  have h1 := C81_set_params_partial h X y rs
  have h2 : { o.getParams with treeSampler := c0.treeSampler } = o.getParams := by rw [← ht]
  rwa [h2] at h1

/-- Assignments one after the other. -/
theorem reported_foldl (ps : List (Param K)) (c : Settings K) (name : PName) :
    reported (ps.foldl (fun c q => q.assign c) c) name = afterAssignments (reported c) ps name := by
  induction ps using List.reverseRecOn with
  | nil => rfl
  | append_singleton ps q ih =>
    rw [List.foldl_append]
    simp only [List.foldl_cons, List.foldl_nil]
    unfold afterAssignments
    rw [List.reverse_append, List.reverse_singleton, List.singleton_append, List.find?_cons]
    by_cases hq : (assignment q).1 = name
    · simp only [hq, decide_true]
      subst hq
      cases q <;> rfl
    · simp only [hq, decide_false]
      rw [show reported (q.assign (ps.foldl (fun c q => q.assign c) c)) name = reported (ps.foldl (fun c q => q.assign c) c) name by
        cases q <;> cases name <;> first | rfl | exact absurd rfl hq]
      exact ih

theorem reported_ext {c c' : Settings K} (h : ∀ name, reported c name = reported c' name) : c = c' := by
  obtain ⟨a1, a2, a3, a4, a5, a6, a7, a8, a9, a10, a11, a12, a13⟩ := c
  obtain ⟨b1, b2, b3, b4, b5, b6, b7, b8, b9, b10, b11, b12, b13⟩ := c'
  have h1 := h .nTrees; have h2 := h .nChains; have h3 := h .sigmaA; have h4 := h .sigmaB; have h5 := h .nSamples; have h6 := h .nBurn; have h7 := h .thin
  have h8 := h .alpha; have h9 := h .beta; have h10 := h .storePredictions; have h11 := h .storeAcceptance; have h12 := h .treeSampler; have h13 := h .nJobs
  simp only [reported, PValue.nat.injEq, PValue.num.injEq, PValue.flag.injEq, PValue.sampler.injEq, PValue.int.injEq] at h1 h2 h3 h4 h5 h6 h7 h8 h9 h10 h11 h12 h13
  subst h1 h2 h3 h4 h5 h6 h7 h8 h9 h10 h11 h12 h13
  rfl

/-- C81: after `set_params` every parameter has the value last assigned to its name, and the value it had before if there is none. -/
theorem C81_reported (o : SkObj K p) (ps : List (Param K)) (name : PName) : reported (o.setParams ps).getParams name = afterAssignments (reported o.getParams) ps name :=
  reported_foldl ps _ name

/-- C81 (partial): assignments followed by `fit` have the result of a new estimator whose settings are the assigned values and otherwise the present ones, except that the tree
sampler is the one given to the constructor. Missing: an assigned tree sampler. -/
theorem C81_effect_partial {c0 c : Settings K} {o : SkObj K p} (h : Life c0 o) (ps : List (Param K))
    (hc : ∀ name, name ≠ .treeSampler → reported c name = afterAssignments (reported o.getParams) ps name) (ht : c.treeSampler = c0.treeSampler)
    (X : Fin n → Fin p → Fl K) (y : Fin n → K) (rs : Nat → Rand K) : SameUpTo SameAnswers ((o.setParams ps).fit X y rs) ((SkObj.init c : SkObj K p).fit X y rs) := by
  have e : c = { (o.setParams ps).getParams with treeSampler := c0.treeSampler } := by
    apply reported_ext
    intro name
    by_cases hn : name = .treeSampler
    · subst hn; simp only [reported, ht]
    · rw [hc name hn, ← C81_reported]
      cases name <;> first | rfl | exact absurd rfl hn
  rw [e]
  exact C81_set_params_partial (Life.set ps h) X y rs

/-- C99 for the estimator object: at any time of its life, a fit uses the reported settings, and the probabilities of growing and pruning of the tree sampler given to the constructor. -/
theorem C99_in_use {c0 : Settings K} {o : SkObj K p} (h : Life c0 o) :
    o.toSk.nTrees = o.getParams.nTrees ∧ o.toSk.nChains = o.getParams.nChains ∧ o.toSk.sigmaA = o.getParams.sigmaA ∧ o.toSk.sigmaB = o.getParams.sigmaB ∧
      o.toSk.nSamples = o.getParams.nSamples ∧ o.toSk.nBurn = o.getParams.nBurn ∧ o.toSk.thin = o.getParams.thin ∧ o.toSk.alpha = o.getParams.alpha ∧ o.toSk.beta = o.getParams.beta ∧
      o.toSk.storePredictions = o.getParams.storePredictions ∧ o.toSk.storeAcceptance = o.getParams.storeAcceptance ∧
      o.toSk.pGrow = c0.treeSampler.pGrow ∧ o.toSk.pPrune = c0.treeSampler.pPrune :=
  ⟨rfl, rfl, rfl, rfl, rfl, rfl, rfl, rfl, rfl, rfl, rfl, congrArg TreeSampler.pGrow (life_scheduled h), congrArg TreeSampler.pPrune (life_scheduled h)⟩

/-- C82 (partial): the clone of a `SklearnModel`, at any time of its life, reports the same settings and is not fitted; and fitting the clone gives the same answers as fitting the
estimator itself, unless a tree sampler was assigned, which only the clone uses. Missing: that case, and the extensions. -/
theorem C82_clone_partial {c0 : Settings K} {o : SkObj K p} (h : Life c0 o) (ht : o.getParams.treeSampler = c0.treeSampler) (X : Fin n → Fin p → Fl K) (y : Fin n → K)
    (rs : Nat → Rand K) :
    o.clone.getParams = o.getParams ∧ (∀ q Xn, o.clone.predict (some ⟨q, Xn⟩) = .error .attributeError) ∧ SameUpTo SameAnswers (o.fit X y rs) (o.clone.fit X y rs) :=
  ⟨rfl, fun _ _ => rfl, C81_other_settings_partial h ht X y rs⟩

/-- C82 fails for `ResidualBART` and `OLS`: whatever settings the estimator has, the clone has the default settings (200 trees and so on), and for `ResidualBART` the settings cannot be
assigned either. -/
theorem C82_refuted (lin : Regressor K p) (w : World K p) (base : Option EstId) (kind : StatModel K p) (c : Settings K) :
    ((ResidualObj.init lin w base c).1.clone lin (ResidualObj.init lin w base c).2).1.sk.getParams = Settings.default K ∧
      (OlsObj.init kind c : OlsObj K p).clone.sk.getParams = Settings.default K ∧ (ResidualObj.init lin w base c).1.sk.getParams = c ∧
      (OlsObj.init kind c : OlsObj K p).sk.getParams = c ∧
      ∀ q ps, (ResidualObj.init lin w base c).1.setParams (q :: ps) = .error .valueError :=
  ⟨rfl, rfl, rfl, rfl, fun _ _ => rfl⟩

end

/-- C83: neither selector can be cloned, and `SelectNullDistributionThreshold` reports an unknown method by an AttributeError instead of the NotImplementedError it means to raise. -/
theorem C83_refuted {K : Type} {p : Nat} (w : Objects K p) (model : Nat) (percentile : K) :
    (let s := ProportionSelector.init w model percentile; s.1.clone s.2 = .error .runtimeError) ∧ (∀ tolerant, nullSelectorClone tolerant = .error .attributeError) ∧
      (∀ m, m ≠ "local" → m ≠ "global" → nullSelectorMethod (.string m) = .error .attributeError) := by
  refine ⟨?_, ?_, ?_⟩
  · simp [ProportionSelector.init, ProportionSelector.clone, Objects.deepcopy, Objects.clone, Objects.alloc]
  · intro t; cases t <;> rfl
  · intro m h1 h2
    simp only [nullSelectorMethod, if_neg h1, if_neg h2]

/-- C83 (partial): the selector works on its own copy of the model: the object of the caller stays, and the copy has the same settings. -/
theorem C83_own_model_partial {K : Type} {p : Nat} (w : Objects K p) (model : Nat) (percentile : K) (h : model < w.next) :
    let s := ProportionSelector.init w model percentile
    s.1.model ≠ model ∧ s.2.obj s.1.model = w.obj model ∧ ∀ i < w.next, s.2.obj i = w.obj i := by
  refine ⟨?_, ?_, ?_⟩
  · exact Nat.ne_of_gt h
  · exact Function.update_self _ _ _
  · intro i hi; exact Function.update_of_ne (Nat.ne_of_lt hi) _ _

section ex
attribute [local instance] exFns

/-- The settings of `exSk`. -/
def exSettings : Settings ℚ := ⟨2, 2, 1, 1, 3, 1, 1/2, 1/2, 1, true, true, ⟨1/2, 1/2⟩, 1⟩

/-- Draws with which the first proposal is accepted or not depending on the probabilities of the moves; everything after the second proposal is rejected. -/
def exClose : Rand ℚ := ⟨(List.replicate 20 [Method.grow, .prune]).flatten, [0, 0, 1] ++ List.replicate 60 0, 1/2 :: List.replicate 30 100, [1, 2, -1, 3] ++ List.replicate 40 1, [2, 3, 4, 5, 6]⟩

/-- The predictions after a fit. -/
def exAnswers (o : SkObj ℚ 1) : Option (List ℚ) :=
  match o.fit exX exY (fun _ => exClose) with
  | .ok o => match o.predict (some ⟨3, exX⟩) with | .ok f => some f | .error _ => none
  | .error _ => none

/-- C81 fails: a tree sampler assigned by `set_params` is reported by `get_params` but not used; the predictions are not those of an estimator made with it. -/
theorem C81_refuted : ∃ (c0 : Settings ℚ) (ps : List (Param ℚ)) (o1 o2 : SkObj ℚ 1) (f g : List ℚ),
    ((SkObj.init c0 : SkObj ℚ 1).setParams ps).getParams = { c0 with treeSampler := ⟨1/100, 99/100⟩ } ∧
    ((SkObj.init c0).setParams ps).fit exX exY (fun _ => exClose) = .ok o1 ∧ (SkObj.init ((SkObj.init c0 : SkObj ℚ 1).setParams ps).getParams).fit exX exY (fun _ => exClose) = .ok o2 ∧
    o1.predict (some ⟨3, exX⟩) = .ok f ∧ o2.predict (some ⟨3, exX⟩) = .ok g ∧ f ≠ g := by
  have h : (match exAnswers ((SkObj.init exSettings).setParams [.treeSampler ⟨1/100, 99/100⟩]), exAnswers (SkObj.init { exSettings with treeSampler := ⟨1/100, 99/100⟩ }) with
    | some f, some g => decide (f ≠ g)
    | _, _ => false) = true := by decide +kernel
  have key : ∀ {o : SkObj ℚ 1} {f}, exAnswers o = some f → ∃ o1, o.fit exX exY (fun _ => exClose) = .ok o1 ∧ o1.predict (some ⟨3, exX⟩) = .ok f := by
    intro o f e
    unfold exAnswers at e
    split at e
    · next o1 e1 =>
      split at e
      · next f' e2 => injection e with e; subst e; exact ⟨o1, e1, e2⟩
      · cases e
    · cases e
  cases e1 : exAnswers ((SkObj.init exSettings).setParams [.treeSampler ⟨1/100, 99/100⟩]) with
  | none => rw [e1] at h; cases h
  | some f =>
    cases e2 : exAnswers (SkObj.init { exSettings with treeSampler := ⟨1/100, 99/100⟩ }) with
    | none => rw [e1, e2] at h; cases h
    | some g =>
      rw [e1, e2] at h
      obtain ⟨o1, a1, b1⟩ := key e1
      obtain ⟨o2, a2, b2⟩ := key e2
      exact ⟨exSettings, [.treeSampler ⟨1/100, 99/100⟩], o1, o2, f, g, rfl, a1, a2, b1, b2, of_decide_eq_true h⟩

/-- C81, the example: three trees assigned after a fit with two. -/
example : ∃ o : SkObj ℚ 1, Life exSettings o ∧ o.getParams.treeSampler = exSettings.treeSampler ∧ o.getParams.nTrees = 3 ∧ o.samples.isSome = true ∧
    (exAnswers o).isSome = true ∧ exAnswers o ≠ exAnswers (SkObj.init exSettings) := by
  have h : (match (SkObj.init exSettings : SkObj ℚ 1).fit exX exY exRs with
    | .ok o => o.samples.isSome && (exAnswers (o.setParams [.nTrees 3])).isSome && decide (exAnswers (o.setParams [.nTrees 3]) ≠ exAnswers (SkObj.init exSettings))
    | .error _ => false) = true := by decide +kernel
  cases e : (SkObj.init exSettings : SkObj ℚ 1).fit exX exY exRs with
  | error _ => rw [e] at h; cases h
  | ok o =>
    rw [e] at h
    simp only [Bool.and_eq_true, decide_eq_true_eq] at h
    refine ⟨o.setParams [.nTrees 3], .set _ (.fitted .made e), ?_, rfl, h.1.1, h.1.2, h.2⟩
    show o.settings.treeSampler = _
    rw [(objFit_eq e).1]; rfl

/-- C81, the example: `thin` assigned twice and the number of trees once; the settings of `C81_effect_partial` exist. -/
example : afterAssignments (reported exSettings) [.thin (1/3), .nTrees 3, .thin (1/4)] .thin = .num (1/4) ∧
    afterAssignments (reported exSettings) [.thin (1/3), .nTrees 3, .thin (1/4)] .alpha = .num (1/2) ∧
    (∀ name, name ≠ .treeSampler → reported { exSettings with thin := 1/4, nTrees := 3 } name = afterAssignments (reported (SkObj.init exSettings : SkObj ℚ 1).getParams) [.thin (1/3), .nTrees 3, .thin (1/4)] name) :=
  ⟨rfl, rfl, fun name _ => by cases name <;> rfl⟩

/-- C82, the example: settings that are not the default ones, and a clone with another number of trees. -/
example : exSettings ≠ Settings.default ℚ ∧ ((ResidualObj.init exMean exWorld (some 0) exSettings).1.clone exMean (ResidualObj.init exMean exWorld (some 0) exSettings).2).1.sk.toSk.nTrees = 200 ∧
    (ResidualObj.init exMean exWorld (some 0) exSettings).1.sk.toSk.nTrees = 2 := by
  refine ⟨by decide +kernel, rfl, rfl⟩

/-- C83, the example. -/
example : (0 : Nat) < (⟨fun _ => SkObj.init exSettings, 1⟩ : Objects ℚ 1).next ∧ "both" ≠ "local" ∧ "both" ≠ "global" := by decide

end ex
end Bart
