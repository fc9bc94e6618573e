import Verif.Props.SklearnProps
import Verif.Props.SigmaProps
import Mathlib.Analysis.Real.Sqrt

/-! A whole `fit` on valid data: C70. -/

set_option linter.unusedSectionVars false

namespace Bart
open Spec
variable {n p : Nat} {X : Fin n → Fin p → Fl ℝ}

/-- The settings under which nothing goes wrong. -/
structure ValidSettings (s : SkModel ℝ p) : Prop where
  trees : 0 < s.nTrees
  chains : 0 < s.nChains
  thin : s.thin ≠ 0
  grow : s.pGrow ≠ 0
  prune : s.pPrune ≠ 0
  priorA : 0 ≤ s.sigmaA
  priorB : 0 ≤ s.sigmaB

/-- A model in the course of a chain of `s`. -/
def OnTheWay (s : SkModel ℝ p) (X : Fin n → Fin p → Fl ℝ) (y : Fin n → ℝ) (m : BModel ℝ n p) : Prop :=
  ∃ m0 k, FreshModel X y m0 ∧ ModelRun s.pGrow s.pPrune m0 k m ∧ 0 < m0.sigma.current ∧ 0 < m0.k ∧ 0 < m0.nTrees ∧ 0 ≤ m0.sigma.alpha ∧ 0 ≤ m0.sigma.beta

theorem constructModel_ok (hn : 0 < n) (hp : 0 < p) {y : Fin n → ℝ} {a b : Fin n} (hy : y a ≠ y b) {s : SkModel ℝ p} (hs : ValidSettings s) :
    ∃ d m, s.constructModel X y = .ok (d, m) ∧ OnTheWay s X y m := by
  obtain ⟨d, lo, hi, e1, -, -, -, -, e2, -⟩ := C10_unnormalise (X := X) (mask := none) a b hy
  obtain ⟨m, -, -, e3, -⟩ := construct_inv (N := False) (X := X) (by simp) e1 { alpha := s.sigmaA, beta := s.sigmaB, current := 1, scalingFactor := hi - lo } s.nTrees s.alpha s.beta 2
  have h : s.constructModel X y = .ok (d, m) := by
    unfold SkModel.constructModel SkModel.convertData
    rw [if_neg (by omega)]
    simp only [e1, e2, e3]
  obtain ⟨-, -, -, hf, -, h1, -, -, h2, h3, h4, h5, -⟩ := constructModel_spec h
  exact ⟨d, m, h, m, 0, hf, .nil m, by rw [h5]; norm_num, by rw [h2]; norm_num, by rw [h1]; exact hs.trees, by rw [h3]; exact hs.priorA, by rw [h4]; exact hs.priorB⟩

/-- C99: the model that a chain of the estimator works on has, at every time of the chain, the settings of the estimator: the number of trees, the tree prior `alpha`, `beta`, the prior of sigma with shape `sigma_a` and
rate `sigma_b`; `k` is 2, and sigma is reported in units of the range of the target. -/
theorem C99_settings {K : Type} [Field K] [LinearOrder K] [IsStrictOrderedRing K] [MathFns K] [FloorRing K] {X : Fin n → Fin p → Fl K} (hX : NoNan X) {s : SkModel K p} (hp1 : s.pGrow ≠ 0) (hp2 : s.pPrune ≠ 0)
    {y : Fin n → K} {d : Data K n p} {m0 m : BModel K n p} {k : Nat} (h : s.constructModel X y = .ok (d, m0)) (hR : ModelRun s.pGrow s.pPrune m0 k m) :
    m.trees.length = s.nTrees ∧ m.nTrees = s.nTrees ∧ m.alpha = s.alpha ∧ m.beta = s.beta ∧ m.k = 2 ∧ m.sigma.alpha = s.sigmaA ∧ m.sigma.beta = s.sigmaB ∧
      m.sigma.scalingFactor = m0.sigma.scalingFactor ∧ m.data = d ∧ (k = 0 → m.sigma.current = 1) := by
  obtain ⟨-, -, -, hF, h1, h2, h3, h4, h5, h6, h7, h8, -⟩ := constructModel_spec h
  obtain ⟨y', -, hI, i1, i2, i3, i4, i5, v, i6⟩ := reachable_model_inv (N := False) hX (by simp) hp1 hp2 hF hR
  refine ⟨by rw [hI.len, i5, h2], by rw [i5, h2], by rw [i2, h3], by rw [i3, h4], by rw [i4, h5], by rw [i6, h6], by rw [i6, h7], by rw [i6], by rw [i1, h1], ?_⟩
  intro hk
  have : ∀ {k : Nat} {m0 m : BModel K n p}, ModelRun s.pGrow s.pPrune m0 k m → k = 0 → m.sigma = m0.sigma := by
    intro k m0 m hR
    induction hR with
    | nil => intro _; rfl
    | sweep => intro h; omega
    | predict _ e ih =>
      intro h
      rw [← ih h]
      unfold BModel.predict at e
      split at e
      · cases e
      · injection e with e; injection e with e1 e2; rw [← e2]
    | residuals _ e ih =>
      intro h
      rw [← ih h]
      unfold BModel.residuals BModel.predict at e
      split at e
      · cases e
      · next e' =>
        split at e'
        · cases e'
        · injection e' with e'; injection e' with e1 e2
          split at e
          · cases e
          · injection e with e; injection e with e3 e4; rw [← e4, ← e2]
    | copy _ ih => intro h; rw [← ih h]; rfl
  rw [this hR hk, h8]

/-- C36 for the estimator: at every time of a chain, the draw of sigma is from the posterior of the variance under the inverse gamma prior with shape `sigma_a` and rate `sigma_b`. -/
theorem C36_estimator (hX : NoNan X) {s : SkModel ℝ p} (hp1 : s.pGrow ≠ 0) (hp2 : s.pPrune ≠ 0) (ha : 0 < s.sigmaA) (hb : 0 < s.sigmaB)
    {y : Fin n → ℝ} {d : Data ℝ n p} {m0 m : BModel ℝ n p} {k : Nat} (h : s.constructModel X y = .ok (d, m0)) (hR : ModelRun s.pGrow s.pPrune m0 k m) :
    ∃ (res : Fin n → ℝ) (m1 : BModel ℝ n p) (a b C : ℝ) (f : ℝ → ℝ), m.residuals = .ok (res, m1) ∧ 0 < a ∧ 0 < b ∧ 0 < C ∧
      (∀ v, 0 < v → varianceJoint s.sigmaA s.sigmaB res v = C * invGammaPdf a b v) ∧
      (∀ (r : Rand ℝ) (g : ℝ), 0 < g → ∃ m', m.sigmaStep { r with gammas := g :: r.gammas } = .ok (m', r) ∧ m'.sigma.current = f g ∧ 0 < f g) ∧
      (ProbabilityTheory.gammaMeasure a b).map (fun g => f g ^ 2) = invGammaMeasure a b ∧ a = m.sigmaShape ∧ b = m.sigmaRate res := by
  obtain ⟨-, -, -, -, -, h1, h2, -⟩ := C99_settings hX hp1 hp2 h hR
  obtain ⟨-, -, -, hF, -⟩ := constructModel_spec h
  have hm : ReachableModel X m := ⟨y, s.pGrow, s.pPrune, m0, k, hp1, hp2, hF, hR⟩
  obtain ⟨res, m1, e1, e2, e3, ⟨C, e4, e5⟩, f, e6, e7⟩ := C36_sigma_posterior hX hm (by rw [h1]; exact ha) (by rw [h2]; exact hb)
  refine ⟨res, m1, _, _, C, f, e1, e2, e3, e4, by rw [h1, h2] at e5; exact e5, fun r g hg => ?_, e7, rfl, rfl⟩
  obtain ⟨m', a1, a2, a3, -⟩ := e6 r g hg
  exact ⟨m', a1, a2, a3⟩

namespace OnTheWay
variable {s : SkModel ℝ p} {y : Fin n → ℝ} {m : BModel ℝ n p}

theorem step (h : OnTheWay s X y m) {mus m' r r'} (e : m.sweep s.pGrow s.pPrune r = .ok (mus, m', r')) : OnTheWay s X y m' := by
  obtain ⟨m0, k, h1, h2, h3⟩ := h
  exact ⟨m0, k + 1, h1, .sweep h2 e, h3⟩

theorem predicts (h : OnTheWay s X y m) (hX : NoNan X) (hs : ValidSettings s) : ∃ f m', m.predict = .ok (f, m') ∧ OnTheWay s X y m' := by
  obtain ⟨m0, k, h1, h2, h3⟩ := h
  obtain ⟨y', -, hI, -⟩ := reachable_model_inv (N := False) hX (by simp) hs.grow hs.prune h1 h2
  obtain ⟨m', e, -⟩ := hI.predict hX
  exact ⟨_, m', e, m0, k, h1, .predict h2 e, h3⟩

theorem copies (h : OnTheWay s X y m) : OnTheWay s X y m.deepCopy.2 := by
  obtain ⟨m0, k, h1, h2, h3⟩ := h
  exact ⟨m0, k, h1, .copy h2, h3⟩

theorem records (h : OnTheWay s X y m) (hX : NoNan X) (hs : ValidSettings s) (c : SampleParams ℝ) : ∃ fs m', BModel.recordPrediction c m = .ok (fs, m') ∧ OnTheWay s X y m' := by
  unfold BModel.recordPrediction
  split
  · obtain ⟨f, m', e, h'⟩ := h.predicts hX hs
    rw [e]
    exact ⟨_, _, rfl, h'⟩
  · exact ⟨_, _, rfl, h⟩

theorem sweep_error (h : OnTheWay s X y m) (hX : NoNan X) (hn : 0 < n) (hs : ValidSettings s) {r : Rand ℝ} (hg : ∀ g ∈ r.gammas, 0 < g) {e : PyErr}
    (he : m.sweep s.pGrow s.pPrune r = .error e) : e = .outOfDraws := by
  obtain ⟨m0, k, h1, h2, h3, h4, h5, h6, h7⟩ := h
  exact C67_no_exception hX hn hs.grow hs.prune h1 h2 h3 h4 h5 h6 h7 r hg he

theorem sweep_ok (h : OnTheWay s X y m) (hX : NoNan X) {j : Fin p} (hj : HasTwoValues (column X (fun _ => true) j).tail) (hs : ValidSettings s) :
    ∃ (r0 : Rand ℝ) (mus : _) (m' : _), (∀ r, m.sweep s.pGrow s.pPrune (r0.append r) = .ok (mus, m', r)) ∧ OnTheWay s X y m' := by
  obtain ⟨m0, k, h1, h2, h3, h4, h5, h6, h7⟩ := h
  obtain ⟨r0, mus, m', -, e, h8⟩ := C67_returns hX hj hs.grow hs.prune h1 h2 h3 h4 h5 h6 h7 0 0 (g := 1) (by norm_num)
  exact ⟨r0, mus, m', e, m0, k + 1, h1, h8, h3, h4, h5, h6, h7⟩

end OnTheWay

theorem sweep_gammas {m m' : BModel ℝ n p} {pG pP : ℝ} {r r' : Rand ℝ} {mus} (h : m.sweep pG pP r = .ok (mus, m', r')) : ∀ g ∈ r'.gammas, g ∈ r.gammas := by
  unfold BModel.sweep at h
  split at h
  · cases h
  · next mus1 m1 r1 e1 =>
    split at h
    · cases h
    · next m2 r2 e2 =>
      injection h with h; injection h with _ h; injection h with _ h; subst h
      rw [← sweepTrees_gammas e1]
      unfold BModel.sigmaStep at e2
      split at e2
      · cases e2
      · split at e2
        · cases e2
        · split at e2
          · cases e2
          · next g gs hg =>
            split at e2
            · cases e2
            · injection e2 with e2; injection e2 with _ e2; subst e2
              intro x hx; rw [hg]; exact List.mem_cons_of_mem _ hx

/-! ### no exception -/

section errors
variable {s : SkModel ℝ p} {y : Fin n → ℝ}

theorem burn_error (hX : NoNan X) (hn : 0 < n) (hs : ValidSettings s) (k : Nat) : ∀ {m : BModel ℝ n p} {r : Rand ℝ}, OnTheWay s X y m → (∀ g ∈ r.gammas, 0 < g) →
    match BModel.burn s.sampleParams k m r with
    | .error e => e = .outOfDraws
    | .ok (m', r') => OnTheWay s X y m' ∧ ∀ g ∈ r'.gammas, 0 < g := by
  induction k with
  | zero => intro m r hm hg; exact ⟨hm, hg⟩
  | succ k ih =>
    intro m r hm hg
    unfold BModel.burn
    cases e : m.sweep s.sampleParams.pGrow s.sampleParams.pPrune r with
    | error e' => exact hm.sweep_error hX hn hs hg e
    | ok q =>
      obtain ⟨mus, m1, r1⟩ := q
      exact ih (hm.step e) (fun g hg' => hg g (sweep_gammas e g hg'))

theorem sampleLoop_error (hX : NoNan X) (hn : 0 < n) (hs : ValidSettings s) (ti : ℝ) (k : Nat) : ∀ {ss : Nat} {m : BModel ℝ n p} {r : Rand ℝ} {e : PyErr}, OnTheWay s X y m →
    (∀ g ∈ r.gammas, 0 < g) → BModel.sampleLoop s.sampleParams ti k ss m r = .error e → e = .outOfDraws := by
  induction k with
  | zero => intro ss m r e hm hg h; cases h
  | succ k ih =>
    intro ss m r e hm hg h
    unfold BModel.sampleLoop at h
    split at h
    · next e' he => injection h with h; subst h; exact hm.sweep_error hX hn hs hg he
    · next mus m1 r1 e1 =>
      have hm1 := hm.step e1
      have hg1 : ∀ g ∈ r1.gammas, 0 < g := fun g hg' => hg g (sweep_gammas e1 g hg')
      split at h
      · obtain ⟨fs, m2, e2, hm2⟩ := hm1.records hX hs s.sampleParams
        rw [e2] at h
        simp only at h
        split at h
        · next e' he => injection h with h; subst h; exact ih hm2.copies hg1 he
        · cases h
      · exact ih hm1 hg1 h

theorem runChain_error (hX : NoNan X) (hn : 0 < n) (hp : 0 < p) (hs : ValidSettings s) {a b : Fin n} (hy : y a ≠ y b) {r : Rand ℝ} (hg : ∀ g ∈ r.gammas, 0 < g) {e : PyErr}
    (h : s.runChain X y r = .error e) : e = .outOfDraws := by
  obtain ⟨d, m, e1, hm⟩ := constructModel_ok (X := X) hn hp hy hs
  unfold SkModel.runChain at h
  rw [e1] at h
  simp only at h
  split at h
  · next e' he =>
    injection h with h; subst h
    unfold BModel.samples at he
    have hb := burn_error (y := y) hX hn hs s.nBurn hm hg
    generalize BModel.burn s.sampleParams s.nBurn m r = q at he hb
    cases q with
    | error e => injection he with he; subst he; exact hb
    | ok q =>
      obtain ⟨m1, r1⟩ := q
      simp only [if_neg (show ¬ s.sampleParams.thin = 0 from hs.thin)] at he
      exact sampleLoop_error hX hn hs _ _ hb.1 hb.2 he
  · cases h

theorem runChains_error (hX : NoNan X) (hn : 0 < n) (hp : 0 < p) (hs : ValidSettings s) {a b : Fin n} (hy : y a ≠ y b) (rs : List (Rand ℝ)) (hg : ∀ r ∈ rs, ∀ g ∈ r.gammas, 0 < g) {e : PyErr}
    (h : s.runChains X y rs = .error e) : e = .outOfDraws := by
  induction rs with
  | nil => cases h
  | cons r rs ih =>
    unfold SkModel.runChains at h
    split at h
    · next e' he => injection h with h; subst h; exact runChain_error hX hn hp hs hy (hg r (by simp)) he
    · split at h
      · next e' he => injection h with h; subst h; exact ih (fun r hr => hg r (by simp [hr])) he
      · cases h

/-- C70: fitting valid data with valid settings raises no exception, for any draws in which those from the gamma distribution are positive. -/
theorem C70_no_exception (hX : NoNan X) (hn : 0 < n) (hp : 0 < p) (hs : ValidSettings s) {a b : Fin n} (hy : y a ≠ y b) (rs : Nat → Rand ℝ)
    (hg : ∀ i, ∀ g ∈ (rs i).gammas, 0 < g) {e : PyErr} (h : s.fit X y rs = .error e) : e = .outOfDraws := by
  obtain ⟨d, m, e1, hm⟩ := constructModel_ok (X := X) hn hp hy hs
  unfold SkModel.fit at h
  rw [e1] at h
  simp only at h
  split at h
  · next e' he =>
    injection h with h; subst h
    refine runChains_error hX hn hp hs hy _ ?_ he
    intro r hr
    obtain ⟨i, -, rfl⟩ := List.mem_map.1 hr
    exact hg i
  · next os e2 =>
    have hne : (List.range s.nChains).map rs ≠ [] := by
      have := hs.chains
      simp only [ne_eq, List.map_eq_nil_iff, List.range_eq_nil]
      omega
    obtain ⟨c, hc, -⟩ := C51_fit hX hs.grow hs.prune hne e2
    rw [hc] at h
    cases h

end errors

/-! ### there are draws for which `fit` returns -/

section returns
variable {s : SkModel ℝ p} {y : Fin n → ℝ}

theorem burn_exists (hX : NoNan X) {j : Fin p} (hj : HasTwoValues (column X (fun _ => true) j).tail) (hs : ValidSettings s) (k : Nat) : ∀ {m : BModel ℝ n p}, OnTheWay s X y m →
    ∃ (r0 : Rand ℝ) (m' : _), (∀ r, BModel.burn s.sampleParams k m (r0.append r) = .ok (m', r)) ∧ OnTheWay s X y m' := by
  induction k with
  | zero => intro m hm; exact ⟨⟨[], [], [], [], []⟩, m, fun r => rfl, hm⟩
  | succ k ih =>
    intro m hm
    obtain ⟨r0, mus, m1, e, h1⟩ := hm.sweep_ok hX hj hs
    obtain ⟨r1, m2, e1, h2⟩ := ih h1
    refine ⟨r0.append r1, m2, fun r => ?_, h2⟩
    unfold BModel.burn
    have e' := e (r1.append r)
    rw [← Rand.append_assoc] at e'
    have : m.sweep s.sampleParams.pGrow s.sampleParams.pPrune ((r0.append r1).append r) = _ := e'
    rw [this]
    exact e1 r

theorem sampleLoop_exists (hX : NoNan X) {j : Fin p} (hj : HasTwoValues (column X (fun _ => true) j).tail) (hs : ValidSettings s) (ti : ℝ) (k : Nat) : ∀ {ss : Nat} {m : BModel ℝ n p},
    OnTheWay s X y m → ∃ (r0 : Rand ℝ) (ch : _) (m' : _), ∀ r, BModel.sampleLoop s.sampleParams ti k ss m (r0.append r) = .ok (ch, m', r) := by
  induction k with
  | zero => intro ss m hm; exact ⟨⟨[], [], [], [], []⟩, _, m, fun r => rfl⟩
  | succ k ih =>
    intro ss m hm
    obtain ⟨r0, mus, m1, e, h1⟩ := hm.sweep_ok hX hj hs
    have e' : ∀ r1 r : Rand ℝ, m.sweep s.sampleParams.pGrow s.sampleParams.pPrune ((r0.append r1).append r) = .ok (mus, m1, r1.append r) := by
      intro r1 r
      rw [Rand.append_assoc]; exact e _
    by_cases hmod : pyMod (ss : ℝ) ti = 0
    · obtain ⟨fs, m2, e2, h2⟩ := h1.records hX hs s.sampleParams
      obtain ⟨r1, ch, m3, e3⟩ := ih (ss := ss + 1) h2.copies
      refine ⟨r0.append r1, ⟨m2.deepCopy.1 :: ch.model, (if s.sampleParams.storeAcceptance then [BModel.acceptance mus] else []) ++ ch.acceptance, fs ++ ch.predictions⟩, m3, fun r => ?_⟩
      unfold BModel.sampleLoop
      simp only [e' r1 r, if_pos hmod, e2, e3]
    · obtain ⟨r1, ch, m3, e3⟩ := ih (ss := ss + 1) h1
      refine ⟨r0.append r1, ch, m3, fun r => ?_⟩
      unfold BModel.sampleLoop
      simp only [e' r1 r, if_neg hmod, e3]

/-- C70: and if some column has two values after the first row (see C27), then `fit` does return for suitable draws. -/
theorem C70_returns (hX : NoNan X) {j : Fin p} (hj : HasTwoValues (column X (fun _ => true) j).tail) (hs : ValidSettings s) {a b : Fin n} (hy : y a ≠ y b) :
    ∃ rs s', s.fit X y rs = .ok s' := by
  obtain ⟨d, m, e1, hm⟩ := constructModel_ok (X := X) a.pos j.pos hy hs
  obtain ⟨r0, m1, e2, h1⟩ := burn_exists hX hj hs s.nBurn hm
  obtain ⟨r1, ch, m2, e3⟩ := sampleLoop_exists hX hj hs (1 / s.thin) s.nSamples (ss := 0) h1
  have hch : ∃ o, s.runChain X y (r0.append (r1.append ⟨[], [], [], [], []⟩)) = .ok o := by
    refine ⟨⟨n, m2, ch⟩, ?_⟩
    unfold SkModel.runChain
    simp only [e1]
    have : m.samples s.sampleParams s.nSamples s.nBurn (r0.append (r1.append ⟨[], [], [], [], []⟩)) = .ok (ch, m2, ⟨[], [], [], [], []⟩) := by
      unfold BModel.samples
      simp only [e2, if_neg (show ¬ s.sampleParams.thin = 0 from hs.thin)]
      exact e3 _
    rw [this]
  obtain ⟨o, ho⟩ := hch
  have hall : ∀ k : Nat, s.runChains X y (List.replicate k (r0.append (r1.append ⟨[], [], [], [], []⟩))) = .ok (List.replicate k o) := by
    intro k
    induction k with
    | zero => rfl
    | succ k ih =>
      rw [List.replicate_succ, List.replicate_succ]
      unfold SkModel.runChains
      simp only [ho, ih]
  have hne : List.replicate s.nChains (r0.append (r1.append ⟨[], [], [], [], []⟩)) ≠ [] := by
    have := hs.chains
    simp only [ne_eq, List.replicate_eq_nil_iff]
    omega
  obtain ⟨c, hc, -⟩ := C51_fit hX hs.grow hs.prune hne (hall s.nChains)
  refine ⟨fun _ => r0.append (r1.append ⟨[], [], [], [], []⟩), ?_⟩
  unfold SkModel.fit
  have hmap : (List.range s.nChains).map (fun _ => r0.append (r1.append ⟨[], [], [], [], []⟩)) = List.replicate s.nChains (r0.append (r1.append ⟨[], [], [], [], []⟩)) := by simp
  simp only [e1, hmap, hall, hc]
  exact ⟨_, rfl⟩

end returns

/-- The default settings, but with 2 trees, 2 chains and short runs. -/
noncomputable def exSkReal (store : Bool) : SkModel ℝ 1 :=
  ⟨2, 2, 1/1000, 1/1000, 3, 1, 1/2, 95/100, 2, store, true, 1/2, 1/2, none, none, none, none⟩

theorem exSkReal_valid (store : Bool) : ValidSettings (exSkReal store) := by
  constructor <;> norm_num [exSkReal]

/-- The rows 0, 1, 2 with target 0, 1, 2 can be fitted. -/
theorem exists_fit (store : Bool) : ∃ rs s', (exSkReal store).fit (rampX 3) (fun r => (r.val : ℝ)) rs = .ok s' := by
  have hj : HasTwoValues (column (rampX 3) (fun _ => true) 0).tail := by
    refine (isNotConstant_noNan ?_).1 (ramp_splittable ?_)
    · intro x hx; obtain ⟨r, -, hr⟩ := mem_column.1 hx; rw [← hr]; exact rampX_noNan 3 r 0
    · simp [count]
  exact C70_returns (rampX_noNan 3) hj (exSkReal_valid store) (a := 0) (b := 1) (by norm_num)

/-- C99, C36, the example: a model at the start of a chain, and one after a sweep. -/
example (store : Bool) : ∃ d m0, (exSkReal store).constructModel (rampX 3) (fun r => (r.val : ℝ)) = .ok (d, m0) ∧
    ∃ m, ModelRun (exSkReal store).pGrow (exSkReal store).pPrune m0 1 m := by
  obtain ⟨d, m0, e, -⟩ := constructModel_ok (n := 3) (p := 1) (X := rampX 3) (by norm_num) (by norm_num) (y := fun r => (r.val : ℝ)) (a := 0) (b := 1) (by norm_num) (exSkReal_valid store)
  refine ⟨d, m0, e, ?_⟩
  obtain ⟨-, -, -, hF, -, h1, -, -, h2, h3, h4, h5, -⟩ := constructModel_spec e
  have hv := exSkReal_valid store
  have hj : HasTwoValues (column (rampX 3) (fun _ => true) 0).tail := by
    refine (isNotConstant_noNan ?_).1 (ramp_splittable ?_)
    · intro x hx; obtain ⟨r, -, hr⟩ := mem_column.1 hx; rw [← hr]; exact rampX_noNan 3 r 0
    · simp [count]
  obtain ⟨r0, mus, m', -, -, h8⟩ := C67_returns (rampX_noNan 3) hj hv.grow hv.prune hF (.nil m0) (by rw [h5]; norm_num) (by rw [h2]; norm_num) (by rw [h1]; exact hv.trees)
    (by rw [h3]; exact hv.priorA) (by rw [h4]; exact hv.priorB) 0 0 (g := 1) (by norm_num)
  exact ⟨m', h8⟩

/-- C50, the example: a fitted model with two residuals of which one is not zero. -/
example : ∃ (rs : Nat → Rand ℝ) (s : SkModel ℝ 1) (Z : Fin 2 → Fin 1 → Fl ℝ) (y l : List ℝ), (exSkReal true).fit (rampX 3) (fun r => (r.val : ℝ)) rs = .ok s ∧
    s.residuals (some ⟨2, Z⟩) (some y) = .ok l ∧ l.length = 2 ∧ ∃ e ∈ l, e ≠ 0 := by
  obtain ⟨rs, s, h⟩ := exists_fit true
  have hs := h
  obtain ⟨d, m, os, c, e1, e2, e3, rfl⟩ := fit_spec h
  obtain ⟨-, -, hd, -⟩ := constructModel_spec e1
  have hne : c.models ≠ [] := by
    intro h0
    have hrun : ∀ os', List.Forall₂ (fun r o => (exSkReal true).runChain (rampX 3) (fun r => (r.val : ℝ)) r = .ok o) ((List.range (exSkReal true).nChains).map rs) os' →
        combineChains os' = .ok c → False := by
      intro os' h1 h2
      obtain ⟨-, -, -, l1, -⟩ := C51_combine h2
      rw [h0] at l1
      have h1' : List.Forall₂ (fun r o => (exSkReal true).runChain (rampX 3) (fun r => (r.val : ℝ)) r = .ok o) [rs 0, rs 1] os' := h1
      cases h1' with
      | cons e _ =>
        obtain ⟨-, h2, -⟩ := chain_facts (rampX_noNan 3) (exSkReal_valid true).grow (exSkReal_valid true).prune e
        have : 0 ∈ storedTimes (exSkReal true).nSamples (exSkReal true).thin := by
          unfold storedTimes
          classical
          simp only [List.mem_filter, List.mem_range, decide_eq_true_eq]
          exact ⟨by norm_num [exSkReal], 0, by simp⟩
        have := List.length_pos_of_mem this
        simp only [List.length_nil, List.map_cons, List.sum_cons] at l1
        omega
    exact hrun os e2 e3
  obtain ⟨lo, hi, ⟨r1, h1⟩, ⟨r2, h2⟩, h3, -⟩ := convertData_spec hd
  obtain ⟨f, hf, -⟩ := C48_predict hd (s := { exSkReal true with data := some ⟨3, d⟩, model := some ⟨3, m⟩, samples := some c, extract := some os }) rfl rfl hne
    (lo := lo) (hi := hi) ⟨⟨r1, h1⟩, by rintro _ ⟨r, rfl⟩; exact (h3 r).1⟩ ⟨⟨r2, h2⟩, by rintro _ ⟨r, rfl⟩; exact (h3 r).2⟩ (fun (_ : Fin 2) _ => Fl.fin 0)
  obtain ⟨l, hl, hlen, hent, -⟩ := C50_residuals hf (y := [f 0 + 1, f 1 + 2]) (by simp)
  refine ⟨rs, _, _, _, l, hs, hl, by simpa using hlen, ?_⟩
  have h0 : 0 < l.length := by rw [hlen]; simp
  refine ⟨l[0], List.getElem_mem h0, ?_⟩
  rw [hent 0 h0 (by simp) (by simp)]
  simp

end Bart
