import Verif.Props.ForestProps
import Verif.Props.InvarianceProps

/-! The diagnostic plots: C90 - C93. The residuals of a `Model` on the original scale: C94. -/

set_option linter.unusedSectionVars false

namespace Bart
open Spec
variable {K : Type} [Field K] [LinearOrder K] [IsStrictOrderedRing K] {n p : Nat} {X : Fin n → Fin p → Fl K}

/-! ### C94 -/

/-- C94: the residuals on the original scale are those on the normalised scale times the range of the target, and they are target minus prediction. -/
theorem C94_unnormalized_residuals {y : Fin n → K} {d : Data K n p} (hd : SkModel.convertData X y = .ok d) {m : BModel K n p} (hm : m.data = d) {lo hi : K} (hlo : IsLeast (Set.range y) lo)
    (hhi : IsGreatest (Set.range y) hi) {f : Fin n → K} {m1 : BModel K n p} (h : m.predict = .ok (f, m1)) :
    ∃ e : Fin n → K, m.unnormalizedResiduals = .ok (e, m1) ∧ (∀ r, e r = y r - originalScale lo hi (f r)) ∧
      ∀ {e0 : Fin n → K} {m2 : BModel K n p}, m.residuals = .ok (e0, m2) → ∀ r, e r = (hi - lo) * e0 r := by
  obtain ⟨lo', hi', ⟨r1, h1⟩, ⟨r2, h2⟩, h3, hu, hs, h4⟩ := convertData_spec hd
  have e1 : lo' = lo := le_antisymm (by obtain ⟨⟨r, hr⟩, -⟩ := hlo; rw [← hr]; exact (h3 r).1) (by rw [← h1]; exact hlo.2 ⟨r1, rfl⟩)
  have e2 : hi' = hi := le_antisymm (by rw [← h2]; exact hhi.2 ⟨r2, rfl⟩) (by obtain ⟨⟨r, hr⟩, -⟩ := hhi; rw [← hr]; exact (h3 r).2)
  subst e1 e2
  refine ⟨fun r => y r - originalScale lo' hi' (f r), ?_, fun _ => rfl, ?_⟩
  · unfold BModel.unnormalizedResiduals
    rw [hm]
    simp only [hu, h, h4]
  · intro e0 m2 he r
    unfold BModel.residuals at he
    rw [h] at he
    simp only [] at he
    split at he
    · cases he
    · next z hz =>
      injection he with he
      injection he with he _
      subst he
      have hy : y = fun r => originalScale lo' hi' (z r) := by
        have : d.y.unnormalizedY = .ok (fun r => originalScale lo' hi' (z r)) := by
          unfold Target.unnormalizedY
          rw [← hm, hz]
          simp only [hm, h4]
        rw [this] at hu
        injection hu with hu
        exact hu.symm
      simp only [congrFun hy r, originalScale]
      ring

variable [MathFns K] [FloorRing K]

/-! ### lemmas -/

theorem convertData_X {y : Fin n → K} {d : Data K n p} (h : SkModel.convertData X y = .ok d) : d.X.X = X := by
  unfold SkModel.convertData Data.init at h
  simp only [] at h
  split at h
  · cases h
  · injection h with h; rw [← h]; rfl

/-- The samples of a fitted model have a scale, and their sigma is positive if one knows that for the model. -/
theorem fit_sigma (hX : NoNan X) {s s' : SkModel K p} (hp1 : s.pGrow ≠ 0) (hp2 : s.pPrune ≠ 0) {y : Fin n → K} {rs : Nat → Rand K} (h : s.fit X y rs = .ok s') {lo hi : K}
    (hlo : IsLeast (Set.range y) lo) (hhi : IsGreatest (Set.range y) hi) :
    ∃ c, s'.samples = some c ∧ ∀ x ∈ c.models, (x.live.storedSigma x.stored).scalingFactor = hi - lo := by
  obtain ⟨d, m, os, c, e1, e2, e3, rfl⟩ := fit_spec h
  obtain ⟨c1, -⟩ := C51_combine e3
  refine ⟨c, rfl, ?_⟩
  rw [c1]
  clear e3 c1 h
  generalize (List.range s.nChains).map rs = rl at e2
  induction e2 with
  | nil => simp
  | @cons r o _ _ e _ ih =>
    intro x hx
    rw [List.flatMap_cons, List.mem_append] at hx
    rcases hx with hx | hx
    · obtain ⟨d, m, m', ch, r', e1, e2, rfl⟩ := runChain_spec e
      obtain ⟨hn0, -, hd, hf, -, hnt, -, -, -, -, -, -, hsc⟩ := constructModel_spec e1
      have hm : ReachableModel X m := ⟨y, s.pGrow, s.pPrune, m, 0, hp1, hp2, hf, .nil m⟩
      obtain ⟨-, h2, -, -, h5⟩ := C44_samples hX (c := s.sampleParams) hm hp1 hp2 e2
      obtain ⟨st, hst, rfl⟩ := List.mem_map.1 hx
      obtain ⟨i, hlt, rfl⟩ := List.getElem_of_mem hst
      obtain ⟨st, m0, r0, mus, M, rM, k1, k2, k3, -, k5, -⟩ := h5 i ((storedTimes s.nSamples s.sampleParams.thin)[i]'(by rw [← h2]; exact hlt)) (by simp)
      rw [List.getElem?_eq_getElem hlt, Option.some.injEq] at k1
      subst k1
      rw [k5]
      obtain ⟨y', -, -, -, -, -, -, -, v, hv⟩ := reachable_model_inv (N := False) hX (by simp) hp1 hp2 hf (.sweep k2.run k3)
      rw [hv]
      obtain ⟨lo', hi', ⟨r1, h1⟩, ⟨r2, h2⟩, h3, -, hs, -⟩ := convertData_spec hd
      rw [hsc] at hs
      injection hs with hs
      have e1 : lo' = lo := le_antisymm (by obtain ⟨⟨r, hr⟩, -⟩ := hlo; rw [← hr]; exact (h3 r).1) (by rw [← h1]; exact hlo.2 ⟨r1, rfl⟩)
      have e2 : hi' = hi := le_antisymm (by rw [← h2]; exact hhi.2 ⟨r2, rfl⟩) (by obtain ⟨⟨r, hr⟩, -⟩ := hhi; rw [← hr]; exact (h3 r).2)
      rw [← e1, ← e2]
      exact hs
    · exact ih x hx

/-! ### C90 -/

/-- C90, what `plot_sigma_convergence` shows: one value for each sample, in order, which is the noise level of the sample in the units of the target divided by the range of the target. -/
theorem C90_shown_partial (hX : NoNan X) {s s' : SkModel K p} (hp1 : s.pGrow ≠ 0) (hp2 : s.pPrune ≠ 0) {y : Fin n → K} {rs : Nat → Rand K} (h : s.fit X y rs = .ok s') {lo hi : K}
    (hlo : IsLeast (Set.range y) lo) (hhi : IsGreatest (Set.range y) hi) :
    ∃ c l, s'.samples = some c ∧ plotSigmaConvergence s' = .ok l ∧ l.map (fun v => v * (hi - lo)) = c.models.map (fun x => (x.live.storedSigma x.stored).unnormalized) := by
  obtain ⟨c, hc, hall⟩ := fit_sigma hX hp1 hp2 h hlo hhi
  refine ⟨c, c.models.map Sample.sigmaValue, hc, by simp [plotSigmaConvergence, hc], ?_⟩
  rw [List.map_map]
  refine List.map_congr_left fun x hx => ?_
  simp only [Function.comp, Sample.sigmaValue, Sigma.unnormalized, hall x hx]

/-- C90 is false: in whatever units the target is given, the curve is the same. -/
theorem C90_refuted {a : K} (ha : 0 < a) (b : K) (s : SkModel K p) (X : Fin n → Fin p → Fl K) (y : Fin n → K) (rs : Nat → Rand K) :
    SameUpTo (fun s1 s2 => plotSigmaConvergence s2 = plotSigmaConvergence s1) (s.fit X y rs) (s.fit X (rescaled a b y) rs) := by
  have h := (affineTrans p a b).fit_map s (affine_dataMap ha b X y) rs
  rw [affine_mat] at h
  rw [h]
  refine sameUpTo_map _ (fun s1 => ?_) _
  unfold plotSigmaConvergence
  cases hc : s1.samples with
  | none => simp [Trans.fitted, hc]
  | some c =>
    simp only [Trans.fitted, hc, Option.map_some, Trans.combined, List.map_map]
    congr 1
    refine List.map_congr_left fun x _ => ?_
    obtain ⟨q, live, st⟩ := x
    simp only [Function.comp, Trans.sample, Sample.sigmaValue, BModel.storedSigma, Trans.stored]
    cases st.sigma <;> rfl

/-! ### C91 -/

theorem DecTree.mem_depths {D : DecTree K p} : ∀ {k : Nat}, k ∈ D.depths k ∧ k + D.height ∈ D.depths k ∧ ∀ d ∈ D.depths k, k ≤ d ∧ d ≤ k + D.height := by
  induction D with
  | leaf v => intro k; simp [DecTree.depths, DecTree.height]
  | node j cut l r ihl ihr =>
    intro k
    obtain ⟨-, l2, l3⟩ := ihl (k := k + 1)
    obtain ⟨-, r2, r3⟩ := ihr (k := k + 1)
    simp only [DecTree.depths, DecTree.height, List.mem_cons, List.mem_append]
    refine ⟨.inl trivial, ?_, ?_⟩
    · rcases le_total l.height r.height with hh | hh
      · rw [max_eq_right hh, show k + (r.height + 1) = k + 1 + r.height by omega]; exact .inr (.inr r2)
      · rw [max_eq_left hh, show k + (l.height + 1) = k + 1 + l.height by omega]; exact .inr (.inl l2)
    · have h1 := le_max_left l.height r.height
      have h2 := le_max_right l.height r.height
      rintro d (rfl | h | h)
      · omega
      · have := l3 d h; omega
      · have := r3 d h; omega

/-- The height of the highest of the trees. -/
def Spec.forestHeight (F : List (DecTree K p)) : Nat := (F.map DecTree.height).foldr max 0

theorem forestHeight_spec : ∀ {F : List (DecTree K p)}, (∀ D ∈ F, D.height ≤ forestHeight F) ∧ (F ≠ [] → ∃ D ∈ F, D.height = forestHeight F) := by
  intro F
  induction F with
  | nil => simp
  | cons D F ih =>
    obtain ⟨i1, i2⟩ := ih
    have e : forestHeight (D :: F) = max D.height (forestHeight F) := rfl
    rw [e]
    refine ⟨?_, fun _ => ?_⟩
    · intro D' hD'
      rcases List.mem_cons.1 hD' with rfl | hD'
      · exact le_max_left _ _
      · exact (i1 D' hD').trans (le_max_right _ _)
    · rcases le_total (forestHeight F) D.height with hh | hh
      · exact ⟨D, by simp, by rw [max_eq_left hh]⟩
      · by_cases hF : F = []
        · subst hF; exact ⟨D, by simp, by simp [forestHeight]⟩
        · obtain ⟨D', h1, h2⟩ := i2 hF
          exact ⟨D', by simp [h1], by rw [h2, max_eq_right hh]⟩

theorem depthSummary_forest {F : List (DecTree K p)} (hF : F ≠ []) {l : List Nat} (hl : l.Perm (F.flatMap (fun D => D.depths 0))) :
    depthSummary (K := K) l = .ok (0, mean ((F.flatMap (fun D => D.depths 0)).map (fun d : Nat => (d : K))), forestHeight F) := by
  have m1 : l.min? = some 0 := by
    rw [List.min?_eq_some_iff]
    refine ⟨?_, fun b _ => Nat.zero_le b⟩
    obtain ⟨D, F', rfl⟩ := List.exists_cons_of_ne_nil hF
    rw [hl.mem_iff, List.flatMap_cons]
    exact List.mem_append_left _ DecTree.mem_depths.1
  have m2 : l.max? = some (forestHeight F) := by
    rw [List.max?_eq_some_iff]
    constructor
    · obtain ⟨D, h1, h2⟩ := forestHeight_spec.2 hF
      rw [hl.mem_iff, List.mem_flatMap]
      refine ⟨D, h1, ?_⟩
      have := (DecTree.mem_depths (D := D) (k := 0)).2.1
      rw [zero_add, h2] at this
      exact this
    · intro b hb
      rw [hl.mem_iff, List.mem_flatMap] at hb
      obtain ⟨D, h1, h2⟩ := hb
      have := ((DecTree.mem_depths (D := D) (k := 0)).2.2 b h2).2
      have := forestHeight_spec.1 D h1
      omega
  unfold depthSummary
  simp only [m1, m2]
  unfold mean
  rw [List.Perm.sum_eq (hl.map _), List.length_map, hl.length_eq]

/-- C91, what `plot_tree_depth` shows for a fit with at least one tree: the curve "Max Depth" is the height of the highest tree of the sample, the curve "Min Depth" is 0, the curve "Mean Depth" the mean depth of
all nodes of all trees. The trees are those that make the predictions (C88). -/
theorem C91_shown_partial (hX : NoNan X) {s s' : SkModel K p} (hp1 : s.pGrow ≠ 0) (hp2 : s.pPrune ≠ 0) {y : Fin n → K} {rs : Nat → Rand K} (h : s.fit X y rs = .ok s') (hns : 0 < s.nSamples)
    (hnt : 0 < s.nTrees) {lo hi : K} (hlo : IsLeast (Set.range y) lo) (hhi : IsGreatest (Set.range y) hi) :
    ∃ forests : List (List (DecTree K p)), forests.length = s.nChains * (storedTimes s.nSamples s.thin).length ∧ (∀ F ∈ forests, F.length = s.nTrees) ∧
      (∀ (q : Nat) (Z : Fin q → Fin p → Fl K), (∀ r, GoodRow (Z r)) →
        s'.predict (some ⟨q, Z⟩) = .ok (List.ofFn (fun r => mean (forests.map (fun F => originalScale lo hi ((F.map (fun D => D.eval (Z r))).sum)))))) ∧
      plotTreeDepth s' = .ok (forests.map (fun F => (0, mean ((F.flatMap (fun D => D.depths 0)).map (fun d : Nat => (d : K))), forestHeight F))) := by
  obtain ⟨d, c, forests, hd, hd', hc, hlen, hne, hF⟩ := fit_forests hX hp1 hp2 h hns
  refine ⟨forests, by rw [← hF.length_eq, hlen], fun F hF' => (Described.all hF F hF').1, Described.predict hd hd' hc hne hF hlo hhi, ?_⟩
  unfold plotTreeDepth
  rw [hc]
  simp only []
  clear hlen hne hc
  generalize c.models = xs at hF
  induction hF with
  | nil => rfl
  | @cons x F xs Fs h _ ih =>
    rw [List.mapM_cons, ih, depthSummary_forest (by rintro rfl; have := h.len; simp at this; omega) h.depths]
    rfl

/-- C91: without trees there is no plot. -/
theorem C91_no_trees {s : SkModel K p} {c : Combined K p} (hc : s.samples = some c) (hne : c.models ≠ []) (h0 : ∀ x ∈ c.models, x.trees = []) : plotTreeDepth s = .error .valueError := by
  unfold plotTreeDepth
  rw [hc]
  obtain ⟨x, xs, e⟩ := List.exists_cons_of_ne_nil hne
  have hx := h0 x (by rw [e]; simp)
  simp only [e, List.mapM_cons]
  unfold Sample.depths
  rw [hx]
  rfl

/-! ### C92 -/

/-- C92: the plots of `diagnostics.residuals`: for each row of the training data the fitted value, which is `predict(X)`, and the difference of target and fitted value. -/
theorem C92_residual_plots (hX : NoNan X) {s s' : SkModel K p} (hp1 : s.pGrow ≠ 0) (hp2 : s.pPrune ≠ 0) {y : Fin n → K} {rs : Nat → Rand K} (h : s.fit X y rs = .ok s') (hns : 0 < s.nSamples) :
    ∃ f : Fin n → K, s'.predict (some ⟨n, X⟩) = .ok (List.ofFn f) ∧ plotQq s' = .ok (List.ofFn (fun r => y r - f r)) ∧
      plotHomoskedasity s' = .ok (List.ofFn f, List.ofFn (fun r => y r - f r)) := by
  obtain ⟨d, c, forests, hd, hd', hc, hlen, hne, hF⟩ := fit_forests hX hp1 hp2 h hns
  obtain ⟨lo, hi, ⟨r1, h1⟩, ⟨r2, h2⟩, h3, -⟩ := convertData_spec hd
  obtain ⟨f, hf, -⟩ := C48_predict hd (s := s') hd' hc hne (lo := lo) (hi := hi) ⟨⟨r1, h1⟩, by rintro _ ⟨r, rfl⟩; exact (h3 r).1⟩ ⟨⟨r2, h2⟩, by rintro _ ⟨r, rfl⟩; exact (h3 r).2⟩ X
  have hres : s'.residuals (some ⟨n, X⟩) none = .ok (List.ofFn (fun r => y r - f r)) := by
    rw [C50_training_target h]
    unfold SkModel.residuals npSub
    simp only [hf, List.length_ofFn, if_true]
    congr 1
    apply List.ext_getElem <;> simp
  have hX' : s'.trainingX = .ok ⟨n, X⟩ := by
    unfold SkModel.trainingX
    simp only [hd', convertData_X hd]
  refine ⟨f, hf, ?_, ?_⟩
  · unfold plotQq
    simp only [hX', hres]
  · unfold plotHomoskedasity
    simp only [hX', hf, hres]

/-- C92: the acceptance curve: with `store_acceptance_trace` one point for each sample, between 0 and 1. -/
theorem C92_acceptance_plot (hX : NoNan X) {s s' : SkModel K p} (hp1 : s.pGrow ≠ 0) (hp2 : s.pPrune ≠ 0) {y : Fin n → K} {rs : Nat → Rand K} (h : s.fit X y rs = .ok s') (hnt : 0 < s.nTrees) :
    ∃ (c : Combined K p) (l : List K), s'.samples = some c ∧ plotAcceptanceRate s' = .ok (l.map some) ∧ (s.storeAcceptance = true → l.length = c.models.length) ∧ ∀ a ∈ l, 0 ≤ a ∧ a ≤ 1 := by
  obtain ⟨d, m, os, c, e1, e2, e3, rfl⟩ := fit_spec h
  obtain ⟨c1, c2, -, l1, -⟩ := C51_combine e3
  have key : ∀ o ∈ os, ∃ l : List K, o.chain.acceptance = l.map some ∧ (s.storeAcceptance = true → l.length = o.chain.model.length) ∧ ∀ a ∈ l, 0 ≤ a ∧ a ≤ 1 := by
    clear e3 c1 c2 l1 h
    generalize (List.range s.nChains).map rs = rl at e2
    induction e2 with
    | nil => simp
    | @cons r o _ _ e _ ih =>
      intro o' ho
      rcases List.mem_cons.1 ho with rfl | ho
      · obtain ⟨-, -, f3, -⟩ := chain_facts hX hp1 hp2 e
        obtain ⟨d, m, m', ch, r', e1, e2, rfl⟩ := runChain_spec e
        obtain ⟨hn0, -, hd, hf, -, hnt', -⟩ := constructModel_spec e1
        have hm : ReachableModel X m := ⟨y, s.pGrow, s.pPrune, m, 0, hp1, hp2, hf, .nil m⟩
        obtain ⟨-, h2, -, -, h5⟩ := C44_samples hX (c := s.sampleParams) hm hp1 hp2 e2
        simp only [] at f3 ⊢
        by_cases hst : s.storeAcceptance = true
        · rw [if_pos hst] at f3
          have hall : ∀ (o : Option K), o ∈ ch.acceptance → ∃ a : K, o = some a ∧ 0 ≤ a ∧ a ≤ 1 := by
            intro o ho
            obtain ⟨i, hi, rfl⟩ := List.getElem_of_mem ho
            have hi' : i < (storedTimes s.nSamples s.sampleParams.thin).length := by rw [← h2, ← f3]; exact hi
            obtain ⟨st, m0, r0, mus, M, rM, k1, k2, k3, -, -, -, k7, -⟩ := h5 i ((storedTimes s.nSamples s.sampleParams.thin)[i]'hi') (by simp)
            have := k7 hst
            rw [List.getElem?_eq_getElem hi, Option.some.injEq] at this
            have hr : ReachableModel X m0 := ⟨y, s.pGrow, s.pPrune, m, _, hp1, hp2, hf, k2.run⟩
            obtain ⟨-, -, -, -, -, -, -, hn, -⟩ := reachable_model_inv (N := False) hX (by simp) hp1 hp2 hf k2.run
            obtain ⟨a, a1, -, a3, a4⟩ := C45_acceptance hX hn0 hr (by rw [hn, hnt']; exact hnt) hp1 hp2 k3
            exact ⟨a, by rw [this, a1], a3, a4⟩
          obtain ⟨l, hl⟩ := forall₂_of_forall hall
          have q : ch.acceptance = l.map some ∧ ∀ a ∈ l, 0 ≤ a ∧ a ≤ 1 := by
            clear hall f3 h5
            generalize ch.acceptance = as at hl
            induction hl with
            | nil => simp
            | cons h _ ih =>
              refine ⟨by rw [List.map_cons, ← ih.1, h.1], ?_⟩
              intro a ha
              rcases List.mem_cons.1 ha with rfl | ha
              · exact h.2
              · exact ih.2 a ha
          exact ⟨l, q.1, fun _ => by rw [← f3, q.1]; simp, q.2⟩
        · rw [if_neg hst] at f3
          exact ⟨[], by rw [List.length_eq_zero_iff.1 f3]; rfl, fun h => absurd h hst, by simp⟩
      · exact ih o' ho
  have key2 : ∃ l : List K, os.flatMap (fun o => o.chain.acceptance) = l.map some ∧ (s.storeAcceptance = true → l.length = (os.map (fun o => o.chain.model.length)).sum) ∧ ∀ a ∈ l, 0 ≤ a ∧ a ≤ 1 := by
    clear e2 e3 c1 c2 l1 h
    induction os with
    | nil => exact ⟨[], by simp⟩
    | cons o os ih =>
      obtain ⟨l, a1, a2, a3⟩ := key o (by simp)
      obtain ⟨l', b1, b2, b3⟩ := ih (fun o ho => key o (by simp [ho]))
      refine ⟨l ++ l', by rw [List.flatMap_cons, a1, b1, List.map_append], fun hst => by simp [a2 hst, b2 hst], ?_⟩
      intro a ha
      rcases List.mem_append.1 ha with ha | ha
      · exact a3 a ha
      · exact b3 a ha
  obtain ⟨l, a1, a2, a3⟩ := key2
  refine ⟨c, l, rfl, ?_, fun hst => by rw [a2 hst, l1], a3⟩
  unfold plotAcceptanceRate
  simp only []
  rw [c2, a1]

/-! ### C93 -/

/-- C93 is false: `plot_residuals` and `plot_modelled_against_actual` raise AttributeError for each model, fitted or not. -/
theorem C93_refuted (s : SkModel K p) : plotResiduals s = .error .attributeError ∧ plotModelledAgainstActual s = .error .attributeError := by
  have h : s.dataUnnormalizedY dataAttributes = .error .attributeError := by
    unfold SkModel.dataUnnormalizedY
    split
    · rfl
    · rw [if_neg (by decide)]
  unfold plotResiduals plotModelledAgainstActual plotResidualsWith plotModelledAgainstActualWith
  rw [h]
  exact ⟨rfl, rfl⟩

/-- C93 (partial), the missing attribute is the only fault: if `Data` had it, the first plot would show for each row of the training data the target minus the fitted value `predict()`, the second one the
targets and the fitted values. Missing: the class does not have it (`C93_refuted`). -/
theorem C93_with_attribute_partial {s s' : SkModel K p} {y : Fin n → K} {rs : Nat → Rand K} (h : s.fit X y rs = .ok s') {f : Fin n → K} (hf : s'.predict none = .ok (List.ofFn f)) {attributes : List String}
    (ha : "unnormalized_y" ∈ attributes) :
    plotResidualsWith attributes s' = .ok (List.ofFn (fun r => y r - f r)) ∧ plotModelledAgainstActualWith attributes s' = .ok (List.ofFn y, List.ofFn f) := by
  have hy : s'.dataUnnormalizedY attributes = .ok (List.ofFn y) := by
    obtain ⟨d, m, os, c, e1, e2, e3, rfl⟩ := fit_spec h
    obtain ⟨-, -, hd, -⟩ := constructModel_spec e1
    obtain ⟨-, -, -, -, -, hu, -⟩ := convertData_spec hd
    unfold SkModel.dataUnnormalizedY
    simp only [if_pos ha, hu]
  unfold plotResidualsWith plotModelledAgainstActualWith
  simp only [hy, hf]
  refine ⟨?_, trivial⟩
  unfold npSub
  rw [if_pos (by simp)]
  congr 1
  apply List.ext_getElem <;> simp

/-- C93, before a fit: the five diagnostic plots raise an exception. -/
theorem C93_unfitted_partial {s : SkModel K p} (hd : s.data = none) : plotDiagnostics s = .error .attributeError := by
  unfold plotDiagnostics plotQq SkModel.trainingX
  rw [hd]

/-! ### examples and the refutation of C91 -/

section ex
attribute [local instance] exFns

/-- C93, the example: a fit with stored predictions; with the attribute the second plot shows the targets 0, 1, 2. -/
example : (match exFit true with
    | .ok s =>
      match s.predict none, plotResidualsWith ["unnormalized_y"] s, plotModelledAgainstActualWith ["unnormalized_y"] s, plotResiduals s with
      | .ok f, .ok e, .ok q, .error .attributeError => decide (f.length = 3 ∧ q = ([0, 1, 2], f) ∧ e = List.zipWith (fun a b => a - b) [0, 1, 2] f)
      | _, _, _, _ => false
    | .error _ => false) = true := by
  decide +kernel

/-- C91 is false: a fit in which all trees of all samples have height 1 (three nodes each), while the curve "Min Depth" is 0 and "Mean Depth" is 2/3. -/
theorem C91_refuted : ∃ s c, exFit true = .ok s ∧ s.samples = some c ∧ c.models.length = 4 ∧ (∀ x ∈ c.models, x.trees.map (fun t => t.nodes.map (fun i => (t.heap.node i).depth)) = [[1, 1, 0], [1, 1, 0]]) ∧
    plotTreeDepth s = .ok (List.replicate 4 (0, 2/3, 1)) := by
  have h : (match exFit true with
    | .ok s => (match s.samples with
      | some c => decide (c.models.length = 4 ∧ (∀ x ∈ c.models, x.trees.map (fun t => t.nodes.map (fun i => (t.heap.node i).depth)) = [[1, 1, 0], [1, 1, 0]]) ∧
          plotTreeDepth s = .ok (List.replicate 4 (0, 2/3, 1)))
      | none => false)
    | .error _ => false) = true := by
    decide +kernel
  split at h
  · next s hs =>
    split at h
    · next c hc => exact ⟨s, c, hs, hc, of_decide_eq_true h⟩
    · cases h
  · cases h

/-- C90, C92: the plots of the fitted example, and the sigma plot for a target ten times as large. -/
example : (match exFit true, (exSk true).fit exX (rescaled 10 3 exY) exRs with
    | .ok s, .ok s2 => (match plotDiagnostics s with
      | .ok (qq, depth, sig, (f, res), acc) => decide (qq.length = 3 ∧ depth.length = 4 ∧ sig = [1/3, 1/5, 1/3, 1/5] ∧ plotSigmaConvergence s2 = .ok sig ∧
          List.zipWith (· + ·) f res = List.ofFn exY ∧ res = qq ∧ acc.length = 4)
      | .error _ => false)
    | _, _ => false) = true ∧ (0 : ℚ) < 10 ∧ NoNan exX ∧ (exSk true).pGrow ≠ 0 ∧ (exSk true).pPrune ≠ 0 ∧ 0 < (exSk true).nSamples ∧ 0 < (exSk true).nTrees := by
  refine ⟨by decide +kernel, by norm_num, by unfold NoNan; decide +kernel, by decide +kernel, by decide +kernel, by decide, by decide⟩

/-- C94, the example: the residuals of the model before sampling, whose prediction is 0 on the normalised scale. -/
example : (match (exSk true).constructModel exX exY with
    | .ok (_, m) => (match m.predict, m.residuals, m.unnormalizedResiduals with
      | .ok _, .ok (e0, _), .ok (e, _) => decide (List.ofFn e0 = [-1/2, 0, 1/2] ∧ List.ofFn e = [-1, 0, 1])
      | _, _, _ => false)
    | .error _ => false) = true := by
  decide +kernel

end ex

end Bart
