import Verif.Props.RatioProps
import Verif.Proofs.Bayes
import Verif.Proofs.ModelInv

/-! Property theorems C30, C34, C35 (likelihood ratio, depth prior, leaf posterior), over the reals. -/

set_option linter.unusedSectionVars false

namespace Bart
open Spec Lik Sampler ProbabilityTheory MeasureTheory
variable {n p : Nat} {X : Fin n → Fin p → Fl ℝ}

/-! ### C30

Full statement: the likelihood ratio of a grow is the log ratio of the marginal likelihoods of the two children and of the leaf. It is false
(`C30_refuted`): in four places `log_grow_ratio` uses the prior standard deviation where the formula has the prior variance. -/

theorem split_counts (y : Fin n → ℝ) (rows c : Fin n → Bool) :
    count rows = count (fun r => rows r && c r) + count (fun r => rows r && !c r) ∧
    sqs y rows = sqs y (fun r => rows r && c r) + sqs y (fun r => rows r && !c r) := by
  have e1 : ∀ f : Fin n → ℝ, ∑ r with rows r = true, f r = ∑ r with (rows r && c r) = true, f r + ∑ r with (rows r && !c r) = true, f r := by
    intro f
    rw [← Finset.sum_filter_add_sum_filter_not (Finset.univ.filter (fun r => rows r = true)) (fun r => c r = true)]
    rw [Finset.filter_filter, Finset.filter_filter]
    simp
  refine ⟨?_, e1 _⟩
  have := e1 (fun _ => 1)
  simp only [Finset.sum_const, nsmul_eq_mul, mul_one] at this
  unfold count
  exact_mod_cast this

/-- The error of `log_grow_ratio`: `n`, `nl`, `nr` rows with target sums `s`, `sl`, `sr` in the leaf and in the children, standard deviations `sigma`
and `tau`. -/
noncomputable def growRatioError (sigma tau n nl nr s sl sr : ℝ) : ℝ :=
  Real.log ((sigma ^ 2 + n * tau) / (sigma ^ 2 + n * tau ^ 2)) / 2 +
    tau ^ 2 / (2 * sigma ^ 2) *
      (sl ^ 2 * (1 / (sigma ^ 2 + nl * tau) - 1 / (sigma ^ 2 + nl * tau ^ 2)) + sr ^ 2 * (1 / (sigma ^ 2 + nr * tau) - 1 / (sigma ^ 2 + nr * tau ^ 2)) -
        s ^ 2 * (1 / (sigma ^ 2 + n * tau) - 1 / (sigma ^ 2 + n * tau ^ 2)))

/-- What `log_grow_ratio` computes, in terms of the right answer. -/
theorem growRatio_eq {sigma tau : ℝ} (hs : 0 < sigma) (ht : 0 < tau) (y : Fin n → ℝ) (rows c : Fin n → Bool) :
    growRatio sigma tau (count rows) (count (fun r => rows r && c r)) (count (fun r => rows r && !c r)) (total y rows) (total y (fun r => rows r && c r))
      (total y (fun r => rows r && !c r)) =
    logMarginalRatio sigma tau y rows (fun r => rows r && c r) (fun r => rows r && !c r) +
      growRatioError sigma tau (count rows) (count (fun r => rows r && c r)) (count (fun r => rows r && !c r)) (total y rows)
        (total y (fun r => rows r && c r)) (total y (fun r => rows r && !c r)) := by
  obtain ⟨hc, hq⟩ := split_counts y rows c
  rw [logMarginalRatio_eq hs ht y rows hc hq]
  unfold growRatio growRatioError
  generalize total y rows = s
  generalize total y (fun r => rows r && c r) = sl
  generalize total y (fun r => rows r && !c r) = sr
  have hN : (0 : ℝ) ≤ (count rows : ℝ) := Nat.cast_nonneg _
  have hL : (0 : ℝ) ≤ (count (fun r => rows r && c r) : ℝ) := Nat.cast_nonneg _
  have hR : (0 : ℝ) ≤ (count (fun r => rows r && !c r) : ℝ) := Nat.cast_nonneg _
  generalize (count rows : ℝ) = N at *
  generalize (count (fun r => rows r && c r) : ℝ) = L at *
  generalize (count (fun r => rows r && !c r) : ℝ) = R at *
  have a0 : 0 < sigma ^ 2 + N * tau := by positivity
  have a1 : 0 < sigma ^ 2 + N * tau ^ 2 := by positivity
  have b1 : 0 < sigma ^ 2 + L * tau ^ 2 := by positivity
  have c1 : 0 < sigma ^ 2 + R * tau ^ 2 := by positivity
  have v : 0 < sigma ^ 2 := by positivity
  rw [show sigma * sigma = sigma ^ 2 by ring, show tau * tau = tau ^ 2 by ring, Real.log_sqrt (by positivity)]
  rw [Real.log_div (by positivity) (by positivity), Real.log_div (by positivity) (by positivity), Real.log_div (by positivity) (by positivity),
    Real.log_mul (by positivity) (by positivity), Real.log_mul (by positivity) (by positivity), Real.log_mul (by positivity) (by positivity)]
  ring

/-- C30, what holds: for a grow proposed on a reachable tree the value of `log_likihood_ratio` is the log ratio of the marginal likelihoods plus the
error `growRatioError`, which vanishes if `sigma_m = 1`; if the targets of both children sum to 0 it vanishes only then. -/
theorem C30_likelihood_partial (hX : NoNan X) {t t1 : Tree ℝ n p} (ht : ReachableTree X t) {y : Fin n → ℝ} (hy : HasTarget t y) {m : Params ℝ}
    (hm : GoodParams m) {us us' : List Nat} {ms ms' : List Method} {mu : TreeMutation} (hp : t.propose us ms = .ok (mu, t1, us', ms'))
    (hk : mu.kind = .grow) :
    ∃ tau L R a h', sigmaM m = .fin tau ∧ 0 < tau ∧ (t1.heap.node mu.updated).left = some L ∧ (t1.heap.node mu.updated).right = some R ∧
      logLikihoodRatio m t1.heap mu = .ok (.fin a, h') ∧
      a = logMarginalRatio m.sigma tau y (rowsOf (t1.heap.dataOf mu.existing)) (rowsOf (t1.heap.dataOf L)) (rowsOf (t1.heap.dataOf R)) +
        growRatioError m.sigma tau (count (rowsOf (t1.heap.dataOf mu.existing))) (count (rowsOf (t1.heap.dataOf L))) (count (rowsOf (t1.heap.dataOf R)))
          (total y (rowsOf (t1.heap.dataOf mu.existing))) (total y (rowsOf (t1.heap.dataOf L))) (total y (rowsOf (t1.heap.dataOf R))) ∧
      (tau = 1 → a = logMarginalRatio m.sigma tau y (rowsOf (t1.heap.dataOf mu.existing)) (rowsOf (t1.heap.dataOf L)) (rowsOf (t1.heap.dataOf R))) ∧
      (total y (rowsOf (t1.heap.dataOf L)) = 0 → total y (rowsOf (t1.heap.dataOf R)) = 0 →
        (a = logMarginalRatio m.sigma tau y (rowsOf (t1.heap.dataOf mu.existing)) (rowsOf (t1.heap.dataOf L)) (rowsOf (t1.heap.dataOf R)) ↔ tau = 1)) := by
  obtain ⟨y0, s, hI⟩ := reachable_tree_inv hX ht
  have := hI.target hy; subst this
  have hps := propose_spec hX ms hI us
  rw [hp] at hps
  obtain ⟨x1, hm1⟩ := hps
  rcases hm1 with ⟨i, D, L, R, j, v, rfl, hg⟩ | ⟨i, l, r, U, rfl, hg⟩
  · obtain ⟨c1, c2, -⟩ := hg.children
    obtain ⟨h', e, -⟩ := likRatio_grow m hg
    rw [likValue_eq hm] at e
    have eL : rowsOf (t1.heap.dataOf L) = fun r => rowsOf (t1.heap.dataOf i) r && Fl.le (X r j) v := by funext r; exact hg.rowsL r
    have eR : rowsOf (t1.heap.dataOf R) = fun r => rowsOf (t1.heap.dataOf i) r && !Fl.le (X r j) v := by funext r; exact hg.rowsR r
    have hs := hm.sigma
    have ht := sm_pos hm
    refine ⟨sm m, L, R, _, h', sigmaM_eq hm, ht, c1, c2, e, ?_, ?_, ?_⟩
    · simp only
      rw [eL, eR]
      unfold likReal
      simp only
      rw [growRatio_eq hs ht]
    · intro h1
      simp only
      rw [eL, eR]
      unfold likReal
      simp only
      rw [growRatio_eq hs ht, h1]
      simp [growRatioError]
    · simp only
      rw [eL, eR]
      intro z1 z2
      unfold likReal
      simp only
      rw [growRatio_eq hs ht]
      have z0 : total y (rowsOf (t1.heap.dataOf i)) = 0 := by
        unfold total at z1 z2 ⊢
        rw [← Finset.sum_filter_add_sum_filter_not (Finset.univ.filter (fun r => rowsOf (t1.heap.dataOf i) r = true)) (fun r => Fl.le (X r j) v = true)]
        rw [Finset.filter_filter, Finset.filter_filter]
        simp only [Bool.and_eq_true, Bool.not_eq_true'] at z1 z2
        simp only [Bool.not_eq_true]
        rw [z1, z2, add_zero]
      rw [z0, z1, z2]
      unfold growRatioError
      have hN : (0 : ℝ) < (count (rowsOf (t1.heap.dataOf i)) : ℝ) := by
        obtain ⟨r, hr, -⟩ := mem_column.1 hg.vcol
        have : 0 < count (rowsOf (t1.heap.dataOf i)) := Finset.card_pos.2 ⟨r, by simpa using hr⟩
        exact_mod_cast this
      generalize (count (rowsOf (t1.heap.dataOf i)) : ℝ) = N at hN
      generalize sm m = tau at ht
      have a0 : 0 < m.sigma ^ 2 + N * tau := by positivity
      have a1 : 0 < m.sigma ^ 2 + N * tau ^ 2 := by positivity
      simp only [ne_eq, OfNat.ofNat_ne_zero, not_false_eq_true, zero_pow, zero_mul, add_zero, sub_zero, mul_zero, add_eq_left]
      constructor
      · intro h0
        have h1 : Real.log ((m.sigma ^ 2 + N * tau) / (m.sigma ^ 2 + N * tau ^ 2)) = 0 := by linarith
        have h2 := Real.eq_one_of_pos_of_log_eq_zero (by positivity) h1
        rw [div_eq_one_iff_eq a1.ne'] at h2
        have h3 : N * tau = N * tau ^ 2 := by linarith
        have h4 := mul_left_cancel₀ hN.ne' h3
        have h5 : tau * 1 = tau * tau := by rw [mul_one]; rw [← sq]; exact h4
        exact (mul_left_cancel₀ ht.ne' h5).symm
      · rintro rfl
        simp
  · cases hk

/-- C30 is false: for all proper parameters with `sigma_m ≠ 1` (in particular for `k = 2` and any number of trees) there is a grow on a reachable
tree whose `log_likihood_ratio` differs from the log ratio of the marginal likelihoods. -/
theorem C30_refuted {m : Params ℝ} (hm : GoodParams m) (h1 : sigmaM m ≠ .fin 1) :
    ∃ (t t1 : Tree ℝ 3 1) (mu : TreeMutation) (us us' : List Nat) (ms ms' : List Method) (tau a : ℝ) (L R : NodeId) (h' : Heap ℝ 3 1),
      ReachableTree (rampX 3) t ∧ HasTarget t (fun _ => 0) ∧ t.propose us ms = .ok (mu, t1, us', ms') ∧ mu.kind = .grow ∧ sigmaM m = .fin tau ∧
      (t1.heap.node mu.updated).left = some L ∧ (t1.heap.node mu.updated).right = some R ∧ logLikihoodRatio m t1.heap mu = .ok (.fin a, h') ∧
      a ≠ logMarginalRatio m.sigma tau (fun _ => 0) (rowsOf (t1.heap.dataOf mu.existing)) (rowsOf (t1.heap.dataOf L)) (rowsOf (t1.heap.dataOf R)) := by
  obtain ⟨t, t1, t2, t3, mu, mu', h, -⟩ := exRoundTrip3 (fun _ => 0)
  obtain ⟨us, ms, us', ms', hp⟩ := h.grow
  obtain ⟨tau, L, R, a, h', e1, -, e2, e3, e4, -, -, e5⟩ := C30_likelihood_partial (rampX_noNan 3) h.reach h.target hm hp h.isGrow
  refine ⟨t, t1, mu, us, us', ms, ms', tau, a, L, R, h', h.reach, h.target, hp, h.isGrow, e1, e2, e3, e4, fun h6 => h1 ?_⟩
  have := (e5 (by simp [total]) (by simp [total])).1 h6
  rw [e1, this]

/-- The default `k = 2`. -/
theorem sigmaM_default {m : Params ℝ} (hm : GoodParams m) (hk : m.k = 2) : sigmaM m ≠ .fin 1 := by
  rw [sigmaM_eq hm]
  unfold sm
  rw [hk]
  have h1 : (1 : ℝ) ≤ m.nTrees := by exact_mod_cast hm.nTrees
  have h2 : 1 ≤ Real.sqrt m.nTrees := Real.one_le_sqrt.2 h1
  intro h
  injection h with h
  rw [div_eq_one_iff_eq (by positivity)] at h
  linarith

example : ∃ m : Params ℝ, GoodParams m ∧ m.k = 2 := ⟨⟨0.95, 2, 2, 200, 1⟩, ⟨by norm_num, by norm_num, by norm_num⟩, rfl⟩

/-! ### C34 -/

/-- C34: for `0 < alpha < 1`, `beta > 0` the split probability is a number strictly between 0 and 1, strictly decreasing in the depth, and both log
prior terms are finite negative numbers. -/
theorem C34_depth_prior {m : Params ℝ} (ha : 0 < m.alpha) (ha1 : m.alpha < 1) (hb : 0 < m.beta) :
    ∃ q : Nat → ℝ, (∀ d, splitProb m d = .fin (q d)) ∧ (∀ d, q d = m.alpha * (1 + d : ℝ) ^ (-m.beta)) ∧ (∀ d, 0 < q d ∧ q d < 1) ∧
      (∀ d d', d < d' → q d' < q d) ∧
      (∀ d, ∃ a b, logNodeSplit m d = .fin a ∧ logNodeNotSplit m d = .fin b ∧ a = Real.log (q d) ∧ b = Real.log (1 - q d) ∧ a < 0 ∧ b < 0) := by
  have hg : GoodPrior m := ⟨ha, ha1, hb.le⟩
  refine ⟨splitP m, splitProb_eq m, ?_, fun d => ⟨splitP_pos hg d, splitP_lt_one hg d⟩, ?_, fun d => ?_⟩
  · intro d; unfold splitP; push_cast; rfl
  · intro d d' h
    unfold splitP
    apply mul_lt_mul_of_pos_left _ ha
    apply Real.rpow_lt_rpow_of_neg (by positivity) (by exact_mod_cast (by omega : 1 + d < 1 + d')) (by linarith)
  · have h1 := splitP_pos hg d
    have h2 := splitP_lt_one hg d
    exact ⟨_, _, logNodeSplit_eq hg d, logNodeNotSplit_eq hg d, rfl, rfl, Real.log_neg h1 h2, Real.log_neg (by linarith) (by linarith)⟩

example : ∃ m : Params ℝ, 0 < m.alpha ∧ m.alpha < 1 ∧ 0 < m.beta := ⟨⟨0.95, 2, 2, 200, 1⟩, by norm_num, by norm_num, by norm_num⟩

/-! ### C35

Full statement: the leaf sampler draws from the posterior of the leaf value. It is false (`C35_refuted`): the mean is right, but the variance of
the draw is the posterior variance divided by the number of trees. -/

theorem leafMean_eq {m : Params ℝ} (hm : GoodParams m) (y : Fin n → ℝ) {rows : Fin n → Bool} (hr : 0 < count rows) :
    leafPosteriorMean m (Fl.ofInt (count rows)) (.fin (total y rows)) = .fin (postMean m.sigma (sm m) y rows) := by
  have hN : (0 : ℝ) < count rows := by exact_mod_cast hr
  have hs := hm.sigma
  have ht := sm_pos hm
  unfold leafPosteriorMean postMean
  rw [sigmaM_eq hm]
  simp only [Fl.ofInt, Int.cast_natCast, Fl.mul_fin]
  rw [Fl.div_fin _ hN.ne', Fl.div_fin _ hN.ne', Fl.add_fin, Fl.div_fin _ (by positivity), Fl.mul_fin]
  congr 1
  field_simp

theorem leafVar_eq {m : Params ℝ} (hm : GoodParams m) {rows : Fin n → Bool} (hr : 0 < count rows) :
    leafPosteriorVariance m (Fl.ofInt (count rows)) = .fin (postVar m.sigma (sm m) rows) := by
  have hN : (0 : ℝ) < count rows := by exact_mod_cast hr
  have hs := hm.sigma
  have ht := sm_pos hm
  unfold leafPosteriorVariance postVar
  rw [sigmaM_eq hm]
  simp only [Fl.ofInt, Int.cast_natCast, Fl.mul_fin]
  rw [Fl.div_fin _ hN.ne', Fl.div_fin _ (by positivity), Fl.div_fin _ (by positivity), Fl.add_fin, Fl.div_fin _ (by positivity)]
  congr 1
  field_simp

theorem leafValue_eq {m : Params ℝ} (hm : GoodParams m) (y : Fin n → ℝ) {rows : Fin n → Bool} (hr : 0 < count rows) (z : ℝ) :
    leafValue m (Fl.ofInt (count rows)) (.fin (total y rows)) (.fin z) =
      .fin (postMean m.sigma (sm m) y rows + z * Real.sqrt (postVar m.sigma (sm m) rows / m.nTrees)) := by
  have hT : (0 : ℝ) < m.nTrees := by exact_mod_cast hm.nTrees
  have hV := postVar_pos hm.sigma (sm_pos hm) rows
  unfold leafValue
  rw [leafMean_eq hm y hr, leafVar_eq hm hr, Fl.div_fin _ hT.ne']
  unfold powHalf
  simp only
  rw [Fl.pow_fin (by positivity), ← Real.sqrt_eq_rpow]
  simp

/-- The step of the leaf sampler, over the reals. -/
theorem leafStep_real (hX : NoNan X) {t : Tree ℝ n p} (ht : ReachableTree X t) {y : Fin n → ℝ} (hy : HasTarget t y) {m : Params ℝ} (hm : GoodParams m)
    {i : NodeId} (hi : i ∈ t.leafNodes) (hr : ∃ r, rowsOf (t.heap.dataOf i) r = true) (r : Rand ℝ) (z : ℝ) :
    ∃ t', leafStep m t i { r with normals := z :: r.normals } = .ok (t', r) ∧ (t'.heap.node i).value =
      postMean m.sigma (sm m) y (rowsOf (t.heap.dataOf i)) + z * Real.sqrt (postVar m.sigma (sm m) (rowsOf (t.heap.dataOf i)) / m.nTrees) := by
  obtain ⟨y0, s, hI⟩ := reachable_tree_inv hX ht
  have := hI.target hy; subst this
  have hin := (List.mem_filter.1 hi).1
  obtain ⟨q, hk⟩ := hI.repr.nodeOk i (hI.perm.mem_iff.1 hin)
  obtain ⟨h', e1, x1⟩ := Lik.sumYOf_spec hk
  have hc : 0 < count (rowsOf (t.heap.dataOf i)) := by
    obtain ⟨r, hr⟩ := hr
    exact Finset.card_pos.2 ⟨r, by simpa using hr⟩
  refine ⟨{ t with heap := h'.setValue i (postMean m.sigma (sm m) y (rowsOf (t.heap.dataOf i)) +
    z * Real.sqrt (postVar m.sigma (sm m) (rowsOf (t.heap.dataOf i)) / m.nTrees)) }, ?_, ?_⟩
  · unfold leafStep
    simp only [e1, Lik.nObsv_spec hk]
    rw [leafValue_eq hm y hc]
    rfl
  · simp [Heap.setValue, Heap.setNode]

/-- C35, what holds. On a leaf with rows of a reachable tree, with `tau = sigma_m`: (1) the joint density of leaf value and targets is the marginal
likelihood times the normal density with mean `M` and variance `V`, so `N(M, V)` is the posterior; (2) the mean used by the sampler is `M`, the
variance `V` as computed by it is right; (3) `M` is the mean of the targets times a factor strictly between 0 and 1; (4) the sampler sets the leaf
to `M + z * sqrt (V / n_trees)`, so for a standard normal `z` the draw has law `N(M, V / n_trees)`; (5) this is the posterior iff there is one
tree. -/
theorem C35_leaf_posterior_partial (hX : NoNan X) {t : Tree ℝ n p} (ht : ReachableTree X t) {y : Fin n → ℝ} (hy : HasTarget t y) {m : Params ℝ}
    (hm : GoodParams m) {i : NodeId} (hi : i ∈ t.leafNodes) (hr : ∃ r, rowsOf (t.heap.dataOf i) r = true) :
    ∃ tau M V : ℝ, sigmaM m = .fin tau ∧ 0 < tau ∧ 0 < V ∧
      (∀ mu, leafJoint m.sigma tau y (rowsOf (t.heap.dataOf i)) mu = leafMarginal m.sigma tau y (rowsOf (t.heap.dataOf i)) * normalPdf M V mu) ∧
      leafPosteriorMean m (Fl.ofInt (count (rowsOf (t.heap.dataOf i)))) (.fin (total y (rowsOf (t.heap.dataOf i)))) = .fin M ∧
      leafPosteriorVariance m (Fl.ofInt (count (rowsOf (t.heap.dataOf i)))) = .fin V ∧
      (∃ w, 0 < w ∧ w < 1 ∧ M = w * (total y (rowsOf (t.heap.dataOf i)) / count (rowsOf (t.heap.dataOf i)))) ∧
      (∀ (r : Rand ℝ) (z : ℝ), ∃ t', leafStep m t i { r with normals := z :: r.normals } = .ok (t', r) ∧
        (t'.heap.node i).value = M + z * Real.sqrt (V / m.nTrees)) ∧
      (gaussianReal 0 1).map (fun z => M + z * Real.sqrt (V / m.nTrees)) = gaussianReal M (V / m.nTrees).toNNReal ∧
      (gaussianReal M (V / m.nTrees).toNNReal = gaussianReal M V.toNNReal ↔ m.nTrees = 1) := by
  have hs := hm.sigma
  have htau := sm_pos hm
  set rows := rowsOf (t.heap.dataOf i) with hrows
  have hc : 0 < count rows := by
    obtain ⟨r, hr⟩ := hr
    exact Finset.card_pos.2 ⟨r, by simpa using hr⟩
  have hN : (0 : ℝ) < count rows := by exact_mod_cast hc
  have hT : (0 : ℝ) < m.nTrees := by exact_mod_cast hm.nTrees
  have hV := postVar_pos hs htau rows
  refine ⟨sm m, postMean m.sigma (sm m) y rows, postVar m.sigma (sm m) rows, sigmaM_eq hm, htau, hV, ?_, leafMean_eq hm y hc, leafVar_eq hm hc,
    ⟨count rows * sm m ^ 2 / (m.sigma ^ 2 + count rows * sm m ^ 2), by positivity, ?_, ?_⟩, fun r z => leafStep_real hX ht hy hm hi hr r z, ?_, ?_⟩
  · intro mu
    rw [leafJoint_eq hs htau, leafMarginal_eq hs htau]
  · rw [div_lt_one (by positivity)]
    have : 0 < m.sigma ^ 2 := by positivity
    linarith
  · unfold postMean
    field_simp
  · have h1 : (fun z : ℝ => postMean m.sigma (sm m) y rows + z * Real.sqrt (postVar m.sigma (sm m) rows / m.nTrees)) =
        (fun x => postMean m.sigma (sm m) y rows + x) ∘ (fun z => z * Real.sqrt (postVar m.sigma (sm m) rows / m.nTrees)) := rfl
    rw [h1, ← Measure.map_map (by fun_prop) (by fun_prop), gaussianReal_map_mul_const, gaussianReal_map_const_add]
    congr 1
    · ring
    · apply NNReal.eq
      simp only [NNReal.coe_mk, mul_one]
      rw [Real.sq_sqrt (by positivity), Real.coe_toNNReal _ (by positivity)]
  · constructor
    · intro h
      have hv := congrArg (fun q => Var[fun x ↦ x; q]) h
      simp only [variance_fun_id_gaussianReal] at hv
      rw [Real.coe_toNNReal _ (by positivity), Real.coe_toNNReal _ hV.le, div_eq_iff hT.ne'] at hv
      have : postVar m.sigma (sm m) rows * 1 = postVar m.sigma (sm m) rows * m.nTrees := by linarith
      have := mul_left_cancel₀ hV.ne' this
      exact_mod_cast this.symm
    · intro h
      rw [h]; simp

/-- C35 is false: with two or more trees the law of the draw is not the posterior, for every leaf with rows of every reachable tree. -/
theorem C35_refuted (hX : NoNan X) {t : Tree ℝ n p} (ht : ReachableTree X t) {y : Fin n → ℝ} (hy : HasTarget t y) {m : Params ℝ}
    (hm : GoodParams m) (h2 : 1 < m.nTrees) {i : NodeId} (hi : i ∈ t.leafNodes) (hr : ∃ r, rowsOf (t.heap.dataOf i) r = true) :
    ∃ (M V : ℝ) (f : ℝ → ℝ), (∃ tau, sigmaM m = .fin tau ∧ ∀ mu, leafJoint m.sigma tau y (rowsOf (t.heap.dataOf i)) mu =
        leafMarginal m.sigma tau y (rowsOf (t.heap.dataOf i)) * normalPdf M V mu) ∧
      (∀ (r : Rand ℝ) (z : ℝ), ∃ t', leafStep m t i { r with normals := z :: r.normals } = .ok (t', r) ∧ (t'.heap.node i).value = f z) ∧
      (gaussianReal 0 1).map f ≠ gaussianReal M V.toNNReal := by
  obtain ⟨tau, M, V, e1, -, -, e2, -, -, -, e3, e4, e5⟩ := C35_leaf_posterior_partial hX ht hy hm hi hr
  refine ⟨M, V, _, ⟨tau, e1, e2⟩, e3, ?_⟩
  rw [e4]
  intro h
  have := e5.1 h
  omega

/-- A leaf with rows of a reachable tree. -/
example : ∃ t : Tree ℝ 3 1, ReachableTree (rampX 3) t ∧ HasTarget t (fun r => r.val) ∧ 0 ∈ t.leafNodes ∧ ∃ r, rowsOf (t.heap.dataOf 0) r = true := by
  obtain ⟨t, -, ht, hy, hl, hr⟩ := exists_fresh (rampX 3) (fun r => (r.val : ℝ))
  exact ⟨t, ht, hy, by rw [hl]; simp, 0, hr 0⟩

end Bart
