import Verif.Props.PosteriorProps
import Verif.Proofs.InvGamma
import Verif.Proofs.SweepExists

/-! Property theorems C36 (sigma posterior) and C67 (no exceptions while sampling), over the reals. -/

set_option linter.unusedSectionVars false

namespace Bart
open Spec Lik Sampler ProbabilityTheory MeasureTheory
variable {n p : Nat} {X : Fin n → Fin p → Fl ℝ}

/-! ### C36 -/

/-- C36: let `res` be the residuals of a reachable model whose prior has shape `a > 0` and rate `b > 0`. Then (1) the gamma parameters used by the sampler
(shape `a'` and rate `b'`; numpy is given the scale `1/b'`) are those of the posterior: the joint density of variance and residuals is
proportional, in the variance, to the inverse gamma density with shape `a'` and rate `b'`; (2) for every positive draw `g` the step succeeds and sets sigma to
a positive `v` with `v^2 = 1/g`; (3) if `g` has the gamma law with shape `a'` and rate `b'`, then `v^2` has the inverse gamma law, i.e. the
posterior. -/
theorem C36_sigma_posterior (hX : NoNan X) {m : BModel ℝ n p} (hm : ReachableModel X m) (ha : 0 < m.sigma.alpha) (hb : 0 < m.sigma.beta) :
    ∃ res m1, m.residuals = .ok (res, m1) ∧ 0 < m.sigmaShape ∧ 0 < m.sigmaRate res ∧
      (∃ C, 0 < C ∧ ∀ v, 0 < v → varianceJoint m.sigma.alpha m.sigma.beta res v = C * invGammaPdf m.sigmaShape (m.sigmaRate res) v) ∧
      (∃ f : ℝ → ℝ, (∀ (r : Rand ℝ) (g : ℝ), 0 < g → ∃ m', m.sigmaStep { r with gammas := g :: r.gammas } = .ok (m', r) ∧
          m'.sigma.current = f g ∧ 0 < f g ∧ f g ^ 2 = 1 / g ∧ m'.sigma.scalingFactor = m.sigma.scalingFactor) ∧
        (gammaMeasure m.sigmaShape (m.sigmaRate res)).map (fun g => f g ^ 2) = invGammaMeasure m.sigmaShape (m.sigmaRate res)) := by
  obtain ⟨y0, pG, pP, m0, k, h1, h2, hF, hR⟩ := hm
  obtain ⟨y, -, hI, -⟩ := reachable_model_inv (N := False) hX (by simp) h1 h2 hF hR
  obtain ⟨m1, e, -, -, -, hm1⟩ := hI.residuals hX
  set res : Fin n → ℝ := fun r => y r - sumValue m.trees r with hres
  have hs : 0 ≤ ∑ r, res r * res r := Finset.sum_nonneg (fun r _ => mul_self_nonneg _)
  have eS : m.sigmaShape = m.sigma.alpha + (n : ℝ) / 2 := by
    unfold BModel.sigmaShape; rw [hI.obs]; simp
  have eR : m.sigmaRate res = m.sigma.beta + 1/2 * ∑ r, res r * res r := rfl
  have pS : 0 < m.sigmaShape := by rw [eS]; positivity
  have pR : 0 < m.sigmaRate res := by rw [eR]; positivity
  refine ⟨res, m1, e, pS, pR, ?_, fun g => g ^ (-(1/2) : ℝ), fun r g hg => ?_, gamma_map_sq _ _⟩
  · rw [eS, eR]
    exact variance_posterior ha hb res
  · have hneg : ¬ (m.sigmaShape < 0 ∨ m.sigmaRate res < 0) := by rintro (h | h) <;> linarith
    refine ⟨{ m1 with sigma := { m1.sigma with current := g ^ (-(1/2) : ℝ) } }, ?_, rfl, Real.rpow_pos_of_pos hg _, ?_, by rw [hm1]⟩
    · unfold BModel.sigmaStep
      simp only [e, if_neg hneg, Fl.pow_fin hg, Fl.toFinite]
    · rw [← Real.rpow_natCast, ← Real.rpow_mul hg.le]
      norm_num [Real.rpow_neg_one]

theorem sigmaStep_pos {m m' : BModel ℝ n p} {r r' : Rand ℝ} (h : m.sigmaStep r = .ok (m', r')) : 0 < m'.sigma.current := by
  unfold BModel.sigmaStep at h
  cases e1 : m.residuals with
  | error er => rw [e1] at h; cases h
  | ok q =>
    obtain ⟨res, m1⟩ := q
    rw [e1] at h
    simp only at h
    split at h
    · cases h
    · cases hg : r.gammas with
      | nil => rw [hg] at h; cases h
      | cons g gs =>
        rw [hg] at h
        simp only at h
        by_cases h0 : 0 < g
        · rw [Fl.pow_fin h0] at h
          simp only [Fl.toFinite, Except.ok.injEq, Prod.mk.injEq] at h
          obtain ⟨rfl, -⟩ := h
          exact Real.rpow_pos_of_pos h0 _
        · have : (MathFns.pow g (-(1/2) : ℝ)) = .pinf ∨ (MathFns.pow g (-(1/2) : ℝ)) = .nan := by
            by_cases h1 : g = 0
            · left; simp [MathFns.pow, h1]
            · right; simp [MathFns.pow, h0, h1]
          rcases this with h2 | h2 <;> rw [h2] at h <;> cases h

/-- C36, positivity: sigma is positive after every run of sweeps that ends, if it was at the start (or if there was a sweep). -/
theorem C36_sigma_pos {m0 m : BModel ℝ n p} {pGrow pPrune : ℝ} {k : Nat} (hR : ModelRun pGrow pPrune m0 k m) (h0 : 0 < m0.sigma.current ∨ 0 < k) :
    0 < m.sigma.current := by
  have key : (0 < m0.sigma.current ∨ 0 < k) → 0 < m.sigma.current := by
    clear h0
    induction hR with
    | nil => rintro (h | h); exacts [h, absurd h (by simp)]
    | sweep _ hs _ =>
      intro _
      unfold BModel.sweep at hs
      split at hs
      · cases hs
      · split at hs
        · cases hs
        · rename_i e
          simp only [Except.ok.injEq, Prod.mk.injEq] at hs
          obtain ⟨-, rfl, -⟩ := hs
          exact sigmaStep_pos e
    | predict _ hs ih =>
      intro h
      unfold BModel.predict at hs
      split at hs
      · cases hs
      · simp only [Except.ok.injEq, Prod.mk.injEq] at hs
        obtain ⟨-, rfl⟩ := hs
        exact ih h
    | residuals _ hs ih =>
      intro h
      unfold BModel.residuals BModel.predict at hs
      split at hs
      · cases hs
      · rename_i e
        split at e
        · cases e
        · simp only [Except.ok.injEq, Prod.mk.injEq] at e
          obtain ⟨-, rfl⟩ := e
          split at hs
          · cases hs
          · simp only [Except.ok.injEq, Prod.mk.injEq] at hs
            obtain ⟨-, rfl⟩ := hs
            exact ih h
    | copy _ ih => exact ih
  exact key h0

/-! ### C67 -/

theorem leafSteps_gammas {m : Params ℝ} (is : List NodeId) : ∀ {t t' : Tree ℝ n p} {r r' : Rand ℝ}, leafSteps m is t r = .ok (t', r') → r'.gammas = r.gammas := by
  induction is with
  | nil => intro t t' r r' h; cases h; rfl
  | cons i is ih =>
    intro t t' r r' h
    unfold leafSteps at h
    split at h
    · cases h
    · next t1 r1 e =>
      have h1 : r1.gammas = r.gammas := by
        unfold leafStep at e
        simp only at e
        split at e
        · cases e
        · split at e
          · cases e
          · split at e
            · cases e
            · simp only [Except.ok.injEq, Prod.mk.injEq] at e
              obtain ⟨-, rfl⟩ := e; rfl
      rw [ih h, h1]

theorem treeBody_gammas {m : Params ℝ} {pG pP : ℝ} {t t' : Tree ℝ n p} {r r' : Rand ℝ} {mu} (h : BModel.treeBody m pG pP t r = .ok (mu, t', r')) :
    r'.gammas = r.gammas := by
  unfold BModel.treeBody at h
  split at h
  · cases h
  · next mu1 t1 r1 e =>
    split at h
    · cases h
    · next t2 r2 e2 =>
      simp only [Except.ok.injEq, Prod.mk.injEq] at h
      obtain ⟨-, -, rfl⟩ := h
      rw [leafSteps_gammas _ e2]
      have hs : ∀ {mu t1 r1}, treeSample m pG pP t r = .ok (mu, t1, r1) → r1.gammas = r.gammas := by
        intro mu t1 r1 h
        unfold treeSample at h
        split at h
        · cases h
        · split at h
          · cases h
          · split at h
            · cases h
            · simp only [Except.ok.injEq, Prod.mk.injEq] at h
              obtain ⟨-, -, rfl⟩ := h; rfl
      unfold treeStep at e
      split at e
      · cases e
      · next e3 =>
        simp only [Except.ok.injEq, Prod.mk.injEq] at e
        obtain ⟨-, -, rfl⟩ := e
        exact hs e3
      · next e3 =>
        split at e
        · cases e
        · simp only [Except.ok.injEq, Prod.mk.injEq] at e
          obtain ⟨-, -, rfl⟩ := e
          exact hs e3

theorem refreshLoop_gammas {m : Params ℝ} {pG pP : ℝ} {y : Fin n → ℝ} (ts : List (Tree ℝ n p)) : ∀ {f f' : Fin n → ℝ} {ts'} {r r' : Rand ℝ} {mus},
    BModel.refreshLoop y (BModel.treeBody m pG pP) ts f r = .ok (mus, f', ts', r') → r'.gammas = r.gammas := by
  induction ts with
  | nil => intro f f' ts' r r' mus h; cases h; rfl
  | cons t ts ih =>
    intro f f' ts' r r' mus h
    unfold BModel.refreshLoop at h
    split at h
    · cases h
    · split at h
      · cases h
      · next e =>
        split at h
        · cases h
        · split at h
          · cases h
          · next e2 =>
            simp only [Except.ok.injEq, Prod.mk.injEq] at h
            obtain ⟨-, -, -, rfl⟩ := h
            rw [ih e2, treeBody_gammas e]

theorem sweepTrees_gammas {m m1 : BModel ℝ n p} {pG pP : ℝ} {r r1 : Rand ℝ} {mus} (h : m.sweepTrees pG pP r = .ok (mus, m1, r1)) :
    r1.gammas = r.gammas := by
  unfold BModel.sweepTrees at h
  split at h
  · cases h
  · split at h
    · cases h
    · split at h
      · cases h
      · next e =>
        simp only [Except.ok.injEq, Prod.mk.injEq] at h
        obtain ⟨-, -, rfl⟩ := h
        exact refreshLoop_gammas _ e

theorem leafSteps_real (hX : NoNan X) {y : Fin n → ℝ} {m : Params ℝ} (hm : GoodParams m) {fl : CacheFlags} (hf : fl.fresh = false) (is : List NodeId) :
    ∀ {t : Tree ℝ n p} (_ : Good True X (some y) t fl) (_ : ∀ i ∈ is, i ∈ t.leafNodes) (r : Rand ℝ) {e : PyErr},
      leafSteps m is t r = .error e → e = .outOfDraws := by
  induction is with
  | nil => intro t _ _ r e h; cases h
  | cons i is ih =>
    intro t hG hi r e h
    have h1 := leafStep_spec hX hG m (hi i (by simp)) r
    obtain ⟨s, hI⟩ := hG.inv
    have hin := (List.mem_filter.1 (hi i (by simp))).1
    unfold leafSteps at h
    cases e1 : leafStep m t i r with
    | error er =>
      rw [e1] at h
      injection h with h; subst h
      obtain ⟨q, hk⟩ := hI.repr.nodeOk i (hI.perm.mem_iff.1 hin)
      obtain ⟨h', e2, -⟩ := Lik.sumYOf_spec hk
      obtain ⟨w, hw⟩ := hG.ne trivial i hin
      have hc : 0 < count (rowsOf (t.heap.dataOf i)) := Finset.card_pos.2 ⟨w, by simpa using hw⟩
      unfold leafStep at e1
      simp only [e2, Lik.nObsv_spec hk] at e1
      cases hz : r.normals with
      | nil => rw [hz] at e1; injection e1 with e1; exact e1.symm
      | cons z zs =>
        rw [hz] at e1
        simp only [leafValue_eq hm y hc, Fl.toFinite] at e1
        cases e1
    | ok q =>
      obtain ⟨t1, r1⟩ := q
      rw [e1] at h1 h
      obtain ⟨h', v, x, rfl, -, hG1⟩ := h1
      have hfl : ({ fl with stale := fl.stale || fl.fresh } : CacheFlags) = fl := by cases fl; simp_all
      rw [hfl] at hG1
      have hsh : SameShape t { t with heap := h'.setValue i v } := by
        refine ⟨rfl, fun k hk => ?_⟩
        have := x.node k (hI.mem_lt hk)
        by_cases hki : k = i
        · subst hki; simp [Heap.setValue, Heap.setNode, this]; exact ⟨rfl, rfl, rfl, rfl, rfl⟩
        · simp [Heap.setValue, Heap.setNode, hki, this]; exact SameNode.refl _
      exact ih hG1 (fun k hk => by rw [hsh.leafNodes]; exact hi k (by simp [hk])) r1 h

theorem treeBody_real (hX : NoNan X) {m : Params ℝ} (hm : GoodParams m) {pGrow pPrune : ℝ} (hp1 : pGrow ≠ 0) (hp2 : pPrune ≠ 0) {y : Fin n → ℝ}
    {t : Tree ℝ n p} (h : Handed True X y t) (r : Rand ℝ) {e : PyErr} (he : BModel.treeBody m pGrow pPrune t r = .error e) : e = .outOfDraws := by
  obtain ⟨fl, hG, hp, hf, hst⟩ := h
  have h1 := treeStep_spec hX hG m hp1 hp2 r
  unfold BModel.treeBody at he
  cases e1 : treeStep m pGrow pPrune t r with
  | error er => rw [e1] at h1 he; injection he with he; subst he; exact h1
  | ok q =>
    obtain ⟨mu, t1, r1⟩ := q
    rw [e1] at h1 he
    obtain ⟨-, hG1⟩ := h1
    generalize hfl : (if mu.isSome then { fl with changed := true, fresh := false, stale := false } else fl : CacheFlags) = fl1 at hG1
    have hf1 : fl1.fresh = false := by rw [← hfl]; split <;> first | rfl | exact hf
    simp only at he
    cases e2 : leafSteps m t1.leafNodes t1 r1 with
    | error er =>
      rw [e2] at he
      injection he with he; subst he
      exact leafSteps_real hX hm hf1 _ hG1 (fun _ h => h) r1 e2
    | ok q => rw [e2] at he; cases he

/-- C67: on covariates without NaN and at least one row, with `sigma > 0` at the start, `k > 0`, at least one tree, a nonnegative prior and nonzero move
probabilities, a Gibbs sweep of a model reached by any run raises nothing when its gamma draws are positive: it returns, unless the
supplied random draws are used up. -/
theorem C67_no_exception (hX : NoNan X) (hn : 0 < n) {y0 : Fin n → ℝ} {m0 m : BModel ℝ n p} {pGrow pPrune : ℝ} {k : Nat}
    (hp1 : pGrow ≠ 0) (hp2 : pPrune ≠ 0) (h0 : FreshModel X y0 m0) (hR : ModelRun pGrow pPrune m0 k m) (hs : 0 < m0.sigma.current) (hk : 0 < m0.k)
    (hT : 0 < m0.nTrees) (ha : 0 ≤ m0.sigma.alpha) (hb : 0 ≤ m0.sigma.beta) (r : Rand ℝ) (hg : ∀ g ∈ r.gammas, 0 < g) {e : PyErr}
    (he : m.sweep pGrow pPrune r = .error e) : e = .outOfDraws := by
  obtain ⟨y, -, hI, -, -, -, i1, i2, v, i3⟩ := reachable_model_inv (N := True) hX (fun _ => hn) hp1 hp2 h0 hR
  have hcur := C36_sigma_pos hR (Or.inl hs)
  have hgp : GoodParams m.params := ⟨hcur, by show 0 < m.k; rw [i1]; exact hk, by show 0 < m.nTrees; rw [i2]; exact hT⟩
  have hst := hI.sweepTrees hX hp1 hp2 r
  unfold BModel.sweep at he
  cases e1 : m.sweepTrees pGrow pPrune r with
  | error er =>
    rw [e1] at he
    injection he with he; subst he
    have hstart : ∃ f m1, m.startPrediction = .ok (f, m1) ∧ ModelInv True X y m1 := by
      unfold BModel.startPrediction
      cases hp : m.prediction with
      | some f => exact ⟨f, m, rfl, hI⟩
      | none =>
        obtain ⟨m1, e, h1, -⟩ := hI.predict hX
        exact ⟨_, m1, e, h1⟩
    obtain ⟨f, m1, e2, hI1⟩ := hstart
    unfold BModel.sweepTrees at e1
    simp only [hI.target, e2] at e1
    cases e3 : BModel.refreshLoop y (BModel.treeBody m.params pGrow pPrune) m1.trees f r with
    | ok q => rw [e3] at e1; cases e1
    | error er' =>
      rw [e3] at e1
      injection e1 with e1; subst e1
      refine BModel.refreshLoop_error hX y (P := fun e => e = .outOfDraws) (fun y t s ht => ?_) m1.trees hI1.fitted f r e3
      have h4 := BModel.treeBody_spec hX m.params hp1 hp2 ht s
      cases e4 : BModel.treeBody m.params pGrow pPrune t s with
      | error er => exact treeBody_real hX hgp hp1 hp2 ht s e4
      | ok q => rw [e4] at h4; exact h4.fitted
  | ok q =>
    obtain ⟨mus, m1, r1⟩ := q
    rw [e1] at he hst
    obtain ⟨j1, -, -, j2⟩ := hst
    simp only at he
    have hgam : r1.gammas = r.gammas := sweepTrees_gammas e1
    cases e2 : m1.sigmaStep r1 with
    | ok q => rw [e2] at he; cases he
    | error er =>
      rw [e2] at he
      injection he with he; subst he
      obtain ⟨m2, e3, -⟩ := j1.residuals hX
      unfold BModel.sigmaStep at e2
      simp only [e3] at e2
      have hsg : m1.sigma = m.sigma := by rw [j2]
      have hneg : ¬ (m1.sigmaShape < 0 ∨ m1.sigmaRate (fun r => y r - sumValue m1.trees r) < 0) := by
        have z1 : 0 ≤ ∑ r, (y r - sumValue m1.trees r) * (y r - sumValue m1.trees r) := Finset.sum_nonneg (fun r _ => mul_self_nonneg _)
        unfold BModel.sigmaShape BModel.sigmaRate
        rw [hsg, i3, j1.obs]
        have : (0 : ℝ) ≤ (((n : Int) : ℝ)) := by positivity
        rintro (h | h) <;> simp only at h <;> linarith
      simp only [if_neg hneg, hgam] at e2
      cases hz : r.gammas with
      | nil => rw [hz] at e2; injection e2 with e2; exact e2.symm
      | cons g gs =>
        rw [hz] at e2
        simp only [Fl.pow_fin (hg g (by rw [hz]; simp)), Fl.toFinite] at e2
        cases e2

/-- C67, the other half: if some column has two values after the first row (see C27), the sweep does return for suitable draws, whatever the acceptance draw `u`, the
normal draw `z` and the gamma draw `g > 0` are; so there are runs of every length. -/
theorem C67_returns (hX : NoNan X) {j : Fin p} (hj : HasTwoValues (column X (fun _ => true) j).tail) {y0 : Fin n → ℝ} {m0 m : BModel ℝ n p}
    {pGrow pPrune : ℝ} {k : Nat} (hp1 : pGrow ≠ 0) (hp2 : pPrune ≠ 0) (h0 : FreshModel X y0 m0) (hR : ModelRun pGrow pPrune m0 k m) (hs : 0 < m0.sigma.current)
    (hk : 0 < m0.k) (hT : 0 < m0.nTrees) (ha : 0 ≤ m0.sigma.alpha) (hb : 0 ≤ m0.sigma.beta) (u z : ℝ) {g : ℝ} (hg : 0 < g) :
    ∃ (r0 : Rand ℝ) (mus : _) (m' : _), r0.gammas = [g] ∧ (∀ r, m.sweep pGrow pPrune (r0.append r) = .ok (mus, m', r)) ∧ ModelRun pGrow pPrune m0 (k + 1) m' := by
  have hn : 0 < n := by
    obtain ⟨a, ha, -⟩ := hj
    obtain ⟨r, -⟩ := mem_column.1 (List.mem_of_mem_tail ha)
    exact r.pos
  obtain ⟨y, -, hI, -, -, -, i1, i2, v, i3⟩ := reachable_model_inv (N := True) hX (fun _ => hn) hp1 hp2 h0 hR
  have hcur := C36_sigma_pos hR (Or.inl hs)
  have hgp : GoodParams m.params := ⟨hcur, by show 0 < m.k; rw [i1]; exact hk, by show 0 < m.nTrees; rw [i2]; exact hT⟩
  obtain ⟨r0, mus, m', e, hr⟩ := hI.sweep_exists hX hj hgp (by rw [i3]; exact ha) (by rw [i3]; exact hb) hp1 hp2 u z hg
  exact ⟨r0, mus, m', e, hr, .sweep hR (hr ⟨[], [], [], [], []⟩)⟩

/-- Runs of every length over the rows 0, 1, 2 with two trees: the hypotheses of C36 and C67 hold along them. -/
theorem exists_run (k : Nat) : ∃ m0 m : BModel ℝ 3 1, FreshModel (rampX 3) (fun r => r.val) m0 ∧ ModelRun (1/2) (1/2) m0 k m ∧ m0.sigma = ⟨1, 1, 1, 1⟩ ∧
    m0.nTrees = 2 ∧ m0.k = 2 := by
  obtain ⟨m0, h0, -, h1, h2, -, -, h3⟩ := exists_fresh_model (rampX 3) (fun r => (r.val : ℝ)) ⟨1, 1, 1, 1⟩ 2 0.95 2 2
  have hj : HasTwoValues (column (rampX 3) (fun _ => true) 0).tail := by
    refine (isNotConstant_noNan ?_).1 (ramp_splittable ?_)
    · intro x hx; obtain ⟨r, -, hr⟩ := mem_column.1 hx; rw [← hr]; exact rampX_noNan 3 r 0
    · simp [count]
  refine ⟨m0, ?_⟩
  induction k with
  | zero => exact ⟨m0, h0, .nil _, h1, h2, h3⟩
  | succ k ih =>
    obtain ⟨m, -, hR, -⟩ := ih
    obtain ⟨r0, mus, m', -, -, hR'⟩ := C67_returns (rampX_noNan 3) hj (by norm_num) (by norm_num) h0 hR (by rw [h1]; norm_num) (by rw [h3]; norm_num)
      (by rw [h2]; norm_num) (by rw [h1]; norm_num) (by rw [h1]; norm_num) (1/2) 0 (g := 1) (by norm_num)
    exact ⟨m', h0, hR', h1, h2, h3⟩

example (k : Nat) : ∃ m : BModel ℝ 3 1, ReachableModel (rampX 3) m ∧ 0 < m.sigma.alpha ∧ 0 < m.sigma.beta := by
  obtain ⟨m0, m, h0, hR, h1, -⟩ := exists_run k
  obtain ⟨-, -, -, -, -, -, -, -, v, hv⟩ := reachable_model_inv (N := False) (rampX_noNan 3) (by simp) (by norm_num) (by norm_num) h0 hR
  exact ⟨m, ⟨_, _, _, m0, k, by norm_num, by norm_num, h0, hR⟩, by rw [hv, h1]; norm_num, by rw [hv, h1]; norm_num⟩

end Bart
