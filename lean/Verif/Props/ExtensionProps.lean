import Verif.Model.Extensions
import Verif.Props.RunnerProps

/-! Property theorems C64 and C77 (models fitted to the residuals of another estimator). -/

set_option linter.unusedSectionVars false

namespace Bart
open Spec
variable {K : Type} [Field K] [LinearOrder K] [IsStrictOrderedRing K] [MathFns K] [FloorRing K] {n p : Nat} {X : Fin n → Fin p → Fl K}

namespace Spec

/-- `predict` and `residuals` are those of the sum of a base prediction `b` and the prediction of `s`. -/
def PredictsSum (predict : Option (Covariates K p) → Except PyErr (List K)) (residuals : Option (Covariates K p) → Option (List K) → Except PyErr (List K))
    (base : {q : Nat} → (Fin q → Fin p → Fl K) → Except PyErr (Fin q → K)) (s : SkModel K p) : Prop :=
  ∀ {q : Nat} (Z : Fin q → Fin p → Fl K) (b g : Fin q → K), base Z = .ok b → s.predict (some ⟨q, Z⟩) = .ok (List.ofFn g) →
    predict (some ⟨q, Z⟩) = .ok (List.ofFn (fun r => b r + g r)) ∧
    ∀ y : Fin q → K, residuals (some ⟨q, Z⟩) (some (List.ofFn y)) = .ok (List.ofFn (fun r => y r - b r - g r))

end Spec

theorem zipWith_ofFn {q : Nat} (f : K → K → K) (a b : Fin q → K) : List.zipWith f (List.ofFn a) (List.ofFn b) = List.ofFn (fun r => f (a r) (b r)) := by
  apply List.ext_getElem
  · simp
  · intro i h1 h2; simp

theorem npSub_ofFn {q : Nat} (a b : Fin q → K) : npSub (List.ofFn a) (List.ofFn b) = .ok (List.ofFn (fun r => a r - b r)) := by
  unfold npSub
  rw [if_pos (by simp), zipWith_ofFn]

theorem predict_update (w : World K p) (b : EstId) (kd : Regressor K p) (st : kd.State) {q : Nat} (Z : Fin q → Fin p → Fl K) :
    World.predict { w with obj := Function.update w.obj b ⟨kd, some st⟩ } b Z = kd.predict st Z := by
  show Estimator.predict (Function.update w.obj b ⟨kd, some st⟩ b) Z = _
  rw [Function.update_self]
  rfl

theorem ResidualBart.fit_spec' {m m' : ResidualBart K p} {w w' : World K p} {y : Fin n → K} {rs : Nat → Rand K} (h : m.fit w X y rs = .ok (m', w'))
    {kd : Regressor K p} {st0 : Option kd.State} (hk : w.obj m.base = ⟨kd, st0⟩) :
    ∃ st f s, kd.fit X y = .ok st ∧ kd.predict st X = .ok f ∧ m.sk.fit X (fun r => y r - f r) rs = .ok s ∧
      m' = ⟨m.base, s⟩ ∧ w' = { w with obj := Function.update w.obj m.base ⟨kd, some st⟩ } := by
  unfold ResidualBart.fit World.fit at h
  rw [hk] at h
  unfold Estimator.fit at h
  cases e1 : kd.fit X y with
  | error e => simp only [e1] at h; cases h
  | ok st =>
    simp only [e1, predict_update] at h
    cases e2 : kd.predict st X with
    | error e => rw [e2] at h; cases h
    | ok f =>
      rw [e2] at h
      simp only at h
      cases e3 : m.sk.fit X (fun r => y r - f r) rs with
      | error e => rw [e3] at h; cases h
      | ok s =>
        rw [e3] at h
        simp only [Except.ok.injEq, Prod.mk.injEq] at h
        exact ⟨st, f, s, rfl, e2, e3, h.1.symm, h.2.symm⟩

theorem ResidualBart.fit_spec {m m' : ResidualBart K p} {w w' : World K p} {y : Fin n → K} {rs : Nat → Rand K} (h : m.fit w X y rs = .ok (m', w')) :
    ∃ st f s, (w.obj m.base).kind.fit X y = .ok st ∧ (w.obj m.base).kind.predict st X = .ok f ∧ m.sk.fit X (fun r => y r - f r) rs = .ok s ∧
      m' = ⟨m.base, s⟩ ∧ w' = { w with obj := Function.update w.obj m.base ⟨(w.obj m.base).kind, some st⟩ } :=
  ResidualBart.fit_spec' h (kd := (w.obj m.base).kind) (st0 := (w.obj m.base).state) rfl

theorem sum_predicts {q : Nat} {predict : Except PyErr (List K)} {b g : Fin q → K} {s : SkModel K p} (h : predict = .ok (List.ofFn (fun r => b r + g r))) (y : Fin q → K) :
    residualsWith s predict (some (List.ofFn y)) = .ok (List.ofFn (fun r => y r - b r - g r)) := by
  unfold residualsWith
  simp only [h, npSub_ofFn, sub_sub]

/-! ### C64

Full statement: `predict` is the base prediction plus the BART prediction fitted to the residuals of the base estimator, and `residuals` are the target minus both. It is false when
arguments are left out (`C64_refuted_predict`, `C64_refuted_residuals`). -/

/-- C64 (partial): when the fit succeeds, the base estimator was fitted to the data, a `SklearnModel` with the same settings was fitted to its residuals, and with the arguments given
`predict` is the sum of both predictions and `residuals` the target minus both. Missing: calls without `X` or without `y`, for which it is false. -/
theorem C64_residual_bart_partial {m m' : ResidualBart K p} {w w' : World K p} {y : Fin n → K} {rs : Nat → Rand K} (h : m.fit w X y rs = .ok (m', w')) :
    ∃ st f s, (w.obj m.base).kind.fit X y = .ok st ∧ (w.obj m.base).kind.predict st X = .ok f ∧ m.sk.fit X (fun r => y r - f r) rs = .ok s ∧
      PredictsSum (m'.predict w') (m'.residuals w') (fun Z => (w.obj m.base).kind.predict st Z) s := by
  obtain ⟨st, f, s, e1, e2, e3, rfl, rfl⟩ := ResidualBart.fit_spec h
  refine ⟨st, f, s, e1, e2, e3, ?_⟩
  intro q Z b g hb hg
  have hp : ResidualBart.predict ⟨m.base, s⟩ { w with obj := Function.update w.obj m.base ⟨(w.obj m.base).kind, some st⟩ } (some ⟨q, Z⟩) =
      .ok (List.ofFn (fun r => b r + g r)) := by
    unfold ResidualBart.predict
    simp only [predict_update] at hb ⊢
    simp only [hb, hg, zipWith_ofFn]
  exact ⟨hp, fun y => sum_predicts hp y⟩

/-- C64 (partial), the same for `OLS`: `resid` is what the fitted statistical model gives as its residuals. -/
theorem C64_ols_partial {m m' : Ols K p} {y : Fin n → K} {rs : Nat → Rand K} (h : m.fit X y rs = .ok m') :
    ∃ st resid s, m.kind.fit X y = .ok (st, resid) ∧ m.sk.fit X resid rs = .ok s ∧
      PredictsSum m'.predict m'.residuals (fun Z => m.kind.predict st Z) s := by
  unfold Ols.fit at h
  cases e1 : m.kind.fit X y with
  | error e => rw [e1] at h; cases h
  | ok q =>
    obtain ⟨st, resid⟩ := q
    rw [e1] at h
    simp only at h
    cases e3 : m.sk.fit X resid rs with
    | error e => rw [e3] at h; cases h
    | ok s =>
      rw [e3] at h
      injection h with h
      subst h
      refine ⟨st, resid, s, rfl, e3, ?_⟩
      intro q Z b g hb hg
      have hp : Ols.predict { m with fitted := some st, sk := s } (some ⟨q, Z⟩) = .ok (List.ofFn (fun r => b r + g r)) := by
        unfold Ols.predict
        simp only [hb, hg, zipWith_ofFn]
      exact ⟨hp, fun y => sum_predicts hp y⟩

/-- C64: on the training rows the residuals are those of the BART fit: residual of the base estimator minus BART prediction, and the prediction differs from the target by them. The BART
prediction is, row by row, the mean over the stored samples, on the scale of the residuals of the base estimator (smallest `lo`, largest `hi`). -/
theorem C64_training_rows {m m' : ResidualBart K p} {w w' : World K p} {y : Fin n → K} {rs : Nat → Rand K} (h : m.fit w X y rs = .ok (m', w')) {c : Combined K p}
    (hc : m'.sk.samples = some c) (hne : c.models ≠ []) :
    ∃ f : Fin n → K, w'.predict m'.base X = .ok f ∧ ∀ {lo hi : K}, IsLeast (Set.range (fun r => y r - f r)) lo → IsGreatest (Set.range (fun r => y r - f r)) hi →
      let g : Fin n → K := fun r => mean (c.models.map (fun x => originalScale lo hi (x.predictX X r)))
      m'.predict w' (some ⟨n, X⟩) = .ok (List.ofFn (fun r => f r + g r)) ∧
      m'.residuals w' (some ⟨n, X⟩) (some (List.ofFn y)) = .ok (List.ofFn (fun r => (y r - f r) - g r)) := by
  obtain ⟨st, f, s, e1, e2, e3, rfl, rfl⟩ := ResidualBart.fit_spec h
  refine ⟨f, by rw [predict_update, e2], fun {lo hi} hlo hhi => ?_⟩
  obtain ⟨d, mm, os, c', k1, k2, k3, k4⟩ := Bart.fit_spec e3
  obtain ⟨-, -, hd, -⟩ := constructModel_spec k1
  have hsd : s.data = some ⟨n, d⟩ := by rw [k4]
  obtain ⟨g, hg, hg2⟩ := C48_predict hd hsd hc hne hlo hhi X
  have hgg : g = fun r => mean (c.models.map (fun x => originalScale lo hi (x.predictX X r))) := funext fun r => (hg2 r).1
  obtain ⟨st', f', s', a1, a2, a3, a4⟩ := C64_residual_bart_partial h
  rw [e1] at a1
  injection a1 with a1
  subst a1
  rw [e2] at a2
  injection a2 with a2
  subst a2
  rw [e3] at a3
  injection a3 with a3
  subst a3
  obtain ⟨b1, b2⟩ := a4 X f g e2 hg
  rw [← hgg]
  exact ⟨b1, b2 y⟩

/-- C64 is false without `X`: after every successful fit `predict()` raises, and with stored in-sample predictions so does `fit_predict`. -/
theorem C64_refuted_predict {m m' : ResidualBart K p} {w w' : World K p} {y : Fin n → K} {rs : Nat → Rand K} (h : m.fit w X y rs = .ok (m', w')) :
    m'.predict w' none = .error .typeError ∧ (m.sk.storePredictions = true → m.fitPredict w X y rs = .error .typeError) := by
  obtain ⟨st, f, s, e1, e2, e3, rfl, rfl⟩ := ResidualBart.fit_spec h
  obtain ⟨d, mm, os, c, k1, k2, k3, k4⟩ := Bart.fit_spec e3
  have h1 : ∀ w', ResidualBart.predict ⟨m.base, s⟩ w' none = .error .typeError := by
    intro w'
    unfold ResidualBart.predict
    rw [k4]
  refine ⟨h1 _, fun hs => ?_⟩
  have hs' : s.storePredictions = true := by rw [k4]; exact hs
  unfold ResidualBart.fitPredict
  rw [h]
  simp only [hs', if_true, h1]

/-- C64 is false without `y`: `residuals(X)` on the training rows subtracts the base prediction twice, so it is wrong in every row whose base prediction is not 0. -/
theorem C64_refuted_residuals {m m' : ResidualBart K p} {w w' : World K p} {y : Fin n → K} {rs : Nat → Rand K} (h : m.fit w X y rs = .ok (m', w')) {c : Combined K p}
    (hc : m'.sk.samples = some c) (hne : c.models ≠ []) :
    ∃ f e : Fin n → K, w'.predict m'.base X = .ok f ∧ m'.residuals w' (some ⟨n, X⟩) (some (List.ofFn y)) = .ok (List.ofFn e) ∧
      m'.residuals w' (some ⟨n, X⟩) none = .ok (List.ofFn (fun r => e r - f r)) ∧ (f ≠ 0 → m'.residuals w' (some ⟨n, X⟩) none ≠ m'.residuals w' (some ⟨n, X⟩) (some (List.ofFn y))) := by
  obtain ⟨f, hf, hr⟩ := C64_training_rows h hc hne
  obtain ⟨st, f', s, e1, e2, e3, rfl, rfl⟩ := ResidualBart.fit_spec h
  have hff : f' = f := by
    rw [predict_update, e2] at hf
    injection hf
  subst hff
  obtain ⟨d, mm, os, c', k1, k2, k3, k4⟩ := Bart.fit_spec e3
  obtain ⟨-, -, hd, -, hm, -⟩ := constructModel_spec k1
  obtain ⟨lo, hi, ⟨r1, h1⟩, ⟨r2, h2⟩, h3, hu, -⟩ := convertData_spec hd
  obtain ⟨p1, p2⟩ := hr (lo := lo) (hi := hi) ⟨⟨r1, h1⟩, by rintro _ ⟨r, rfl⟩; exact (h3 r).1⟩ ⟨⟨r2, h2⟩, by rintro _ ⟨r, rfl⟩; exact (h3 r).2⟩
  have hnone : ResidualBart.residuals ⟨m.base, s⟩ { w with obj := Function.update w.obj m.base ⟨(w.obj m.base).kind, some st⟩ } (some ⟨n, X⟩) none =
      .ok (List.ofFn (fun r => ((y r - f' r) - mean (c.models.map (fun x => originalScale lo hi (x.predictX X r)))) - f' r)) := by
    unfold ResidualBart.residuals residualsWith
    rw [p1]
    rw [k4]
    simp only [hm, hu, npSub_ofFn, Except.ok.injEq, List.ofFn_inj]
    funext r
    ring
  refine ⟨f', _, hf, p2, hnone, fun hne hc => hne ?_⟩
  rw [hnone, p2] at hc
  injection hc with hc
  have := List.ofFn_injective hc
  funext r
  have := congrFun this r
  simpa using this

/-! ### C77

Full statement: `ResidualBART(base_estimator)` works on a copy of the given estimator, so fitting it changes neither the estimator of the caller nor other models made from it.
It is false: the copy is overwritten by the original. -/

/-- C77 is false: the estimator of the caller is the one that is fitted. -/
theorem C77_refuted {lin kd : Regressor K p} {st0 : Option kd.State} {w w' : World K p} {b : EstId} {s : SkModel K p} {m' : ResidualBart K p} {y : Fin n → K} {rs : Nat → Rand K}
    (hb : b < w.next) (hk : w.obj b = ⟨kd, st0⟩)
    (h : (ResidualBart.init lin w (some b) s).1.fit (ResidualBart.init lin w (some b) s).2 X y rs = .ok (m', w')) :
    ∃ st, kd.fit X y = .ok st ∧ w'.obj b = ⟨kd, some st⟩ := by
  have hk' : (ResidualBart.init lin w (some b) s).2.obj (ResidualBart.init lin w (some b) s).1.base = ⟨kd, st0⟩ := by
    simp only [ResidualBart.init, World.clone, World.alloc]
    rw [Function.update_of_ne (Nat.ne_of_lt hb)]
    exact hk
  obtain ⟨st, f, s', e1, e2, e3, rfl, rfl⟩ := ResidualBart.fit_spec' h hk'
  exact ⟨st, e1, Function.update_self _ _ _⟩

/-- C77 is false: of two models made from the same estimator, fitting the second changes the predictions of the first, to the sum of the new base prediction and its own BART part. -/
theorem C77_refuted_shared {lin kd : Regressor K p} {st0 : Option kd.State} {w w1 w2 : World K p} {b : EstId} {s s2 : SkModel K p} {m1 m2 : ResidualBart K p} {n2 : Nat}
    {X2 : Fin n2 → Fin p → Fl K} {y : Fin n → K} {y2 : Fin n2 → K} {rs rs2 : Nat → Rand K} (hb : b < w.next) (hk : w.obj b = ⟨kd, st0⟩)
    (h : (ResidualBart.init lin w (some b) s).1.fit (ResidualBart.init lin w (some b) s).2 X y rs = .ok (m1, w1))
    (h2 : (ResidualBart.init lin w1 (some b) s2).1.fit (ResidualBart.init lin w1 (some b) s2).2 X2 y2 rs2 = .ok (m2, w2)) :
    ∃ st st2, kd.fit X y = .ok st ∧ kd.fit X2 y2 = .ok st2 ∧ ∀ {q : Nat} (Z : Fin q → Fin p → Fl K) (f f2 g : Fin q → K),
      kd.predict st Z = .ok f → kd.predict st2 Z = .ok f2 → m1.sk.predict (some ⟨q, Z⟩) = .ok (List.ofFn g) →
      m1.predict w1 (some ⟨q, Z⟩) = .ok (List.ofFn (fun r => f r + g r)) ∧ m1.predict w2 (some ⟨q, Z⟩) = .ok (List.ofFn (fun r => f2 r + g r)) := by
  obtain ⟨st, a1, a2⟩ := C77_refuted hb hk h
  have hb1 : b < w1.next := by
    obtain ⟨_, _, _, _, _, _, -, rfl⟩ := ResidualBart.fit_spec h
    show b < w.next + 1
    exact Nat.lt_succ_of_lt hb
  obtain ⟨st2, c1, c2⟩ := C77_refuted hb1 a2 h2
  have hbase : m1.base = b := by
    obtain ⟨_, _, _, _, _, _, rfl, -⟩ := ResidualBart.fit_spec h
    rfl
  refine ⟨st, st2, a1, c1, fun {q} Z f f2 g hf hf2 hg => ⟨?_, ?_⟩⟩
  · unfold ResidualBart.predict World.predict
    rw [hbase, a2]
    simp only [Estimator.predict, hf, hg, zipWith_ofFn]
  · unfold ResidualBart.predict World.predict
    rw [hbase, c2]
    simp only [Estimator.predict, hf2, hg, zipWith_ofFn]

/-- C77 (partial): fitting changes no other estimator object and no prediction of a model with another base estimator; without `base_estimator` each model gets its own new one.
Missing: the case that an estimator is given, for which it is false. -/
theorem C77_own_estimator_partial {m m' m2 : ResidualBart K p} {w w' : World K p} {y : Fin n → K} {rs : Nat → Rand K} (h : m.fit w X y rs = .ok (m', w')) :
    (∀ b, b ≠ m.base → w'.obj b = w.obj b) ∧ (m2.base ≠ m.base → ∀ Z, m2.predict w' Z = m2.predict w Z) ∧
    (∀ (lin : Regressor K p) (s : SkModel K p), (ResidualBart.init lin w none s).1.base = w.next ∧ (ResidualBart.init lin w none s).2.next = w.next + 1 ∧
      ∀ b < w.next, (ResidualBart.init lin w none s).2.obj b = w.obj b) := by
  obtain ⟨st, f, s, e1, e2, e3, rfl, rfl⟩ := ResidualBart.fit_spec h
  refine ⟨fun b hb => Function.update_of_ne hb _ _, fun hb Z => ?_, fun lin s => ⟨rfl, rfl, fun b hb => ?_⟩⟩
  · unfold ResidualBart.predict World.predict
    simp only [Function.update_of_ne hb]
  · simp only [ResidualBart.init, World.alloc]
    exact Function.update_of_ne (Nat.ne_of_lt hb) _ _

/-! ### examples -/

section ex
attribute [local instance] exFns

/-- A regressor that predicts the mean of the target. -/
def exMean : Regressor ℚ 1 := ⟨ℚ, fun {n} _ y => if n = 0 then .error .valueError else .ok (mean (List.ofFn y)), fun st {_} _ => .ok (fun _ => st)⟩

/-- One object, not fitted. -/
def exWorld : World ℚ 1 := ⟨fun _ => ⟨exMean, none⟩, 1⟩

/-- C64, C77, the example: a fit with the mean as base estimator; the base prediction is 1 in each row. -/
example : (match (ResidualBart.init exMean exWorld (some 0) (exSk true)).1.fit (ResidualBart.init exMean exWorld (some 0) (exSk true)).2 exX exY exRs with
    | .ok (m, w) =>
      match m.predict w (some ⟨3, exX⟩), m.sk.predict (some ⟨3, exX⟩), m.residuals w (some ⟨3, exX⟩) (some [0, 1, 2]), m.residuals w (some ⟨3, exX⟩) none with
      | .ok f, .ok g, .ok e, .ok e2 => decide (f = g.map (fun x => 1 + x) ∧ e = List.zipWith (fun a b => a - b) [0, 1, 2] f ∧ e2 = e.map (fun x => x - 1) ∧ m.base = 0 ∧
          m.sk.samples.map (fun c => c.models.length) = some 4 ∧ g.length = 3)
      | _, _, _, _ => false
    | .error _ => false) = true := by
  decide +kernel

/-- C77, the example: the same estimator given to two models; fitting the second changes the prediction of the first. -/
example : (match (ResidualBart.init exMean exWorld (some 0) (exSk true)).1.fit (ResidualBart.init exMean exWorld (some 0) (exSk true)).2 exX exY exRs with
    | .ok (m, w) =>
      match (ResidualBart.init exMean w (some 0) (exSk true)).1.fit (ResidualBart.init exMean w (some 0) (exSk true)).2 exX (fun r => 5 * exY r) exRs with
      | .ok (_, w2) =>
        match m.predict w (some ⟨3, exX⟩), m.predict w2 (some ⟨3, exX⟩) with
        | .ok f, .ok f2 => decide (f2 = f.map (fun x => x + 4))
        | _, _ => false
      | .error _ => false
    | .error _ => false) = true := by
  decide +kernel

/-- C64, the example for `OLS`, with the mean in place of a regression. -/
example : (match (Ols.init ⟨ℚ, fun {n} _ y => if n = 0 then .error .valueError else .ok (mean (List.ofFn y), fun r => y r - mean (List.ofFn y)), fun st {_} _ => .ok (fun _ => st)⟩
      (exSk true)).fit exX exY exRs with
    | .ok m =>
      match m.predict (some ⟨3, exX⟩), m.sk.predict (some ⟨3, exX⟩) with
      | .ok f, .ok g => decide (f = g.map (fun x => 1 + x) ∧ g.length = 3)
      | _, _ => false
    | .error _ => false) = true := by
  decide +kernel

end ex
end Bart
