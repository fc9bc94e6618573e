import Verif.Model.Samples
import Verif.Spec.Forest

/-! Histories of a model (specification). -/

namespace Bart.Spec
variable {K : Type} [Field K] [LinearOrder K] {n p : Nat}

/-- A newly constructed model over the covariates `X` and the target `y0` (bartpy/sklearnmodel.py:134-156: `Data`, `Sigma`, `Model`). -/
def FreshModel (X : Fin n → Fin p → Fl K) (y0 : Fin n → K) (m : BModel K n p) : Prop :=
  ∃ normalize d sigma nTrees alpha beta k, Data.init X y0 none normalize none none none none = .ok d ∧
    BModel.construct d sigma nTrees alpha beta k = .ok m

variable [MathFns K]

/-- `ModelRun pGrow pPrune m k m'`: `k` Gibbs sweeps of the default sampler and any number of `predict()`, `residuals()`, `deep_copy_model()` lead from `m` to `m'`. -/
inductive ModelRun (pGrow pPrune : K) : BModel K n p → Nat → BModel K n p → Prop where
  | nil (m) : ModelRun pGrow pPrune m 0 m
  | sweep {m k m1 r mus m2 r2} : ModelRun pGrow pPrune m k m1 → m1.sweep pGrow pPrune r = .ok (mus, m2, r2) → ModelRun pGrow pPrune m (k + 1) m2
  | predict {m k m1 f m2} : ModelRun pGrow pPrune m k m1 → m1.predict = .ok (f, m2) → ModelRun pGrow pPrune m k m2
  | residuals {m k m1 f m2} : ModelRun pGrow pPrune m k m1 → m1.residuals = .ok (f, m2) → ModelRun pGrow pPrune m k m2
  | copy {m k m1} : ModelRun pGrow pPrune m k m1 → ModelRun pGrow pPrune m k m1.deepCopy.2

/-- Models that occur when the default sampler runs; both move probabilities are nonzero. -/
def ReachableModel (X : Fin n → Fin p → Fl K) (m : BModel K n p) : Prop :=
  ∃ y0 pGrow pPrune m0 k, pGrow ≠ 0 ∧ pPrune ≠ 0 ∧ FreshModel X y0 m0 ∧ ModelRun pGrow pPrune m0 k m

end Bart.Spec
