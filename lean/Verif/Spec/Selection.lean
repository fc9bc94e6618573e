import Verif.Model.Features
import Mathlib.Algebra.BigOperators.Fin
import Mathlib.Algebra.BigOperators.Ring.Finset
import Mathlib.Data.Real.Basic

/-! Specification for C143: how often columns are selected by comparison with permuted targets. -/

namespace Bart.Spec
open Bart

variable {A : Type} [Fintype A]

/-- The probability that `m` independent outcomes with the probabilities `w` have the property `E`. -/
noncomputable def chance (w : A → ℝ) {m : Nat} (E : (Fin m → A) → Prop) : ℝ := by
  classical exact ∑ ω, if E ω then ∏ k, w (ω k) else 0

variable {K : Type} [Field K] [LinearOrder K] [MathFns K] [FloorRing K] {n p : Nat}

/-- What `SelectNullDistributionThreshold.fit` (local thresholds, percentile `q`) does with the real target `y`, the draws `rs` for the fit to it, and `m` runs on permuted targets. Run number `k` has the permutation
and the draws of the outcome `ω k`. -/
def selectorFit (s : SkModel K p) (q : K) (X : Fin n → Fin p → Fl K) (y : Fin n → K) (rs : Nat → Rand K) (run : A → Equiv.Perm (Fin n) × (Nat → Rand K)) {m : Nat} (ω : Fin m → A) : Except PyErr (NullSelector K p) :=
  nullSelectorFit localThresholds s q X y (List.ofFn fun k => (run (ω k)).1) rs (fun i => if h : i < m then (run (ω ⟨i, h⟩)).2 else rs)

/-- The fit returns, and `kept_features` contains column `j`. -/
def Selects (s : SkModel K p) (q : K) (X : Fin n → Fin p → Fl K) (y : Fin n → K) (rs : Nat → Rand K) (run : A → Equiv.Perm (Fin n) × (Nat → Rand K)) (j : Fin p) {m : Nat} (ω : Fin m → A) : Prop :=
  ∃ f l, selectorFit s q X y rs run ω = .ok f ∧ keptFeatures f.featureProportions f.thresholds = .ok l ∧ j ∈ l

/-- `v` is the share of column `j` in the run with permutation `a.1` and draws `a.2`: a fit to the permuted target returns, and `feature_split_proportions` of it gives `v` for `j`. -/
def RunShare (s : SkModel K p) (X : Fin n → Fin p → Fl K) (y : Fin n → K) (j : Fin p) (a : Equiv.Perm (Fin n) × (Nat → Rand K)) (v : K) : Prop :=
  ∃ f, s.fit X (fun r => y (a.1 r)) a.2 = .ok f ∧ f.featureSplitProportions (some [j]) = .ok [(j, v)]

end Bart.Spec
