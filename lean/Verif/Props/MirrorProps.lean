import Verif.Proofs.RefMirror
import Verif.Props.OrderProps
import Verif.Props.InvarianceProps
import Verif.Model.RealFns
import Mathlib.Probability.Distributions.Gaussian.Real
import Mathlib.MeasureTheory.Constructions.Pi
import Mathlib.MeasureTheory.Group.MeasurableEquiv

/-! C113: a target with the other sign. -/

set_option linter.unusedSectionVars false

namespace Bart
open Spec Reference

section
variable {K : Type} [Field K] [LinearOrder K] [IsStrictOrderedRing K] [MathFns K] [FloorRing K] {n p : Nat} {X : Fin n → Fin p → Fl K}

/-- C113: for `a < 0`, the fit to `a * y + b` with the other sign of all normal draws raises the same exception as the fit to `y`, or both succeed; then every prediction `f` becomes `a * f + b`,
and the sigmas and the acceptance trace are the same. -/
theorem C113_sign (hX : NoNan X) {a : K} (ha : a < 0) (b : K) {s : SkModel K p} (hp : 0 < p) (hp1 : s.pGrow ≠ 0) (hp2 : s.pPrune ≠ 0) (hth : s.thin ≠ 0) (hch : 0 < s.nChains)
    (hns : 0 < s.nSamples) {y : Fin n → K} (hy : ∃ i j, y i ≠ y j) (rs : Nat → Rand K) :
    SameUpTo (MirrorFit a b s.storePredictions s.storeAcceptance) (s.fit X y rs) (s.fit X (rescaled a b y) (mirrored ∘ rs)) := by
  obtain ⟨lo, hi, hlo, hhi, hlt⟩ := exists_range hy
  have h1 := C103_fit hX hp hp1 hp2 hth hch hlo hhi hlt rs
  have hlo' : IsLeast (Set.range (rescaled a b y)) (a * hi + b) := by
    obtain ⟨⟨i, hi'⟩, h⟩ := hhi
    refine ⟨⟨i, by simp [rescaled, hi']⟩, ?_⟩
    rintro _ ⟨j, rfl⟩
    have := h ⟨j, rfl⟩
    simp only [rescaled]
    nlinarith
  have hhi' : IsGreatest (Set.range (rescaled a b y)) (a * lo + b) := by
    obtain ⟨⟨i, hi'⟩, h⟩ := hlo
    refine ⟨⟨i, by simp [rescaled, hi']⟩, ?_⟩
    rintro _ ⟨j, rfl⟩
    have := h ⟨j, rfl⟩
    simp only [rescaled]
    nlinarith
  have h2 := C103_fit hX hp hp1 hp2 hth hch hlo' hhi' (by nlinarith) (mirrored ∘ rs)
  have h3 : Reference.fit s.config X (a * hi + b) (a * lo + b) (rescaled a b y) (mirrored ∘ rs) = match Reference.fit s.config X lo hi y rs with
      | .error e => .error e
      | .ok l => .ok (l.map fun x => (x.1, x.2.mirror)) := by
    unfold Reference.fit
    rw [← List.map_map]
    unfold rescaled
    rw [scaled_mirror b ha hlt]
    exact mirror_chains _ _ _
  have hne : ∀ l, Reference.fit s.config X lo hi y rs = .ok l → l ≠ [] := fun l hl => chains_nonempty (c := s.config) hns (by
    intro hc
    have := congrArg List.length hc
    simp at this
    exact absurd this (Nat.ne_of_gt hch)) hl
  generalize s.fit X y rs = A at h1 ⊢
  generalize s.fit X (rescaled a b y) (mirrored ∘ rs) = A' at h2 ⊢
  cases A with
  | error e =>
    simp only at h1
    rw [h1] at h3
    cases A' with
    | error e' => simp only at h2; rw [h2] at h3; simp only [Except.error.injEq] at h3; exact h3.symm
    | ok f' => obtain ⟨l', c', a1, -⟩ := h2; rw [a1] at h3; cases h3
  | ok f =>
    obtain ⟨l, c, a1, a2, a3, a4, a5, a6, a7, a8⟩ := h1
    rw [a1] at h3
    cases A' with
    | error e' => simp only at h2; rw [h2] at h3; cases h3
    | ok f' =>
      obtain ⟨l', c', b1, b2, b3, b4, b5, b6, b7, b8⟩ := h2
      rw [b1] at h3
      simp only [Except.ok.injEq] at h3
      subst h3
      have hl := hne l a1
      have hl' : (l.map fun x => (x.1, x.2.mirror)) ≠ [] := by simpa using hl
      constructor
      · intro q Z hZ
        rw [(a8 hl).1 Z hZ, (b8 hl').1 Z hZ]
        simp only [Except.map, List.map_ofFn, Except.ok.injEq]
        congr 1
        funext r
        exact prediction_mirror a b lo hi l (Z r)
      · intro hs
        rw [(a8 hl).2 hs, (b8 hl').2 hs]
        simp only [Except.map, List.map_ofFn, Except.ok.injEq]
        congr 1
        funext r
        exact prediction_mirror a b lo hi l (X r)
      · intro q Z hZ
        rw [a2, b2, Option.map_some, Option.map_some, b5 Z hZ, List.map_map]
        have h4 : c.models.map (fun x => List.ofFn (fun r => -x.predictX Z r)) = (c.models.map (fun x => List.ofFn (x.predictX Z))).map (List.map (- ·)) := by
          rw [List.map_map]
          congr 1
          funext x
          simp only [Function.comp_apply, List.map_ofFn]
          rfl
        rw [h4, a5 Z hZ, List.map_map]
        congr 2
        funext x
        simp only [Function.comp_apply, List.map_ofFn]
        congr 1
        funext r
        exact mirror_forest x.2.trees (Z r)
      · intro hs
        rw [a2, b2, Option.map_some, Option.map_some, a6 hs, b6 hs, List.map_map, List.map_map]
        congr 2
        funext x
        simp only [Function.comp_apply, List.map_ofFn]
        congr 1
        funext r
        exact mirror_forest x.2.trees (X r)
      · rw [a2, b2, Option.map_some, Option.map_some, a4, b4, List.map_map]
        rfl
      · intro hs
        rw [a2, b2, Option.map_some, Option.map_some, a7 hs, b7 hs, List.map_map]
        rfl

/-- C113, the predictions alone. -/
theorem C113_predictions (hX : NoNan X) {a : K} (ha : a < 0) (b : K) {s : SkModel K p} (hp : 0 < p) (hp1 : s.pGrow ≠ 0) (hp2 : s.pPrune ≠ 0) (hth : s.thin ≠ 0) (hch : 0 < s.nChains)
    (hns : 0 < s.nSamples) {y : Fin n → K} (hy : ∃ i j, y i ≠ y j) (rs : Nat → Rand K) {q : Nat} {Z : Fin q → Fin p → Fl K} (hZ : ∀ r, GoodRow (Z r)) :
    predictionsOf (s.fit X (rescaled a b y) (mirrored ∘ rs)) Z = (predictionsOf (s.fit X y rs) Z).map (List.map (fun v => a * v + b)) := by
  have h := C113_sign hX ha b hp hp1 hp2 hth hch hns hy rs
  generalize s.fit X y rs = A at h ⊢
  generalize s.fit X (rescaled a b y) (mirrored ∘ rs) = A' at h ⊢
  cases A <;> cases A' <;> simp only [SameUpTo] at h
  · subst h; rfl
  · exact h.newData Z hZ

end

section
open MeasureTheory ProbabilityTheory
variable {n p : Nat} {X : Fin n → Fin p → Fl ℝ}

/-- The law of independent standard normal numbers, `k` for each of `m` chains. -/
noncomputable def normalLaw (m k : Nat) : Measure (Fin m → Fin k → ℝ) := Measure.pi fun _ => Measure.pi fun _ => gaussianReal 0 1

theorem normalLaw_neg (m k : Nat) : MeasurePreserving (MeasurableEquiv.neg (Fin m → Fin k → ℝ)) (normalLaw m k) (normalLaw m k) := by
  have h0 : MeasurePreserving (fun x : ℝ => -x) (gaussianReal 0 1) (gaussianReal 0 1) := ⟨measurable_neg, by rw [gaussianReal_map_neg, neg_zero]⟩
  have h1 : MeasurePreserving (fun (z : Fin k → ℝ) i => -z i) (Measure.pi fun _ => gaussianReal 0 1) (Measure.pi fun _ => gaussianReal 0 1) :=
    measurePreserving_pi _ _ fun _ => h0
  exact measurePreserving_pi (fun _ : Fin m => Measure.pi fun _ : Fin k => gaussianReal 0 1) _ fun _ => h1

/-- C113, the distribution: whatever the other draws, for independent standard normal numbers, the predictions of the fit to `a * y + b` with `a < 0` have the distribution of `a * f + b`, with `f` the
predictions of the fit to `y`. -/
theorem C113_distribution (hX : NoNan X) {a : ℝ} (ha : a < 0) (b : ℝ) {s : SkModel ℝ p} (hp : 0 < p) (hp1 : s.pGrow ≠ 0) (hp2 : s.pPrune ≠ 0) (hth : s.thin ≠ 0) (hch : 0 < s.nChains)
    (hns : 0 < s.nSamples) {y : Fin n → ℝ} (hy : ∃ i j, y i ≠ y j) (other : Nat → Rand ℝ) {k q : Nat} {Z : Fin q → Fin p → Fl ℝ} (hZ : ∀ r, GoodRow (Z r)) (A : Set (Except PyErr (List ℝ))) :
    normalLaw s.nChains k {zs | predictionsOf (s.fit X (rescaled a b y) (withNormals other zs)) Z ∈ A} =
      normalLaw s.nChains k {zs | (predictionsOf (s.fit X y (withNormals other zs)) Z).map (List.map (fun v => a * v + b)) ∈ A} := by
  rw [← (normalLaw_neg s.nChains k).measure_preimage_equiv {zs | predictionsOf (s.fit X (rescaled a b y) (withNormals other zs)) Z ∈ A}]
  congr 1
  ext zs
  simp only [Set.mem_preimage, Set.mem_setOf_eq]
  rw [← C113_predictions hX ha b hp hp1 hp2 hth hch hns hy (withNormals other zs) hZ]
  rw [fit_draws_congr s (rescaled a b y) (rs := mirrored ∘ withNormals other zs) (rs' := withNormals other (MeasurableEquiv.neg _ zs))]
  intro i hi
  simp only [Function.comp_apply, withNormals, hi, dif_pos, mirrored, List.map_ofFn]
  rfl

end

section examples
attribute [local instance] exFns

/-- C113, the example: a = -5, b = 7, a fit that succeeds, predictions that are not constant; with the same draws (without the other sign of the normal numbers) the predictions would be others. -/
example : NoNan exX ∧ (-5 : ℚ) < 0 ∧ (exSk true).pGrow ≠ 0 ∧ (exSk true).pPrune ≠ 0 ∧ (exSk true).thin ≠ 0 ∧ 0 < (exSk true).nChains ∧ 0 < (exSk true).nSamples ∧ (∃ i j, exY i ≠ exY j) ∧
    (∀ r, GoodRow (exX r)) ∧
    (match exFit true, (exSk true).fit exX (rescaled (-5) 7 exY) (mirrored ∘ exRs), (exSk true).fit exX (rescaled (-5) 7 exY) exRs with
    | .ok s1, .ok s2, .ok s3 =>
      match s1.predict (some ⟨3, exX⟩), s2.predict (some ⟨3, exX⟩), s3.predict (some ⟨3, exX⟩) with
      | .ok f, .ok g, .ok h => decide (f ≠ g ∧ g = f.map (fun z => -5 * z + 7) ∧ f[0]? ≠ f[1]? ∧ h ≠ g)
      | _, _, _ => false
    | _, _, _ => false) = true := by
  refine ⟨exX_noNan, by norm_num, by decide +kernel, by decide +kernel, by decide +kernel, by decide +kernel, by decide +kernel, ⟨0, 1, by decide +kernel⟩, ?_, by decide +kernel⟩
  unfold GoodRow
  decide +kernel

end examples
end Bart
