import Verif.Props.ObliviousUnitsProps
import Verif.Proofs.LayerRecode
import Verif.Proofs.LayerMirror
import Verif.Proofs.Transport
import Verif.Spec.Storing
import Verif.Spec.Mirror

/-! C131: units of the features, constant columns and the sign of the target do not matter to a fit with the oblivious tree sampler. -/

set_option linter.unusedSectionVars false

namespace Bart.Oblivious
open Bart Spec Reference
variable {K : Type} [Field K] [LinearOrder K] [IsStrictOrderedRing K] {n p p' : Nat} {X : Fin n → Fin p → Fl K} [MathFns K] [FloorRing K]

omit [Field K] [IsStrictOrderedRing K] [MathFns K] [FloorRing K] in
theorem recodeEntry_eq (f : K → K) (x : Fl K) : recodeEntry f x = x.map f := by cases x <;> rfl

/-- Increasing functions of the columns. -/
def recodeOf {γ : Fin p → Fin p'} (hγ : StrictMono γ) {g : Fin p → K → K} (hg : ∀ j, StrictMono (g j)) : Recode K p p' where
  at' := γ
  mono := hγ
  f := fun j => recodeEntry (g j)
  le := fun j a b => by rw [recodeEntry_eq, recodeEntry_eq]; exact Fl.map_le (hg j) a b
  lt := fun j a b => by rw [recodeEntry_eq, recodeEntry_eq]; exact Fl.map_lt (hg j) a b
  eq := fun j a b => by rw [recodeEntry_eq, recodeEntry_eq]; exact Fl.map_eq (hg j) a b
  inj := fun j a b h => by rw [recodeEntry_eq, recodeEntry_eq] at h; exact Fl.map_injective (hg j) h

/-- C131, the features: the columns replaced by strictly increasing functions of them and put among further columns that are constant in the training data. With the same draws `fit` raises the same
exception, or both fits succeed; then the predictions for all data recoded in the same way (whatever is in the further columns) and for the training data, the sigmas and the acceptance trace are the same. -/
theorem C131_features (hX : ∀ r, GoodRow (X r)) {X' : Fin n → Fin p' → Fl K} (hX' : ∀ r, GoodRow (X' r)) (hp : 0 < p) {γ : Fin p → Fin p'} (hγ : StrictMono γ) {g : Fin p → K → K}
    (hg : ∀ j, StrictMono (g j)) (hc : ∀ r v, X' r (γ v) = recodeEntry (g v) (X r v)) (hex : ∀ j, j ∉ Set.range γ → ∃ a, ∀ r, X' r j = a) {s : SkModel K p} {s' : SkModel K p'}
    (hs : SameSampling s s') (hl : SameLength s s') (hst : s'.storePredictions = s.storePredictions ∧ s'.storeAcceptance = s.storeAcceptance) (hp1 : s.pGrow ≠ 0) (hp2 : s.pPrune ≠ 0)
    (hth : s.thin ≠ 0) (hch : 0 < s.nChains) (hns : 0 < s.nSamples) {y : Fin n → K} (hy : ∃ i j, y i ≠ y j) (rs : Nat → Rand K) :
    SameUpTo (fun f f' => (∀ (q : Nat) (Z : Fin q → Fin p → Fl K) (Z' : Fin q → Fin p' → Fl K), (∀ r, GoodRow (Z r)) → (∀ r, GoodRow (Z' r)) →
          (∀ r v, Z' r (γ v) = recodeEntry (g v) (Z r v)) → f'.predict (some ⟨q, Z'⟩) = f.predict (some ⟨q, Z⟩)) ∧
        (s.storePredictions = true → f'.predict none = f.predict none) ∧
        (s.storeAcceptance = true → f'.samples.map Combined.acceptance = f.samples.map Combined.acceptance) ∧
        f'.samples.map (fun c => c.models.map (fun x => (x.live.storedSigma x.stored).current)) = f.samples.map (fun c => c.models.map (fun x => (x.live.storedSigma x.stored).current)))
      (fit s X y rs) (fit s' X' y rs) := by
  obtain ⟨lo, hi, hlo, hhi, hlt⟩ := exists_range hy
  have hp' : 0 < p' := Fin.pos_iff_nonempty.2 ⟨γ ⟨0, hp⟩⟩
  have hconf : s'.config = s.config := by
    unfold SkModel.config
    rw [hs.nTrees, hs.nChains, hs.sigmaA, hs.sigmaB, hs.alpha, hs.beta, hs.pGrow, hs.pPrune, hl.nSamples, hl.nBurn, hl.thin]
  have h1 := C127_fit hX hp hp1 hp2 hth hch hlo hhi hlt rs
  have h2 := C127_fit hX' (s := s') hp' (by rw [hs.pGrow]; exact hp1) (by rw [hs.pPrune]; exact hp2) (by rw [hl.thin]; exact hth) (by rw [hs.nChains]; exact hch) hlo hhi hlt rs
  have hT : (recodeOf hγ hg).Table X X' := ⟨fun r j => hc r j, fun j hj => hex j (by rintro ⟨v, hv⟩; exact hj v hv)⟩
  have h3 := hT.fit s.config lo hi y rs
  rw [← hconf] at h3
  nth_rewrite 2 [hconf] at h3
  have hne : ∀ l, Layers.fit s.config X lo hi y rs = .ok l → l ≠ [] := fun l hl => layer_fit_nonempty hch hns hl
  generalize fit s X y rs = A at h1 ⊢
  generalize fit s' X' y rs = A' at h2 ⊢
  cases A with
  | error e =>
    simp only at h1
    rw [h1] at h3
    cases A' with
    | error e' => simp only at h2; rw [h2] at h3; simp only [Except.map, Except.error.injEq] at h3; exact h3.symm
    | ok f' => obtain ⟨l', c', a1, -⟩ := h2; rw [a1] at h3; cases h3
  | ok f =>
    obtain ⟨l, c, a1, a2, -, -, a5, -, a7, a8, a9⟩ := h1
    rw [a1] at h3
    cases A' with
    | error e' => simp only at h2; rw [h2] at h3; cases h3
    | ok f' =>
      obtain ⟨l', c', b1, b2, -, -, b5, -, b7, b8, b9⟩ := h2
      rw [b1] at h3
      simp only [Except.map, Except.ok.injEq] at h3
      subst h3
      have hl := hne l a1
      have hl' : l.map (recodeOf hγ hg).sample ≠ [] := by simpa using hl
      have hpred : ∀ (x : Fin p → Fl K) (x' : Fin p' → Fl K), (∀ v, x' (γ v) = recodeEntry (g v) (x v)) → Layers.prediction lo hi (l.map (recodeOf hγ hg).sample) x' = Layers.prediction lo hi l x := by
        intro x x' hx
        unfold Layers.prediction
        rw [List.map_map, List.length_map]
        congr 5
        apply List.map_congr_left
        intro st _
        exact (recodeOf hγ hg).forest st.2.trees (fun j => hx j)
      refine ⟨fun q Z Z' hZ hZ' hz => ?_, fun hsp => ?_, fun hsa => ?_, ?_⟩
      · rw [(a9 hl).1 Z hZ, (b9 hl').1 Z' hZ']
        congr 2
        funext r
        exact hpred (Z r) (Z' r) (hz r)
      · rw [(a9 hl).2 hsp, (b9 hl').2 (hst.1.trans hsp)]
        congr 2
        funext r
        exact hpred (X r) (X' r) (hc r)
      · rw [a2, b2, Option.map_some, Option.map_some, a8 hsa, b8 (hst.2.trans hsa), List.map_map]
        rfl
      · rw [a2, b2, Option.map_some, Option.map_some, a5, b5, List.map_map]
        rfl

/-- C131, the sign of the target: for `a < 0`, the fit to `a * y + b` with the other sign of all normal draws raises the same exception as the fit to `y`, or both succeed; then every prediction `f` becomes
`a * f + b`, and the sigmas and the acceptance trace are the same. -/
theorem C131_sign (hX : ∀ r, GoodRow (X r)) {a : K} (ha : a < 0) (b : K) {s : SkModel K p} (hp : 0 < p) (hp1 : s.pGrow ≠ 0) (hp2 : s.pPrune ≠ 0) (hth : s.thin ≠ 0) (hch : 0 < s.nChains)
    (hns : 0 < s.nSamples) {y : Fin n → K} (hy : ∃ i j, y i ≠ y j) (rs : Nat → Rand K) :
    SameUpTo (MirrorFit a b s.storePredictions s.storeAcceptance) (fit s X y rs) (fit s X (rescaled a b y) (mirrored ∘ rs)) := by
  obtain ⟨lo, hi, hlo, hhi, hlt⟩ := exists_range hy
  have h1 := C127_fit hX hp hp1 hp2 hth hch hlo hhi hlt rs
  have hlo' : IsLeast (Set.range (rescaled a b y)) (a * hi + b) := by
    obtain ⟨⟨i, hi'⟩, h⟩ := hhi
    refine ⟨⟨i, by simp [rescaled, hi']⟩, ?_⟩
    rintro _ ⟨j, rfl⟩
    have := h ⟨j, rfl⟩
    simp only [rescaled]
    nlinarith
  have hhi' : IsGreatest (Set.range (rescaled a b y)) (a * lo + b) := by
    obtain ⟨⟨i, hi'⟩, h⟩ := hlo
    refine ⟨⟨i, by simp [rescaled, hi']⟩, ?_⟩
    rintro _ ⟨j, rfl⟩
    have := h ⟨j, rfl⟩
    simp only [rescaled]
    nlinarith
  have h2 := C127_fit hX hp hp1 hp2 hth hch hlo' hhi' (by nlinarith) (mirrored ∘ rs)
  have h3 : Layers.fit s.config X (a * hi + b) (a * lo + b) (rescaled a b y) (mirrored ∘ rs) = (Layers.fit s.config X lo hi y rs).map (List.map (fun x => (x.1, x.2.mirror))) := by
    unfold Layers.fit
    rw [← List.map_map]
    unfold rescaled
    rw [scaled_mirror b ha hlt]
    exact Layers.mirror_chains _ _ _
  have hne : ∀ l, Layers.fit s.config X lo hi y rs = .ok l → l ≠ [] := fun l hl => layer_fit_nonempty hch hns hl
  generalize fit s X y rs = A at h1 ⊢
  generalize fit s X (rescaled a b y) (mirrored ∘ rs) = A' at h2 ⊢
  cases A with
  | error e =>
    simp only at h1
    rw [h1] at h3
    cases A' with
    | error e' => simp only at h2; rw [h2] at h3; simp only [Except.map, Except.error.injEq] at h3; exact h3.symm
    | ok f' => obtain ⟨l', c', a1, -⟩ := h2; rw [a1] at h3; cases h3
  | ok f =>
    obtain ⟨l, c, a1, a2, -, -, a4, a5, a6, a7, a8⟩ := h1
    rw [a1] at h3
    cases A' with
    | error e' => simp only at h2; rw [h2] at h3; cases h3
    | ok f' =>
      obtain ⟨l', c', b1, b2, -, -, b4, b5, b6, b7, b8⟩ := h2
      rw [b1] at h3
      simp only [Except.map, Except.ok.injEq] at h3
      subst h3
      have hl := hne l a1
      have hl' : (l.map fun x => (x.1, x.2.mirror)) ≠ [] := by simpa using hl
      constructor
      · intro q Z hZ
        rw [(a8 hl).1 Z hZ, (b8 hl').1 Z hZ]
        simp only [Except.map, List.map_ofFn, Except.ok.injEq]
        congr 1
        funext r
        exact Layers.prediction_mirror a b lo hi l (Z r)
      · intro hs
        rw [(a8 hl).2 hs, (b8 hl').2 hs]
        simp only [Except.map, List.map_ofFn, Except.ok.injEq]
        congr 1
        funext r
        exact Layers.prediction_mirror a b lo hi l (X r)
      · intro q Z hZ
        rw [a2, b2, Option.map_some, Option.map_some, b5 Z hZ, List.map_map]
        have h4 : c.models.map (fun x => List.ofFn (fun r => -x.predictX Z r)) = (c.models.map (fun x => List.ofFn (x.predictX Z))).map (List.map (- ·)) := by
          rw [List.map_map]
          congr 1
          funext x
          simp only [Function.comp_apply, List.map_ofFn]
          rfl
        rw [h4, a5 Z hZ, List.map_map]
        congr 2
        funext x
        simp only [Function.comp_apply, List.map_ofFn]
        congr 1
        funext r
        exact Layers.mirror_forest x.2.trees (Z r)
      · intro hs
        rw [a2, b2, Option.map_some, Option.map_some, a6 hs, b6 hs, List.map_map, List.map_map]
        congr 2
        funext x
        simp only [Function.comp_apply, List.map_ofFn]
        congr 1
        funext r
        exact Layers.mirror_forest x.2.trees (X r)
      · rw [a2, b2, Option.map_some, Option.map_some, a4, b4, List.map_map]
        rfl
      · intro hs
        rw [a2, b2, Option.map_some, Option.map_some, a7 hs, b7 hs, List.map_map]
        rfl

/-! ### the hypotheses can be met -/

section examples
attribute [local instance] exFns

/-- The table of the example with a constant column in front and the entries doubled. -/
def exXg : Fin 4 → Fin 2 → Fl ℚ := fun r => ![.fin 7, recodeEntry (fun v => 2 * v) (exXf r 0)]

/-- The settings of the example, for two columns. -/
def exSkg : SkModel ℚ 2 := ⟨1, 1, 1, 1, 3, 1, 1, 9/10, 1, true, true, 1/2, 1/2, none, none, none, none⟩

example : (∀ r, GoodRow (exXg r)) ∧ StrictMono (fun _ : Fin 1 => (1 : Fin 2)) ∧ (∀ _ : Fin 1, StrictMono (fun v : ℚ => 2 * v)) ∧ (∀ r v, exXg r ((fun _ : Fin 1 => (1 : Fin 2)) v) = recodeEntry (fun v => 2 * v) (exXf r v)) ∧
    (∀ j, j ∉ Set.range (fun _ : Fin 1 => (1 : Fin 2)) → ∃ a, ∀ r, exXg r j = a) ∧ SameSampling exSkf exSkg ∧ SameLength exSkf exSkg := by
  refine ⟨fun r j => ?_, fun a b h => absurd h (by omega), fun _ a b h => ?_, fun r v => ?_, fun j hj => ⟨.fin 7, fun r => ?_⟩, by constructor <;> rfl, by constructor <;> rfl⟩
  · fin_cases j <;> simp [exXg, exXf, recodeEntry]
  · simpa using h
  · obtain rfl : v = 0 := Subsingleton.elim _ _
    rfl
  · obtain rfl : j = 0 := by
      fin_cases j
      · rfl
      · exact absurd ⟨0, rfl⟩ hj
    rfl

/-- The fit to the recoded table returns and has the predictions of the example; these are not all equal. -/
example : (match exFitf, fit exSkg exXg exYf (fun _ => exRf) with
    | .ok f, .ok f' => (match f.predict none, f'.predict none, f.predict (some ⟨4, exXf⟩), f'.predict (some ⟨4, exXg⟩) with
      | .ok a, .ok b, .ok c, .ok d => decide (a = b ∧ c = d ∧ a[0]? ≠ a[3]?)
      | _, _, _, _ => false)
    | _, _ => false) = true := by decide +kernel

/-- The fit to the target with the other sign. -/
example : (match exFitf, fit exSkf exXf (rescaled (-2) 5 exYf) (mirrored ∘ fun _ => exRf) with
    | .ok f, .ok f' => (match f.predict none, f'.predict none with
      | .ok a, .ok b => decide (b = a.map (fun v => -2 * v + 5))
      | _, _ => false)
    | _, _ => false) = true := by decide +kernel

end examples
end Bart.Oblivious
