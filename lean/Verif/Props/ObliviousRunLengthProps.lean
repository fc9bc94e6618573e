import Verif.Props.ObliviousUnitsProps
import Verif.Props.ObliviousFitProps
import Verif.Props.RunLengthProps
import Verif.Spec.RunLength

/-! Property theorems C142: burn-in, thinning and the number of samples only select samples of the oblivious tree sampler. -/

set_option linter.unusedSectionVars false

namespace Bart.Oblivious
open Bart Spec Reference
variable {K : Type} [Field K] [LinearOrder K] [IsStrictOrderedRing K] [MathFns K] [FloorRing K] {n p : Nat} {X : Fin n → Fin p → Fl K}

theorem layer_sweeps_take {c : Reference.Settings K} {y : Fin n → K} : ∀ {N : Nat} {st st' : Layers.State K p} {r r' : Rand K} {l : List (List Bool × Layers.State K p)}, Layers.sweeps c X y N st r = .ok (l, st', r') →
    l.length = N ∧ ∀ k ≤ N, ∃ s1 r1, Layers.sweeps c X y k st r = .ok (l.take k, s1, r1) := by
  intro N
  induction N with
  | zero =>
    intro st st' r r' l h
    injection h with h; injection h with h1 h2; subst h1
    refine ⟨rfl, fun k hk => ?_⟩
    obtain rfl : k = 0 := by omega
    exact ⟨st, r, rfl⟩
  | succ N ih =>
    intro st st' r r' l h
    unfold Layers.sweeps at h
    split at h
    · cases h
    · next bs s1 r1 e1 =>
      split at h
      · cases h
      · next l' s2 r2 e2 =>
        injection h with h; injection h with h1 h2; subst h1
        obtain ⟨i1, i2⟩ := ih e2
        refine ⟨by simp [i1], fun k hk => ?_⟩
        cases k with
        | zero => exact ⟨st, r, rfl⟩
        | succ k =>
          obtain ⟨s3, r3, e3⟩ := i2 k (by omega)
          refine ⟨s3, r3, ?_⟩
          unfold Layers.sweeps
          rw [e1]
          simp only [e3, List.take_succ_cons]

/-- A chain of the reference sampler is a selection from a longer one without burn-in and thinning. -/
theorem layer_chain_select {c : Config K} {N : Nat} (hN : c.nBurn + c.nSamples ≤ N) {y : Fin n → K} {r : Rand K} {full : List (List Bool × Layers.State K p)}
    (h : Layers.chain { c with nBurn := 0, nSamples := N, thin := 1 } X y r = .ok full) :
    full.length = N ∧ Layers.chain c X y r = .ok ((storedTimes c.nSamples c.thin).filterMap (fun t => full[c.nBurn + t]?)) := by
  unfold Layers.chain at h
  split at h
  · cases h
  · next l s1 r1 e =>
    injection h with h
    simp only [Nat.zero_add] at e h
    obtain ⟨e1, e2⟩ := layer_sweeps_take e
    have hf : full = l := by
      rw [← h, storedTimes_one]
      apply List.ext_getElem?
      intro i
      have : (List.range N).filterMap (fun t => l[t]?) = l := by
        rw [← e1]
        clear e h e1 e2
        induction l with
        | nil => rfl
        | cons a l ih =>
          rw [List.length_cons, List.range_succ_eq_map, List.filterMap_cons]
          simp only [List.getElem?_cons_zero, List.filterMap_map, Function.comp_def, List.getElem?_cons_succ]
          rw [ih]
      rw [this]
    subst hf
    refine ⟨e1, ?_⟩
    obtain ⟨s3, r3, e3⟩ := e2 _ hN
    unfold Layers.chain
    rw [show c.toSettings = ({ c with nBurn := 0, nSamples := N, thin := 1 } : Config K).toSettings from rfl, e3]
    simp only []
    congr 1
    apply List.filterMap_congr
    intro t ht
    have := storedTimes_lt ht
    rw [List.getElem?_take_of_lt (by omega)]

/-! ### C142 -/

/-- C142: with the oblivious tree sampler, compare a fit with one chain with one that has no burn-in and no thinning and at least as many sweeps, with the same draws. If the latter returns then so does the former, and its samples are
selected from the others: `n_burn` samples are left out, and of the following `n_samples` those are kept whose number is a multiple of `1 / thin`. -/
theorem C142_selected (hX : ∀ r, GoodRow (X r)) {s : SkModel K p} (hp : 0 < p) (hp1 : s.pGrow ≠ 0) (hp2 : s.pPrune ≠ 0) (hth : s.thin ≠ 0) (hch : s.nChains = 1) {y : Fin n → K} (hy : ∃ i j, y i ≠ y j)
    {N : Nat} (hN : s.nBurn + s.nSamples ≤ N) {rs : Nat → Rand K} {F : SkModel K p} (hF : fit ({ s with nBurn := 0, nSamples := N, thin := 1 } : SkModel K p) X y rs = .ok F) :
    ∃ f c C, fit s X y rs = .ok f ∧ f.samples = some c ∧ F.samples = some C ∧ C.models.length = N ∧
      c.models.map (fun x => (x.live.storedSigma x.stored).current) = selected s.nBurn s.nSamples s.thin (C.models.map (fun x => (x.live.storedSigma x.stored).current)) ∧
      c.models.map (fun x => x.trees.map leavesOf) = selected s.nBurn s.nSamples s.thin (C.models.map (fun x => x.trees.map leavesOf)) ∧
      (∀ {q : Nat} (Z : Fin q → Fin p → Fl K), (∀ r, GoodRow (Z r)) →
        c.models.map (fun x => List.ofFn (x.predictX Z)) = selected s.nBurn s.nSamples s.thin (C.models.map (fun x => List.ofFn (x.predictX Z)))) ∧
      (s.storePredictions = true → c.predictions = selected s.nBurn s.nSamples s.thin C.predictions) ∧
      (s.storeAcceptance = true → c.acceptance = selected s.nBurn s.nSamples s.thin C.acceptance) := by
  obtain ⟨lo, hi, hlo, hhi, hlt⟩ := exists_range hy
  have h1 := C127_fit hX (s := { s with nBurn := 0, nSamples := N, thin := 1 }) hp hp1 hp2 one_ne_zero (by simp only [hch]; norm_num) hlo hhi hlt rs
  have h2 := C127_fit hX (s := s) hp hp1 hp2 hth (by omega) hlo hhi hlt rs
  rw [hF] at h1
  obtain ⟨full, C, a1, a2, a3, a8, a4, a5, a6, a7, -⟩ := h1
  obtain ⟨L, l1, l2⟩ := layer_chains_split.1 a1
  rw [show ((List.range ({ s with nBurn := 0, nSamples := N, thin := 1 } : SkModel K p).config.nChains).map rs) = [rs 0] by
    change (List.range s.nChains).map rs = _; rw [hch]; rfl] at l1
  cases l1 with
  | @cons _ l _ L' e1 e2 =>
    cases e2
    obtain rfl : full = l := by rw [l2]; simp
    obtain ⟨b1, b2⟩ := layer_chain_select (c := s.config) (N := N) hN e1
    have hfit : Layers.fit s.config X lo hi y rs = .ok (selected s.nBurn s.nSamples s.thin full) := by
      refine layer_chains_split.2 ⟨[selected s.nBurn s.nSamples s.thin full], ?_, by simp⟩
      rw [show (List.range s.config.nChains).map rs = [rs 0] by change (List.range s.nChains).map rs = _; rw [hch]; rfl]
      exact .cons b2 .nil
    cases e : fit s X y rs with
    | error er => rw [e] at h2; simp only [hfit] at h2; cases h2
    | ok f =>
      rw [e] at h2
      obtain ⟨sm, c, d1, d2, d3, d8, d4, d5, d6, d7, -⟩ := h2
      rw [hfit] at d1; injection d1 with d1; subst d1
      refine ⟨f, c, C, rfl, d2, a2, by rw [a3, b1], ?_, ?_, ?_, ?_, ?_⟩
      · rw [d4, a4, selected_map]
      · rw [d8, a8, selected_map]
      · intro q Z hZ; rw [d5 Z hZ, a5 Z hZ, selected_map]
      · intro h; rw [d6 h, a6 h, selected_map]
      · intro h; rw [d7 h, a7 h, selected_map]

theorem layer_chain_error {c : Config K} {y : Fin n → K} {r : Rand K} {e : PyErr} : Layers.chain c X y r = .error e ↔ Layers.sweeps c.toSettings X y (c.nBurn + c.nSamples) (Layers.start c.toSettings) r = .error e := by
  unfold Layers.chain
  split
  · next e' he => simp [he]
  · next he => simp [he]

theorem layer_chains_single_error {c : Config K} {y : Fin n → K} {r : Rand K} {e : PyErr} : Layers.chains c X y [r] = .error e ↔ Layers.chain c X y r = .error e := by
  unfold Layers.chains
  split
  · next he => simp [he]
  · next he => simp [Layers.chains, he]

theorem layer_fit_error_iff (hX : ∀ r, GoodRow (X r)) {s : SkModel K p} (hp : 0 < p) (hp1 : s.pGrow ≠ 0) (hp2 : s.pPrune ≠ 0) (hth : s.thin ≠ 0) (hch : 0 < s.nChains) {y : Fin n → K} {lo hi : K}
    (hlo : IsLeast (Set.range y) lo) (hhi : IsGreatest (Set.range y) hi) (hlt : lo < hi) {rs : Nat → Rand K} {e : PyErr} : fit s X y rs = .error e ↔ Layers.fit s.config X lo hi y rs = .error e := by
  have h := C127_fit hX hp hp1 hp2 hth hch hlo hhi hlt rs
  cases hf : fit s X y rs with
  | error e' => rw [hf] at h; simp only at h; rw [h]; simp
  | ok f =>
    rw [hf] at h
    obtain ⟨_, _, h, -⟩ := h
    rw [h]; simp

/-- C142: and if it has just as many sweeps, then both raise the same exception or both return. -/
theorem C142_same_error (hX : ∀ r, GoodRow (X r)) {s : SkModel K p} (hp : 0 < p) (hp1 : s.pGrow ≠ 0) (hp2 : s.pPrune ≠ 0) (hth : s.thin ≠ 0) (hch : s.nChains = 1) {y : Fin n → K} (hy : ∃ i j, y i ≠ y j)
    (rs : Nat → Rand K) (e : PyErr) :
    fit s X y rs = .error e ↔ fit ({ s with nBurn := 0, nSamples := s.nBurn + s.nSamples, thin := 1 } : SkModel K p) X y rs = .error e := by
  obtain ⟨lo, hi, hlo, hhi, hlt⟩ := exists_range hy
  rw [layer_fit_error_iff hX hp hp1 hp2 hth (by omega) hlo hhi hlt, layer_fit_error_iff hX (s := { s with nBurn := 0, nSamples := s.nBurn + s.nSamples, thin := 1 }) hp hp1 hp2 one_ne_zero
    (by simp only [hch]; norm_num) hlo hhi hlt]
  unfold Layers.fit
  rw [show (List.range s.config.nChains).map rs = [rs 0] by change (List.range s.nChains).map rs = _; rw [hch]; rfl,
    show ((List.range ({ s with nBurn := 0, nSamples := s.nBurn + s.nSamples, thin := 1 } : SkModel K p).config.nChains).map rs) = [rs 0] by
      change (List.range s.nChains).map rs = _; rw [hch]; rfl, layer_chains_single_error, layer_chains_single_error, layer_chain_error, layer_chain_error]
  change Layers.sweeps s.config.toSettings X _ (s.nBurn + s.nSamples) _ _ = _ ↔ Layers.sweeps s.config.toSettings X _ (0 + (s.nBurn + s.nSamples)) _ _ = _
  rw [Nat.zero_add]
  exact Iff.rfl

/-! ### a concrete case -/

section examples
attribute [local instance] exFns

/-- The numbers of leaves of the trees in the samples that a fit has kept. -/
def exSizes (f : Except PyErr (SkModel ℚ 1)) : List (List Nat) :=
  match f with
  | .ok f => (match f.samples with | some c => c.models.map (fun x => x.trees.map (fun t => t.leafNodes.length)) | none => [])
  | .error _ => []

/-- C142, the example: the burn-in of the example leaves out the first of four samples, and thinning by 1/2 the third. The tree has another number of leaves in each of them. -/
example : exSizes (fit { exSkf with nBurn := 0, nSamples := 4, thin := 1 } exXf exYf (fun _ => exRf)) = [[1], [2], [4], [8]] ∧
    exSizes (fit { exSkf with thin := 1/2 } exXf exYf (fun _ => exRf)) = [[2], [8]] ∧ (∀ r, GoodRow (exXf r)) ∧ exSkf.pGrow ≠ 0 ∧ exSkf.pPrune ≠ 0 ∧ exSkf.nChains = 1 ∧ exYf 0 ≠ exYf 2 := by
  refine ⟨by decide +kernel, by decide +kernel, exXf_good, by decide +kernel, by decide +kernel, rfl, by decide +kernel⟩

end examples

end Bart.Oblivious
