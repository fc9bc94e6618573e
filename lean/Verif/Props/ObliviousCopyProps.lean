import Verif.Proofs.LayerCopy
import Verif.Props.CopyProps
import Verif.Props.ObliviousOrderProps

/-! C145: how many times the columns of X are present does not matter to a fit with the oblivious tree sampler either, as long as it is the same number for all of them. -/

set_option linter.unusedSectionVars false

namespace Bart.Oblivious
open Bart Spec Reference Translate
variable {K : Type} [Field K] [LinearOrder K] [IsStrictOrderedRing K] {n p p' : Nat} {X : Fin n → Fin p → Fl K} [MathFns K] [FloorRing K] {c : Fin p' → Fin p} {k : Nat}

theorem layer_start_merge (c : Fin p' → Fin p) (s : Reference.Settings K) : (Layers.start s : Layers.State K p').merge c = Layers.start s := by
  simp [Layers.start, Layers.State.merge, Layers.LTree.merge, Layers.LTree.root]

/-- The samples of a chain on the data with copies. -/
theorem layer_chain_merge (hk : 0 < k) (hc : EqualCopies c k) (s : Config K) (y : Fin n → K) :
    ∃ T : Equiv.Perm (Rand K), OnlyPicks (max n p') T ∧ ∀ r, Layers.chain s X y (T r) = match Layers.chain s (copied c X) y r with
      | .error e => .error e
      | .ok l => .ok (l.map fun a => (a.1, a.2.merge c)) := by
  choose φ hφ h using fun r => Layers.sweeps_merge (X := X) hk hc s.toSettings y (s.nBurn + s.nSamples) (Layers.start s.toSettings) r
  refine ⟨onlyPicks φ, onlyPicks_spec hφ, fun r => ?_⟩
  have h1 := h { r with picks := [] } r.picks
  simp only [onPicks, Layers.sweepsPair, layer_start_merge] at h1
  unfold Layers.chain
  rw [show (onlyPicks φ) r = { r with picks := φ { r with picks := [] } r.picks } from rfl]
  rcases e : Layers.sweeps s.toSettings (copied c X) y (s.nBurn + s.nSamples) (Layers.start s.toSettings) r with er | ⟨l, s', r'⟩
  · rw [e] at h1
    simp only at h1 ⊢
    rcases e2 : Layers.sweeps s.toSettings X y (s.nBurn + s.nSamples) (Layers.start s.toSettings) { r with picks := φ { r with picks := [] } r.picks } with er' | ⟨l', s', r''⟩
    · rw [e2] at h1
      simp only [Except.error.injEq] at h1
      rw [h1]
    · rw [e2] at h1
      simp at h1
  · rw [e] at h1
    simp only at h1 ⊢
    obtain ⟨pre, pre', e1, e2⟩ := h1
    obtain ⟨e3, -, e5⟩ := e2 r'.picks
    rw [← e1] at e3
    rw [e3]
    rcases e6 : Layers.sweeps s.toSettings X y (s.nBurn + s.nSamples) (Layers.start s.toSettings) { r with picks := pre' ++ r'.picks } with er' | ⟨l', s', r''⟩
    · rw [e6] at e5
      simp at e5
    · rw [e6] at e5
      simp only [Except.ok.injEq, Prod.mk.injEq] at e5
      obtain ⟨⟨⟨e7, -⟩, -⟩, -⟩ := e5
      simp only [e7, List.getElem?_map]
      rw [List.map_filterMap]

theorem layer_chains_merge (hk : 0 < k) (hc : EqualCopies c k) (s : Config K) (y : Fin n → K) :
    ∃ T : Equiv.Perm (Rand K), OnlyPicks (max n p') T ∧ ∀ rs, Layers.chains s X y (rs.map T) = match Layers.chains s (copied c X) y rs with
      | .error e => .error e
      | .ok l => .ok (l.map fun a => (a.1, a.2.merge c)) := by
  obtain ⟨T, hT, h⟩ := layer_chain_merge (X := X) hk hc s y
  refine ⟨T, hT, fun rs => ?_⟩
  induction rs with
  | nil => rfl
  | cons r rs ih =>
    simp only [List.map_cons, Layers.chains, h]
    cases Layers.chain s (copied c X) y r with
    | error e => rfl
    | ok l =>
      simp only [ih]
      cases Layers.chains s (copied c X) y rs with
      | error e => rfl
      | ok ls => simp

theorem layer_prediction_merge (c : Fin p' → Fin p) (lo hi : K) (l : List (List Bool × Layers.State K p')) (x : Fin p → Fl K) :
    Layers.prediction lo hi (l.map fun a => (a.1, a.2.merge c)) x = Layers.prediction lo hi l (fun j => x (c j)) := by
  unfold Layers.prediction
  rw [List.map_map, List.length_map]
  congr 6
  funext a
  exact Layers.layer_forest_merge a.2.trees x

/-- The fits to the data with the copies and to the data, and the states of the reference sampler. -/
theorem layer_copies_reference (hX : ∀ r, GoodRow (X r)) (hk : 0 < k) (hc : EqualCopies c k) {s : SkModel K p} {s' : SkModel K p'} (hs : SameSampling s s') (hsl : SameLength s s')
    (hst : s'.storePredictions = s.storePredictions ∧ s'.storeAcceptance = s.storeAcceptance) (hp : 0 < p) (hp1 : s.pGrow ≠ 0) (hp2 : s.pPrune ≠ 0) (hth : s.thin ≠ 0) (hch : 0 < s.nChains)
    (hns : 0 < s.nSamples) {y : Fin n → K} (hy : ∃ i j, y i ≠ y j) :
    ∃ T : Equiv.Perm (Rand K), OnlyPicks (max n p') T ∧ (∀ rs, SameUpTo (SameCopies c s.storePredictions s.storeAcceptance) (fit s' (copied c X) y rs) (fit s X y (T ∘ rs))) ∧
      ∃ lo hi, IsLeast (Set.range y) lo ∧ IsGreatest (Set.range y) hi ∧ lo < hi ∧ s'.config = s.config ∧ ∀ rs, Layers.fit s.config X lo hi y (T ∘ rs) = match Layers.fit s.config (copied c X) lo hi y rs with
        | .error e => .error e
        | .ok l => .ok (l.map fun a => (a.1, a.2.merge c)) := by
  obtain ⟨lo, hi, hlo, hhi, hlt⟩ := exists_range hy
  have hX' : ∀ r, GoodRow (copied c X r) := fun i j => hX _ _
  have hp' : 0 < p' := by
    have h1 := hc ⟨0, hp⟩
    rw [← h1, Fintype.card_pos_iff] at hk
    exact Fin.pos hk.some.1
  have hcfg : s'.config = s.config := by
    unfold SkModel.config
    simp only [hs.nTrees, hs.nChains, hs.sigmaA, hs.sigmaB, hs.alpha, hs.beta, hs.pGrow, hs.pPrune, hsl.nSamples, hsl.nBurn, hsl.thin]
  obtain ⟨T, hT, h⟩ := layer_chains_merge (X := X) hk hc s.config (scaled lo hi y)
  have h3 : ∀ rs : Nat → Rand K, Layers.fit s.config X lo hi y (T ∘ rs) = match Layers.fit s.config (copied c X) lo hi y rs with
      | .error e => .error e
      | .ok l => .ok (l.map fun a => (a.1, a.2.merge c)) := by
    intro rs
    unfold Layers.fit
    rw [← List.map_map]
    exact h _
  refine ⟨T, hT, fun rs => ?_, lo, hi, hlo, hhi, hlt, hcfg, h3⟩
  replace h3 := h3 rs
  have h1 := C127_fit (s := s') hX' hp' (by rw [hs.pGrow]; exact hp1) (by rw [hs.pPrune]; exact hp2) (by rw [hsl.thin]; exact hth) (by rw [hs.nChains]; exact hch) hlo hhi hlt rs
  have h2 := C127_fit hX hp hp1 hp2 hth hch hlo hhi hlt (T ∘ rs)
  rw [hcfg, hst.1, hst.2] at h1
  have hne : ∀ l, Layers.fit s.config (copied c X) lo hi y rs = .ok l → l ≠ [] := fun l hl => layer_fit_nonempty (s := s') (by rw [hs.nChains]; exact hch) (by rw [hsl.nSamples]; exact hns) (by rw [hcfg]; exact hl)
  generalize fit s' (copied c X) y rs = A at h1 ⊢
  generalize fit s X y (T ∘ rs) = A' at h2 ⊢
  cases A with
  | error e =>
    simp only at h1
    rw [h1] at h3
    cases A' with
    | error e' => simp only at h2; rw [h2] at h3; simp only [Except.error.injEq] at h3; exact h3.symm
    | ok f' => obtain ⟨l', c', a1, -⟩ := h2; rw [a1] at h3; cases h3
  | ok f =>
    obtain ⟨l, m, a1, a2, -, -, a4, a5, a6, a7, a8⟩ := h1
    rw [a1] at h3
    cases A' with
    | error e' => simp only at h2; rw [h2] at h3; cases h3
    | ok f' =>
      obtain ⟨l', m', b1, b2, -, -, b4, b5, b6, b7, b8⟩ := h2
      rw [b1] at h3
      simp only [Except.ok.injEq] at h3
      subst h3
      have hl := hne l a1
      have hl' : (l.map fun a => (a.1, a.2.merge c)) ≠ [] := by simpa using hl
      have hg : ∀ {q : Nat} (Z : Fin q → Fin p → Fl K), (∀ r, GoodRow (Z r)) → ∀ r, GoodRow (copied c Z r) := fun Z hZ r j => hZ r (c j)
      constructor
      · intro q Z hZ
        rw [(a8 hl).1 _ (hg Z hZ), (b8 hl').1 Z hZ]
        simp only [layer_prediction_merge]
        rfl
      · intro hs
        rw [(a8 hl).2 hs, (b8 hl').2 hs]
        simp only [layer_prediction_merge]
        rfl
      · intro q Z hZ
        rw [a2, b2, Option.map_some, Option.map_some, a5 _ (hg Z hZ), b5 Z hZ, List.map_map]
        congr 2
        funext a
        simp only [Function.comp_apply]
        congr 1
        funext r
        exact (Layers.layer_forest_merge a.2.trees (Z r)).symm
      · intro hs
        rw [a2, b2, Option.map_some, Option.map_some, a6 hs, b6 hs, List.map_map]
        congr 2
        funext a
        simp only [Function.comp_apply]
        congr 1
        funext r
        exact (Layers.layer_forest_merge a.2.trees (X r)).symm
      · rw [a2, b2, Option.map_some, Option.map_some, a4, b4, List.map_map]
        rfl
      · intro hs
        rw [a2, b2, Option.map_some, Option.map_some, a7 hs, b7 hs, List.map_map]
        rfl

/-- C145: copies of the columns do not matter to a fit with the oblivious tree sampler. Let every column of X be present `k` times (`k` positive, in any order) in other data. There is a one-to-one correspondence between the draws,
which only exchanges the results of random choices against equally likely ones, such that the fits to the data with the copies and to X raise the same exception or agree (predictions for new
data with the same copies, predictions for the training data, sigma, acceptance trace). -/
theorem C145_copies (hX : ∀ r, GoodRow (X r)) (hk : 0 < k) (hc : EqualCopies c k) {s : SkModel K p} {s' : SkModel K p'} (hs : SameSampling s s') (hsl : SameLength s s')
    (hst : s'.storePredictions = s.storePredictions ∧ s'.storeAcceptance = s.storeAcceptance) (hp : 0 < p) (hp1 : s.pGrow ≠ 0) (hp2 : s.pPrune ≠ 0) (hth : s.thin ≠ 0) (hch : 0 < s.nChains)
    (hns : 0 < s.nSamples) {y : Fin n → K} (hy : ∃ i j, y i ≠ y j) :
    ∃ T : Equiv.Perm (Rand K), OnlyPicks (max n p') T ∧ ∀ rs, SameUpTo (SameCopies c s.storePredictions s.storeAcceptance) (fit s' (copied c X) y rs) (fit s X y (T ∘ rs)) := by
  obtain ⟨T, hT, h, -⟩ := layer_copies_reference (c := c) hX hk hc hs hsl hst hp hp1 hp2 hth hch hns hy
  exact ⟨T, hT, h⟩

/-- C145, the distribution: whatever the other draws, for picks uniformly from `0 .. N - 1` every set of predictions is equally likely for the data and for the data with the copies. -/
theorem C145_distribution (hX : ∀ r, GoodRow (X r)) (hk : 0 < k) (hc : EqualCopies c k) {s : SkModel K p} {s' : SkModel K p'} (hs : SameSampling s s') (hsl : SameLength s s')
    (hst : s'.storePredictions = s.storePredictions ∧ s'.storeAcceptance = s.storeAcceptance) (hp : 0 < p) (hp1 : s.pGrow ≠ 0) (hp2 : s.pPrune ≠ 0) (hth : s.thin ≠ 0) (hch : 0 < s.nChains)
    (hns : 0 < s.nSamples) {y : Fin n → K} (hy : ∃ i j, y i ≠ y j) {N m : Nat} (hN : ∀ L, 1 ≤ L → L ≤ max n p' → L ∣ N) (other : Nat → Rand K) {q : Nat} {Z : Fin q → Fin p → Fl K}
    (hZ : ∀ r, GoodRow (Z r)) (A : Set (Except PyErr (List K))) :
    Nat.card {us : Fin s.nChains → Fin m → Fin N // predictionsOf (fit s' (copied c X) y (withPicks other us)) (copied c Z) ∈ A} =
      Nat.card {us : Fin s.nChains → Fin m → Fin N // predictionsOf (fit s X y (withPicks other us)) Z ∈ A} := by
  obtain ⟨T, hT, h⟩ := C145_copies (c := c) hX hk hc hs hsl hst hp hp1 hp2 hth hch hns hy
  refine card_of_onlyPicks hT hN other (E := fun rs => predictionsOf (fit s' (copied c X) y rs) (copied c Z) ∈ A) (E' := fun rs => predictionsOf (fit s X y rs) Z ∈ A)
    (fun rs => ?_) fun rs rs' hrs => by rw [ofit_draws_congr s _ hrs]
  have h1 := h rs
  generalize fit s' (copied c X) y rs = a at h1 ⊢
  generalize fit s X y (T ∘ rs) = a' at h1 ⊢
  cases a <;> cases a' <;> simp only [SameUpTo] at h1
  · subst h1; rfl
  · simp only [predictionsOf]
    rw [h1.newData Z hZ]

/-! ### examples -/

section examples
attribute [local instance] exFns

/-- The estimator for four columns. -/
def exSkc : SkModel ℚ 4 := ⟨1, 1, 1, 1, 3, 1, 1, 9/10, 1, true, true, 1/2, 1/2, none, none, none, none⟩

/-- C145, the hypotheses are met, and what the correspondence does: with picks 2 and 3 of four columns (the copies of the second column) the fit makes the predictions of the fit to the data
without copies with pick 1 of two columns, and other ones with picks 0. -/
example : (∀ r, GoodRow (exXo r)) ∧ EqualCopies exTwice 2 ∧ SameSampling exSkg exSkc ∧ SameLength exSkg exSkc ∧ exSkg.pGrow ≠ 0 ∧ exSkg.pPrune ≠ 0 ∧ exSkg.thin ≠ 0 ∧ 0 < exSkg.nChains ∧
    0 < exSkg.nSamples ∧ exYf 0 ≠ exYf 2 ∧
    (match predictionsOf (fit exSkc (copied exTwice exXo) exYf (exRo [2, 0, 3, 0, 2, 0, 3, 0, 2, 0, 3, 0])) (copied exTwice exXo),
        predictionsOf (fit exSkg exXo exYf (exRo [1, 0, 1, 0, 1, 0, 1, 0, 1, 0, 1, 0])) exXo,
        predictionsOf (fit exSkg exXo exYf (exRo [0, 0, 0, 0, 0, 0, 0, 0, 0, 0, 0, 0])) exXo with
      | .ok a, .ok b, .ok c => decide (a = b ∧ a ≠ c)
      | _, _, _ => false) = true := by
  refine ⟨?_, ?_, ⟨rfl, rfl, rfl, rfl, rfl, rfl, rfl, rfl⟩, ⟨rfl, rfl, rfl⟩, ?_⟩
  · unfold GoodRow; decide +kernel
  · unfold EqualCopies; decide +kernel
  · decide +kernel

/-- C145, the distribution: 12 is a multiple of 1, 2, 3 and 4. -/
example : ∀ L, 1 ≤ L → L ≤ max 4 4 → L ∣ 12 := by
  intro L h1 h2
  have h3 : L ≤ 4 := h2
  have : L = 1 ∨ L = 2 ∨ L = 3 ∨ L = 4 := by omega
  rcases this with rfl | rfl | rfl | rfl <;> decide

/-- One tree, one sample. -/
def exOneg : SkModel ℚ 2 := ⟨1, 1, 1, 1, 1, 0, 1, 9/10, 1, true, true, 1/2, 1/2, none, none, none, none⟩

/-- One tree, one sample, for three columns. -/
def exOneh : SkModel ℚ 3 := ⟨1, 1, 1, 1, 1, 0, 1, 9/10, 1, true, true, 1/2, 1/2, none, none, none, none⟩

/-- Different predictions for the second and third row. -/
def exBetween : Except PyErr (List ℚ) → Bool
  | .ok [_, b, c, _] => decide (b ≠ c)
  | _ => false

theorem exBetween_card (f : (Fin 1 → Fin 2 → Fin 12) → Except PyErr (List ℚ)) :
    Nat.card {us : Fin 1 → Fin 2 → Fin 12 // f us ∈ {e | exBetween e = true}} = (Finset.univ.filter fun us => exBetween (f us) = true).card := by
  rw [← Fintype.card_subtype, ← Nat.card_eq_fintype_card]
  rfl

set_option maxRecDepth 100000 in
/-- C145, the number of copies must be the same for all columns. In the example with the first column twice and the second once the first is chosen in two of three cases instead of one of
two, and the predictions have another distribution. -/
theorem C145_unequal : ∃ (X : Fin 4 → Fin 2 → Fl ℚ) (y : Fin 4 → ℚ) (c : Fin 3 → Fin 2) (s : SkModel ℚ 2) (s' : SkModel ℚ 3) (other : Nat → Rand ℚ) (A : Set (Except PyErr (List ℚ))),
    (∀ r, GoodRow (X r)) ∧ Function.Surjective c ∧ SameSampling s s' ∧ SameLength s s' ∧ s.pGrow ≠ 0 ∧ s.pPrune ≠ 0 ∧ s.thin ≠ 0 ∧ s.nChains = 1 ∧ 0 < s.nSamples ∧ (∃ i j, y i ≠ y j) ∧
    Nat.card {us : Fin 1 → Fin 2 → Fin 12 // predictionsOf (fit s' (copied c X) y (withPicks other us)) (copied c X) ∈ A} ≠
      Nat.card {us : Fin 1 → Fin 2 → Fin 12 // predictionsOf (fit s X y (withPicks other us)) X ∈ A} := by
  refine ⟨exXo, exYf, exMore, exOneg, exOneh, exRo [], {e | exBetween e = true}, ?_, ?_, ⟨rfl, rfl, rfl, rfl, rfl, rfl, rfl, rfl⟩, ⟨rfl, rfl, rfl⟩, by decide +kernel, by decide +kernel,
    by decide +kernel, rfl, by decide +kernel, ⟨0, 2, by decide +kernel⟩, ?_⟩
  · unfold GoodRow; decide +kernel
  · unfold Function.Surjective; decide +kernel
  · have h2 : (Finset.univ.filter fun us : Fin 1 → Fin 2 → Fin 12 => exBetween (predictionsOf (fit exOneg exXo exYf (withPicks (exRo []) us)) exXo) = true).card = 18 := by decide +kernel
    have h3 : (Finset.univ.filter fun us : Fin 1 → Fin 2 → Fin 12 => exBetween (predictionsOf (fit exOneh (copied exMore exXo) exYf (withPicks (exRo []) us)) (copied exMore exXo)) = true).card = 24 := by
      decide +kernel
    rw [exBetween_card (fun us => predictionsOf (fit exOneh (copied exMore exXo) exYf (withPicks (exRo []) us)) (copied exMore exXo)),
      exBetween_card (fun us => predictionsOf (fit exOneg exXo exYf (withPicks (exRo []) us)) exXo), h2, h3]
    decide

end examples
end Bart.Oblivious
