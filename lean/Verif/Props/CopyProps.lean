import Verif.Proofs.RefCopySweep
import Verif.Props.OrderProps

/-! C144: how many times the columns of X are present does not matter, as long as it is the same number for all of them. -/

set_option linter.unusedSectionVars false

namespace Bart
open Spec Reference Translate
variable {K : Type} [Field K] [LinearOrder K] [IsStrictOrderedRing K] {n p p' : Nat} {X : Fin n → Fin p → Fl K} [MathFns K] [FloorRing K] {c : Fin p' → Fin p} {k : Nat}

theorem start_merge (c : Fin p' → Fin p) (s : Reference.Settings K) : (start s : State K p').merge c = start s := by
  simp [start, State.merge, RTree.merge, RTree.root, RNode.merge, Content.merge]

/-- The samples of a chain on the data with copies. -/
theorem chain_merge (hl : FiniteLogs K) (hk : 0 < k) (hc : EqualCopies c k) (s : Config K) (y : Fin n → K) :
    ∃ T : Equiv.Perm (Rand K), OnlyPicks (max n p') T ∧ ∀ r, chain s X y (T r) = match chain s (copied c X) y r with
      | .error e => .error e
      | .ok l => .ok (l.map fun a => (a.1, a.2.merge c)) := by
  have hst : ∀ t ∈ (start s.toSettings : State K p').trees, Fine c t := by
    intro t ht
    rw [List.eq_of_mem_replicate ht]
    exact ⟨sound_root, faithful_root⟩
  choose φ hφ h using fun r => sweeps_merge (X := X) hl hk hc s.toSettings y (s.nBurn + s.nSamples) (start s.toSettings) hst r
  refine ⟨onlyPicks φ, onlyPicks_spec hφ, fun r => ?_⟩
  have h1 := h { r with picks := [] } r.picks
  simp only [onPicks, sweepsPair, start_merge] at h1
  unfold chain
  rw [show (onlyPicks φ) r = { r with picks := φ { r with picks := [] } r.picks } from rfl]
  rcases e : sweeps s.toSettings (copied c X) y (s.nBurn + s.nSamples) (start s.toSettings) r with er | ⟨l, s', r'⟩
  · rw [e] at h1
    simp only at h1 ⊢
    rcases e2 : sweeps s.toSettings X y (s.nBurn + s.nSamples) (start s.toSettings) { r with picks := φ { r with picks := [] } r.picks } with er' | ⟨l', s', r''⟩
    · rw [e2] at h1
      simp only [Except.error.injEq] at h1
      rw [h1]
    · rw [e2] at h1
      simp at h1
  · rw [e] at h1
    simp only at h1 ⊢
    obtain ⟨pre, pre', e1, e2⟩ := h1
    obtain ⟨e3, -, e5⟩ := e2 r'.picks
    rw [← e1] at e3
    rw [e3]
    rcases e6 : sweeps s.toSettings X y (s.nBurn + s.nSamples) (start s.toSettings) { r with picks := pre' ++ r'.picks } with er' | ⟨l', s', r''⟩
    · rw [e6] at e5
      simp at e5
    · rw [e6] at e5
      simp only [Except.ok.injEq, Prod.mk.injEq] at e5
      obtain ⟨⟨⟨e7, -⟩, -⟩, -⟩ := e5
      simp only [e7, List.getElem?_map]
      rw [List.map_filterMap]

theorem chains_merge (hl : FiniteLogs K) (hk : 0 < k) (hc : EqualCopies c k) (s : Config K) (y : Fin n → K) :
    ∃ T : Equiv.Perm (Rand K), OnlyPicks (max n p') T ∧ ∀ rs, chains s X y (rs.map T) = match chains s (copied c X) y rs with
      | .error e => .error e
      | .ok l => .ok (l.map fun a => (a.1, a.2.merge c)) := by
  obtain ⟨T, hT, h⟩ := chain_merge (X := X) hl hk hc s y
  refine ⟨T, hT, fun rs => ?_⟩
  induction rs with
  | nil => rfl
  | cons r rs ih =>
    simp only [List.map_cons, chains, h]
    cases chain s (copied c X) y r with
    | error e => rfl
    | ok l =>
      simp only [ih]
      cases chains s (copied c X) y rs with
      | error e => rfl
      | ok ls => simp

theorem prediction_merge (c : Fin p' → Fin p) (lo hi : K) (l : List (List Bool × State K p')) (x : Fin p → Fl K) :
    prediction lo hi (l.map fun a => (a.1, a.2.merge c)) x = prediction lo hi l (fun j => x (c j)) := by
  unfold prediction
  rw [List.map_map, List.length_map]
  congr 6
  funext a
  exact forest_merge a.2.trees x

/-- The fits to the data with the copies and to the data, and the states of the reference sampler. -/
theorem copies_reference (hl : FiniteLogs K) (hX : NoNan X) (hk : 0 < k) (hc : EqualCopies c k) {s : SkModel K p} {s' : SkModel K p'} (hs : SameSampling s s') (hsl : SameLength s s')
    (hst : s'.storePredictions = s.storePredictions ∧ s'.storeAcceptance = s.storeAcceptance) (hp : 0 < p) (hp1 : s.pGrow ≠ 0) (hp2 : s.pPrune ≠ 0) (hth : s.thin ≠ 0) (hch : 0 < s.nChains)
    (hns : 0 < s.nSamples) {y : Fin n → K} (hy : ∃ i j, y i ≠ y j) :
    ∃ T : Equiv.Perm (Rand K), OnlyPicks (max n p') T ∧ (∀ rs, SameUpTo (SameCopies c s.storePredictions s.storeAcceptance) (s'.fit (copied c X) y rs) (s.fit X y (T ∘ rs))) ∧
      ∃ lo hi, IsLeast (Set.range y) lo ∧ IsGreatest (Set.range y) hi ∧ lo < hi ∧ s'.config = s.config ∧ ∀ rs, Reference.fit s.config X lo hi y (T ∘ rs) = match Reference.fit s.config (copied c X) lo hi y rs with
        | .error e => .error e
        | .ok l => .ok (l.map fun a => (a.1, a.2.merge c)) := by
  obtain ⟨lo, hi, hlo, hhi, hlt⟩ := exists_range hy
  have hX' : NoNan (copied c X) := fun i j => hX _ _
  have hp' : 0 < p' := by
    have h1 := hc ⟨0, hp⟩
    rw [← h1, Fintype.card_pos_iff] at hk
    exact Fin.pos hk.some.1
  have hcfg : s'.config = s.config := by
    unfold SkModel.config
    simp only [hs.nTrees, hs.nChains, hs.sigmaA, hs.sigmaB, hs.alpha, hs.beta, hs.pGrow, hs.pPrune, hsl.nSamples, hsl.nBurn, hsl.thin]
  obtain ⟨T, hT, h⟩ := chains_merge (X := X) hl hk hc s.config (scaled lo hi y)
  have h3 : ∀ rs : Nat → Rand K, Reference.fit s.config X lo hi y (T ∘ rs) = match Reference.fit s.config (copied c X) lo hi y rs with
      | .error e => .error e
      | .ok l => .ok (l.map fun a => (a.1, a.2.merge c)) := by
    intro rs
    unfold Reference.fit
    rw [← List.map_map]
    exact h _
  refine ⟨T, hT, fun rs => ?_, lo, hi, hlo, hhi, hlt, hcfg, h3⟩
  replace h3 := h3 rs
  have h1 := C103_fit (s := s') hX' hp' (by rw [hs.pGrow]; exact hp1) (by rw [hs.pPrune]; exact hp2) (by rw [hsl.thin]; exact hth) (by rw [hs.nChains]; exact hch) hlo hhi hlt rs
  have h2 := C103_fit hX hp hp1 hp2 hth hch hlo hhi hlt (T ∘ rs)
  rw [hcfg, hst.1, hst.2] at h1
  have hne : ∀ l, Reference.fit s.config (copied c X) lo hi y rs = .ok l → l ≠ [] := fun l hl => chains_nonempty (c := s.config) hns (by
    intro hc
    have := congrArg List.length hc
    simp at this
    exact absurd this (Nat.ne_of_gt hch)) hl
  generalize s'.fit (copied c X) y rs = A at h1 ⊢
  generalize s.fit X y (T ∘ rs) = A' at h2 ⊢
  cases A with
  | error e =>
    simp only at h1
    rw [h1] at h3
    cases A' with
    | error e' => simp only at h2; rw [h2] at h3; simp only [Except.error.injEq] at h3; exact h3.symm
    | ok f' => obtain ⟨l', c', a1, -⟩ := h2; rw [a1] at h3; cases h3
  | ok f =>
    obtain ⟨l, m, a1, a2, a3, a4, a5, a6, a7, a8⟩ := h1
    rw [a1] at h3
    cases A' with
    | error e' => simp only at h2; rw [h2] at h3; cases h3
    | ok f' =>
      obtain ⟨l', m', b1, b2, b3, b4, b5, b6, b7, b8⟩ := h2
      rw [b1] at h3
      simp only [Except.ok.injEq] at h3
      subst h3
      have hl := hne l a1
      have hl' : (l.map fun a => (a.1, a.2.merge c)) ≠ [] := by simpa using hl
      have hg : ∀ {q : Nat} (Z : Fin q → Fin p → Fl K), (∀ r, GoodRow (Z r)) → ∀ r, GoodRow (copied c Z r) := fun Z hZ r j => hZ r (c j)
      constructor
      · intro q Z hZ
        rw [(a8 hl).1 _ (hg Z hZ), (b8 hl').1 Z hZ]
        simp only [prediction_merge]
        rfl
      · intro hs
        rw [(a8 hl).2 hs, (b8 hl').2 hs]
        simp only [prediction_merge]
        rfl
      · intro q Z hZ
        rw [a2, b2, Option.map_some, Option.map_some, a5 _ (hg Z hZ), b5 Z hZ, List.map_map]
        congr 2
        funext a
        simp only [Function.comp_apply]
        congr 1
        funext r
        exact (forest_merge a.2.trees (Z r)).symm
      · intro hs
        rw [a2, b2, Option.map_some, Option.map_some, a6 hs, b6 hs, List.map_map]
        congr 2
        funext a
        simp only [Function.comp_apply]
        congr 1
        funext r
        exact (forest_merge a.2.trees (X r)).symm
      · rw [a2, b2, Option.map_some, Option.map_some, a4, b4, List.map_map]
        rfl
      · intro hs
        rw [a2, b2, Option.map_some, Option.map_some, a7 hs, b7 hs, List.map_map]
        rfl

/-- C144: copies of the columns do not matter. Let every column of X be present `k` times (`k` positive, in any order) in other data. There is a one-to-one correspondence between the draws,
which only exchanges the results of random choices against equally likely ones, such that the fits to the data with the copies and to X raise the same exception or agree (predictions for new
data with the same copies, predictions for the training data, sigma, acceptance trace). -/
theorem C144_copies (hl : FiniteLogs K) (hX : NoNan X) (hk : 0 < k) (hc : EqualCopies c k) {s : SkModel K p} {s' : SkModel K p'} (hs : SameSampling s s') (hsl : SameLength s s')
    (hst : s'.storePredictions = s.storePredictions ∧ s'.storeAcceptance = s.storeAcceptance) (hp : 0 < p) (hp1 : s.pGrow ≠ 0) (hp2 : s.pPrune ≠ 0) (hth : s.thin ≠ 0) (hch : 0 < s.nChains)
    (hns : 0 < s.nSamples) {y : Fin n → K} (hy : ∃ i j, y i ≠ y j) :
    ∃ T : Equiv.Perm (Rand K), OnlyPicks (max n p') T ∧ ∀ rs, SameUpTo (SameCopies c s.storePredictions s.storeAcceptance) (s'.fit (copied c X) y rs) (s.fit X y (T ∘ rs)) := by
  obtain ⟨T, hT, h, -⟩ := copies_reference (c := c) hl hX hk hc hs hsl hst hp hp1 hp2 hth hch hns hy
  exact ⟨T, hT, h⟩

/-- C144, the distribution: whatever the other draws, for picks uniformly from `0 .. N - 1` every set of predictions is equally likely for the data and for the data with the copies. -/
theorem C144_distribution (hl : FiniteLogs K) (hX : NoNan X) (hk : 0 < k) (hc : EqualCopies c k) {s : SkModel K p} {s' : SkModel K p'} (hs : SameSampling s s') (hsl : SameLength s s')
    (hst : s'.storePredictions = s.storePredictions ∧ s'.storeAcceptance = s.storeAcceptance) (hp : 0 < p) (hp1 : s.pGrow ≠ 0) (hp2 : s.pPrune ≠ 0) (hth : s.thin ≠ 0) (hch : 0 < s.nChains)
    (hns : 0 < s.nSamples) {y : Fin n → K} (hy : ∃ i j, y i ≠ y j) {N m : Nat} (hN : ∀ L, 1 ≤ L → L ≤ max n p' → L ∣ N) (other : Nat → Rand K) {q : Nat} {Z : Fin q → Fin p → Fl K}
    (hZ : ∀ r, GoodRow (Z r)) (A : Set (Except PyErr (List K))) :
    Nat.card {us : Fin s.nChains → Fin m → Fin N // predictionsOf (s'.fit (copied c X) y (withPicks other us)) (copied c Z) ∈ A} =
      Nat.card {us : Fin s.nChains → Fin m → Fin N // predictionsOf (s.fit X y (withPicks other us)) Z ∈ A} := by
  obtain ⟨T, hT, h⟩ := C144_copies (c := c) hl hX hk hc hs hsl hst hp hp1 hp2 hth hch hns hy
  refine card_of_onlyPicks hT hN other (E := fun rs => predictionsOf (s'.fit (copied c X) y rs) (copied c Z) ∈ A) (E' := fun rs => predictionsOf (s.fit X y rs) Z ∈ A)
    (fun rs => ?_) fun rs rs' hrs => by rw [fit_draws_congr s _ hrs]
  have h1 := h rs
  generalize s'.fit (copied c X) y rs = a at h1 ⊢
  generalize s.fit X y (T ∘ rs) = a' at h1 ⊢
  cases a <;> cases a' <;> simp only [SameUpTo] at h1
  · subst h1; rfl
  · simp only [predictionsOf]
    rw [h1.newData Z hZ]

/-- For the real numbers with the real logarithm the condition on logarithms is met. -/
theorem finiteLogs_real : FiniteLogs ℝ := by
  intro m hm
  have h : (0 : ℝ) < (m : ℝ) := by exact_mod_cast hm
  exact ⟨Real.log m, by simp only [MathFns.log, if_pos h]⟩

/-- C144 with real numbers. -/
theorem C144_real {X : Fin n → Fin p → Fl ℝ} (hX : NoNan X) (hk : 0 < k) (hc : EqualCopies c k) {s : SkModel ℝ p} {s' : SkModel ℝ p'} (hs : SameSampling s s') (hsl : SameLength s s')
    (hst : s'.storePredictions = s.storePredictions ∧ s'.storeAcceptance = s.storeAcceptance) (hp : 0 < p) (hp1 : s.pGrow ≠ 0) (hp2 : s.pPrune ≠ 0) (hth : s.thin ≠ 0) (hch : 0 < s.nChains)
    (hns : 0 < s.nSamples) {y : Fin n → ℝ} (hy : ∃ i j, y i ≠ y j) :
    ∃ T : Equiv.Perm (Rand ℝ), OnlyPicks (max n p') T ∧ ∀ rs, SameUpTo (SameCopies c s.storePredictions s.storeAcceptance) (s'.fit (copied c X) y rs) (s.fit X y (T ∘ rs)) :=
  C144_copies finiteLogs_real hX hk hc hs hsl hst hp hp1 hp2 hth hch hns hy

/-! ### examples -/

section examples
attribute [local instance] exFns

theorem finiteLogs_ex : FiniteLogs ℚ := by
  intro m hm
  have h : (0 : ℚ) < (m : ℚ) := by exact_mod_cast hm
  exact ⟨(m : ℚ) - 1, by simp only [MathFns.log, if_neg h.ne', if_neg h.not_gt]⟩

/-- Both columns twice. -/
def exTwice : Fin 4 → Fin 2 := fun j => if j.val < 2 then 0 else 1

/-- The estimator for four columns. -/
def exSk4 : SkModel ℚ 4 := ⟨2, 2, 1, 1, 3, 1, 1/2, 1/2, 1, true, true, 1/2, 1/2, none, none, none, none⟩

/-- The draws for the data with both columns twice that correspond to `exOrdRs`. -/
def exTwiceRs : Nat → Rand ℚ := fun i => { exRs i with picks := [0, 3, 0, 0, 2, 1, 0, 0, 0, 0, 0, 0, 0, 0] }

/-- C144, the hypotheses are met, and what the correspondence does: with picks 3 and 2 of four columns (the copies of the second column) the fit makes the predictions of the fit to the data
without copies with pick 1 of two columns, and other ones with picks 0. -/
example : FiniteLogs ℚ ∧ NoNan exOrd ∧ EqualCopies exTwice 2 ∧ SameSampling exSk2 exSk4 ∧ SameLength exSk2 exSk4 ∧ exSk2.pGrow ≠ 0 ∧ exSk2.pPrune ≠ 0 ∧ exSk2.thin ≠ 0 ∧ 0 < exSk2.nChains ∧
    0 < exSk2.nSamples ∧ exY 0 ≠ exY 1 ∧
    (match predictionsOf (exSk4.fit (copied exTwice exOrd) exY exTwiceRs) (copied exTwice exOrd), predictionsOf (exSk2.fit exOrd exY exOrdRs) exOrd, predictionsOf (exSk2.fit exOrd exY exRs) exOrd with
      | .ok a, .ok b, .ok c => decide (a = b ∧ a ≠ c)
      | _, _, _ => false) = true := by
  refine ⟨finiteLogs_ex, ?_, ?_, ⟨rfl, rfl, rfl, rfl, rfl, rfl, rfl, rfl⟩, ⟨rfl, rfl, rfl⟩, ?_⟩
  · unfold NoNan; decide +kernel
  · unfold EqualCopies; decide +kernel
  · decide +kernel

/-- C144, the distribution: 12 is a multiple of 1, 2, 3 and 4. -/
example : ∀ L, 1 ≤ L → L ≤ max 3 4 → L ∣ 12 := by
  intro L h1 h2
  have h3 : L ≤ 4 := h2
  have : L = 1 ∨ L = 2 ∨ L = 3 ∨ L = 4 := by omega
  rcases this with rfl | rfl | rfl | rfl <;> decide

/-- The first column twice, the second once. -/
def exMore : Fin 3 → Fin 2 := fun j => if j.val < 2 then 0 else 1

/-- One tree, one sample. -/
def exOne2 : SkModel ℚ 2 := ⟨1, 1, 1, 1, 1, 0, 1, 1/2, 1, true, true, 1/2, 1/2, none, none, none, none⟩

/-- One tree, one sample, for three columns. -/
def exOne3 : SkModel ℚ 3 := ⟨1, 1, 1, 1, 1, 0, 1, 1/2, 1, true, true, 1/2, 1/2, none, none, none, none⟩

/-- All draws but the picks. -/
def exMoreRs : Nat → Rand ℚ := fun _ => { exRands1 with normals := [1, 2] }

/-- The same prediction for the first two rows, another one for the third. -/
def exApart : Except PyErr (List ℚ) → Bool
  | .ok [a, b, c] => decide (a = b ∧ a ≠ c)
  | _ => false

theorem exApart_card (f : (Fin 1 → Fin 3 → Fin 6) → Except PyErr (List ℚ)) :
    Nat.card {us : Fin 1 → Fin 3 → Fin 6 // f us ∈ {e | exApart e = true}} = (Finset.univ.filter fun us => exApart (f us) = true).card := by
  rw [← Fintype.card_subtype, ← Nat.card_eq_fintype_card]
  rfl

set_option maxRecDepth 100000 in
/-- C144, the number of copies must be the same for all columns. In the example with the first column twice and the second once the first is chosen in two of three cases instead of one of
two, and the predictions have another distribution. -/
theorem C144_unequal : ∃ (X : Fin 3 → Fin 2 → Fl ℚ) (y : Fin 3 → ℚ) (c : Fin 3 → Fin 2) (s : SkModel ℚ 2) (s' : SkModel ℚ 3) (other : Nat → Rand ℚ) (A : Set (Except PyErr (List ℚ))),
    NoNan X ∧ (∀ r, GoodRow (X r)) ∧ Function.Surjective c ∧ SameSampling s s' ∧ SameLength s s' ∧ s.pGrow ≠ 0 ∧ s.pPrune ≠ 0 ∧ s.thin ≠ 0 ∧ s.nChains = 1 ∧ 0 < s.nSamples ∧ (∃ i j, y i ≠ y j) ∧
    Nat.card {us : Fin 1 → Fin 3 → Fin 6 // predictionsOf (s'.fit (copied c X) y (withPicks other us)) (copied c X) ∈ A} ≠
      Nat.card {us : Fin 1 → Fin 3 → Fin 6 // predictionsOf (s.fit X y (withPicks other us)) X ∈ A} := by
  refine ⟨exOrd, exY, exMore, exOne2, exOne3, exMoreRs, {e | exApart e = true}, ?_, ?_, ?_, ⟨rfl, rfl, rfl, rfl, rfl, rfl, rfl, rfl⟩, ⟨rfl, rfl, rfl⟩, by decide +kernel, by decide +kernel,
    by decide +kernel, rfl, by decide +kernel, ⟨0, 1, by decide +kernel⟩, ?_⟩
  · unfold NoNan; decide +kernel
  · unfold GoodRow; decide +kernel
  · unfold Function.Surjective; decide +kernel
  · have h2 : (Finset.univ.filter fun us : Fin 1 → Fin 3 → Fin 6 => exApart (predictionsOf (exOne2.fit exOrd exY (withPicks exMoreRs us)) exOrd) = true).card = 36 := by decide +kernel
    have h3 : (Finset.univ.filter fun us : Fin 1 → Fin 3 → Fin 6 => exApart (predictionsOf (exOne3.fit (copied exMore exOrd) exY (withPicks exMoreRs us)) (copied exMore exOrd)) = true).card = 48 := by
      decide +kernel
    rw [exApart_card (fun us => predictionsOf (exOne3.fit (copied exMore exOrd) exY (withPicks exMoreRs us)) (copied exMore exOrd)),
      exApart_card (fun us => predictionsOf (exOne2.fit exOrd exY (withPicks exMoreRs us)) exOrd), h2, h3]
    decide

end examples
end Bart
