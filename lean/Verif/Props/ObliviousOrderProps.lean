import Verif.Proofs.LayerPerm
import Verif.Props.OrderProps
import Verif.Props.ObliviousSymmetryProps

/-! C132: the order of the columns does not matter to a fit with the oblivious tree sampler. C133: the order of the training rows does not matter to it if no column has repeated values (false in general). -/

set_option linter.unusedSectionVars false

namespace Bart.Oblivious
open Bart Spec Reference Translate
variable {K : Type} [Field K] [LinearOrder K] [IsStrictOrderedRing K] {n p : Nat} {X : Fin n → Fin p → Fl K} [MathFns K] [FloorRing K]

theorem layer_start_relabel (σ : Equiv.Perm (Fin p)) (c : Reference.Settings K) : (Layers.start c : Layers.State K p).relabel σ = Layers.start c := by
  simp [Layers.start, Layers.State.relabel, Layers.LTree.relabel, Layers.LTree.root]

/-- The samples of a chain on the rearranged data. -/
theorem layer_chain_reorder {ρ : Equiv.Perm (Fin n)} {σ : Equiv.Perm (Fin p)} (hX : SameColumns ρ σ X) (c : Config K) (y : Fin n → K) :
    ∃ T : Equiv.Perm (Rand K), OnlyPicks (max n p) T ∧ ∀ r, Layers.chain c (reorder ρ σ X) (y ∘ ρ) (T r) = (Layers.chain c X y r).map (List.map fun a => (a.1, a.2.relabel σ)) := by
  choose φ hφ h using fun r => Layers.sweeps_trans hX c.toSettings y (c.nBurn + c.nSamples) (Layers.start c.toSettings) r
  refine ⟨onlyPicks φ, onlyPicks_spec hφ, fun r => ?_⟩
  have h1 := h { r with picks := [] } r.picks
  simp only [onPicks, Layers.sweepsPair, layer_start_relabel] at h1
  unfold Layers.chain
  rw [show (onlyPicks φ) r = { r with picks := φ { r with picks := [] } r.picks } from rfl]
  rcases e : Layers.sweeps c.toSettings X y (c.nBurn + c.nSamples) (Layers.start c.toSettings) r with er | ⟨l, s, r'⟩
  · rw [e] at h1
    simp only at h1 ⊢
    rcases e2 : Layers.sweeps c.toSettings (reorder ρ σ X) (y ∘ ρ) (c.nBurn + c.nSamples) (Layers.start c.toSettings) { r with picks := φ { r with picks := [] } r.picks } with er' | ⟨l', s', r''⟩
    · rw [e2] at h1
      simp only [Except.error.injEq] at h1
      rw [h1]; rfl
    · rw [e2] at h1
      simp at h1
  · rw [e] at h1
    simp only at h1 ⊢
    obtain ⟨pre, pre', e1, e2⟩ := h1
    obtain ⟨e3, -, e5⟩ := e2 r'.picks
    rw [← e1] at e3
    rw [e3]
    rcases e6 : Layers.sweeps c.toSettings (reorder ρ σ X) (y ∘ ρ) (c.nBurn + c.nSamples) (Layers.start c.toSettings) { r with picks := pre' ++ r'.picks } with er' | ⟨l', s', r''⟩
    · rw [e6] at e5
      simp at e5
    · rw [e6] at e5
      simp only [Except.ok.injEq, Prod.mk.injEq] at e5
      obtain ⟨⟨⟨e7, -⟩, -⟩, -⟩ := e5
      simp only [e7, List.getElem?_map, Except.map]
      rw [List.map_filterMap]

theorem layer_chains_reorder {ρ : Equiv.Perm (Fin n)} {σ : Equiv.Perm (Fin p)} (hX : SameColumns ρ σ X) (c : Config K) (y : Fin n → K) :
    ∃ T : Equiv.Perm (Rand K), OnlyPicks (max n p) T ∧ ∀ rs, Layers.chains c (reorder ρ σ X) (y ∘ ρ) (rs.map T) = (Layers.chains c X y rs).map (List.map fun a => (a.1, a.2.relabel σ)) := by
  obtain ⟨T, hT, h⟩ := layer_chain_reorder hX c y
  refine ⟨T, hT, fun rs => ?_⟩
  induction rs with
  | nil => rfl
  | cons r rs ih =>
    simp only [List.map_cons, Layers.chains, h]
    cases Layers.chain c X y r with
    | error e => rfl
    | ok l =>
      simp only [ih, Except.map]
      cases Layers.chains c X y rs with
      | error e => rfl
      | ok ls => simp

theorem layer_prediction_relabel (σ : Equiv.Perm (Fin p)) (lo hi : K) (l : List (List Bool × Layers.State K p)) (x : Fin p → Fl K) :
    Layers.prediction lo hi (l.map fun a => (a.1, a.2.relabel σ)) (fun j => x (σ j)) = Layers.prediction lo hi l x := by
  unfold Layers.prediction
  rw [List.map_map, List.length_map]
  congr 6
  funext a
  exact Layers.layer_forest_relabel a.2.trees x

/-- The fit to rearranged data. -/
theorem ofit_reorder (hX : ∀ r, GoodRow (X r)) {ρ : Equiv.Perm (Fin n)} {σ : Equiv.Perm (Fin p)} (hC : SameColumns ρ σ X) {s : SkModel K p} (hp : 0 < p) (hp1 : s.pGrow ≠ 0) (hp2 : s.pPrune ≠ 0)
    (hth : s.thin ≠ 0) (hch : 0 < s.nChains) (hns : 0 < s.nSamples) {y : Fin n → K} (hy : ∃ i j, y i ≠ y j) :
    ∃ T : Equiv.Perm (Rand K), OnlyPicks (max n p) T ∧ ∀ rs, SameUpTo (SameFit ρ σ s.storePredictions s.storeAcceptance) (fit s X y rs) (fit s (reorder ρ σ X) (y ∘ ρ) (T ∘ rs)) := by
  obtain ⟨lo, hi, hlo, hhi, hlt⟩ := exists_range hy
  have hr : Set.range (y ∘ ρ) = Set.range y := ρ.surjective.range_comp y
  have hX' : ∀ r, GoodRow (reorder ρ σ X r) := fun i j => hX _ _
  obtain ⟨T, hT, h⟩ := layer_chains_reorder hC s.config (scaled lo hi y)
  refine ⟨T, hT, fun rs => ?_⟩
  have h1 := C127_fit hX hp hp1 hp2 hth hch hlo hhi hlt rs
  have h2 := C127_fit hX' hp hp1 hp2 hth hch (by rw [hr]; exact hlo) (by rw [hr]; exact hhi) hlt (T ∘ rs)
  have h3 : Layers.fit s.config (reorder ρ σ X) lo hi (y ∘ ρ) (T ∘ rs) = (Layers.fit s.config X lo hi y rs).map (List.map fun a => (a.1, a.2.relabel σ)) := by
    unfold Layers.fit
    rw [← List.map_map]
    exact h _
  have hne : ∀ l, Layers.fit s.config X lo hi y rs = .ok l → l ≠ [] := fun l hl => layer_fit_nonempty hch hns hl
  generalize fit s X y rs = A at h1 ⊢
  generalize fit s (reorder ρ σ X) (y ∘ ρ) (T ∘ rs) = A' at h2 ⊢
  cases A with
  | error e =>
    simp only at h1
    rw [h1] at h3
    cases A' with
    | error e' => simp only at h2; rw [h2] at h3; simp only [Except.map, Except.error.injEq] at h3; exact h3.symm
    | ok f' => obtain ⟨l', c', a1, -⟩ := h2; rw [a1] at h3; cases h3
  | ok f =>
    obtain ⟨l, c, a1, a2, -, -, a4, a5, a6, a7, a8⟩ := h1
    rw [a1] at h3
    cases A' with
    | error e' => simp only at h2; rw [h2] at h3; cases h3
    | ok f' =>
      obtain ⟨l', c', b1, b2, -, -, b4, b5, b6, b7, b8⟩ := h2
      rw [b1] at h3
      simp only [Except.map, Except.ok.injEq] at h3
      subst h3
      have hl := hne l a1
      have hl' : (l.map fun a => (a.1, a.2.relabel σ)) ≠ [] := by simpa using hl
      have hg : ∀ {q : Nat} (Z : Fin q → Fin p → Fl K), (∀ r, GoodRow (Z r)) → ∀ r, GoodRow (reorder (Equiv.refl _) σ Z r) := fun Z hZ r j => hZ r (σ j)
      have hperm : ∀ g : Fin n → K, List.ofFn (fun i => g (ρ i)) = reorderList ρ (List.ofFn g) := by
        intro g
        unfold reorderList
        congr 1
        funext i
        simp [List.getD]
      constructor
      · intro q Z hZ
        rw [(a8 hl).1 Z hZ, (b8 hl').1 _ (hg Z hZ)]
        congr 2
        funext r
        exact layer_prediction_relabel σ lo hi l (Z r)
      · intro hs
        rw [(a8 hl).2 hs, (b8 hl').2 hs]
        simp only [Except.map]
        rw [← hperm]
        congr 2
        funext i
        exact layer_prediction_relabel σ lo hi l (X (ρ i))
      · intro q Z hZ
        rw [a2, b2, Option.map_some, Option.map_some, a5 Z hZ, b5 _ (hg Z hZ), List.map_map]
        congr 2
        funext a
        simp only [Function.comp_apply]
        congr 1
        funext r
        exact Layers.layer_forest_relabel a.2.trees (Z r)
      · intro hs
        rw [a2, b2, Option.map_some, Option.map_some, a6 hs, b6 hs, List.map_map, List.map_map]
        congr 2
        funext a
        simp only [Function.comp_apply]
        rw [← hperm]
        congr 1
        funext i
        exact Layers.layer_forest_relabel a.2.trees (X (ρ i))
      · rw [a2, b2, Option.map_some, Option.map_some, a4, b4, List.map_map]
        rfl
      · intro hs
        rw [a2, b2, Option.map_some, Option.map_some, a7 hs, b7 hs, List.map_map]
        rfl

/-- `fit` reads the draws of the chains only. -/
theorem ofit_draws_congr (s : SkModel K p) (y : Fin n → K) {rs rs' : Nat → Rand K} (h : ∀ i < s.nChains, rs i = rs' i) : fit s X y rs = fit s X y rs' := by
  have : (List.range s.nChains).map rs = (List.range s.nChains).map rs' := List.map_congr_left fun i hi => h i (List.mem_range.1 hi)
  unfold fit
  rw [this]

theorem odistribution {ρ : Equiv.Perm (Fin n)} {σ : Equiv.Perm (Fin p)} {s : SkModel K p} {y : Fin n → K} {T : Equiv.Perm (Rand K)} (hT : OnlyPicks (max n p) T)
    (h : ∀ rs, SameUpTo (SameFit ρ σ s.storePredictions s.storeAcceptance) (fit s X y rs) (fit s (reorder ρ σ X) (y ∘ ρ) (T ∘ rs))) {N k : Nat} (hN : ∀ L, 1 ≤ L → L ≤ max n p → L ∣ N)
    (other : Nat → Rand K) {q : Nat} {Z : Fin q → Fin p → Fl K} (hZ : ∀ r, GoodRow (Z r)) (A : Set (Except PyErr (List K))) :
    Nat.card {us : Fin s.nChains → Fin k → Fin N // predictionsOf (fit s X y (withPicks other us)) Z ∈ A} =
      Nat.card {us : Fin s.nChains → Fin k → Fin N // predictionsOf (fit s (reorder ρ σ X) (y ∘ ρ) (withPicks other us)) (reorder (Equiv.refl _) σ Z) ∈ A} := by
  refine card_of_onlyPicks hT hN other (E := fun rs => predictionsOf (fit s X y rs) Z ∈ A) (E' := fun rs => predictionsOf (fit s (reorder ρ σ X) (y ∘ ρ) rs) (reorder (Equiv.refl _) σ Z) ∈ A)
    (fun rs => ?_) fun rs rs' hrs => by rw [ofit_draws_congr s _ hrs]
  have h1 := h rs
  generalize fit s X y rs = a at h1 ⊢
  generalize fit s (reorder ρ σ X) (y ∘ ρ) (T ∘ rs) = a' at h1 ⊢
  cases a <;> cases a' <;> simp only [SameUpTo] at h1
  · subst h1; rfl
  · simp only [predictionsOf]
    rw [h1.newData Z hZ]

/-! ### C132 -/

/-- C132: the order of the columns of X does not matter to a fit with the oblivious tree sampler. There is a one-to-one correspondence between the draws, which only exchanges the results of random choices
against equally likely ones, such that the fits to the data and to the data with reordered columns raise the same exception or agree (predictions, sigma, acceptance trace). -/
theorem C132_columns (hX : ∀ r, GoodRow (X r)) (σ : Equiv.Perm (Fin p)) {s : SkModel K p} (hp : 0 < p) (hp1 : s.pGrow ≠ 0) (hp2 : s.pPrune ≠ 0) (hth : s.thin ≠ 0) (hch : 0 < s.nChains)
    (hns : 0 < s.nSamples) {y : Fin n → K} (hy : ∃ i j, y i ≠ y j) :
    ∃ T : Equiv.Perm (Rand K), OnlyPicks (max n p) T ∧
      ∀ rs, SameUpTo (SameFit (Equiv.refl (Fin n)) σ s.storePredictions s.storeAcceptance) (fit s X y rs) (fit s (reorder (Equiv.refl _) σ X) y (T ∘ rs)) :=
  ofit_reorder hX sameColumns_refl hp hp1 hp2 hth hch hns hy

/-- C132, the distribution: whatever the other draws, for picks uniformly from `0 .. N - 1` every set of predictions is equally likely for the data and for the data with reordered columns. -/
theorem C132_distribution (hX : ∀ r, GoodRow (X r)) (σ : Equiv.Perm (Fin p)) {s : SkModel K p} (hp : 0 < p) (hp1 : s.pGrow ≠ 0) (hp2 : s.pPrune ≠ 0) (hth : s.thin ≠ 0) (hch : 0 < s.nChains)
    (hns : 0 < s.nSamples) {y : Fin n → K} (hy : ∃ i j, y i ≠ y j) {N k : Nat} (hN : ∀ L, 1 ≤ L → L ≤ max n p → L ∣ N) (other : Nat → Rand K) {q : Nat} {Z : Fin q → Fin p → Fl K}
    (hZ : ∀ r, GoodRow (Z r)) (A : Set (Except PyErr (List K))) :
    Nat.card {us : Fin s.nChains → Fin k → Fin N // predictionsOf (fit s X y (withPicks other us)) Z ∈ A} =
      Nat.card {us : Fin s.nChains → Fin k → Fin N // predictionsOf (fit s (reorder (Equiv.refl _) σ X) y (withPicks other us)) (reorder (Equiv.refl _) σ Z) ∈ A} := by
  obtain ⟨T, hT, h⟩ := C132_columns hX σ hp hp1 hp2 hth hch hns hy
  exact odistribution (ρ := Equiv.refl _) hT h hN other hZ A

/-! ### C133 -/

/-- C133, if no column has the same value in two rows: the order of the training rows does not matter, in the same sense as for the columns. (In general this is false: `C133_refuted`.) -/
theorem C133_rows_partial (hX : ∀ r, GoodRow (X r)) (hd : ∀ j, Function.Injective fun i => X i j) (ρ : Equiv.Perm (Fin n)) {s : SkModel K p} (hp : 0 < p) (hp1 : s.pGrow ≠ 0) (hp2 : s.pPrune ≠ 0)
    (hth : s.thin ≠ 0) (hch : 0 < s.nChains) (hns : 0 < s.nSamples) {y : Fin n → K} (hy : ∃ i j, y i ≠ y j) :
    ∃ T : Equiv.Perm (Rand K), OnlyPicks (max n p) T ∧
      ∀ rs, SameUpTo (SameFit ρ (Equiv.refl (Fin p)) s.storePredictions s.storeAcceptance) (fit s X y rs) (fit s (reorder ρ (Equiv.refl _) X) (y ∘ ρ) (T ∘ rs)) :=
  ofit_reorder hX (sameColumns_of_inj hd) hp hp1 hp2 hth hch hns hy

/-- C133, the distribution, if no column has the same value in two rows. -/
theorem C133_distribution_partial (hX : ∀ r, GoodRow (X r)) (hd : ∀ j, Function.Injective fun i => X i j) (ρ : Equiv.Perm (Fin n)) {s : SkModel K p} (hp : 0 < p) (hp1 : s.pGrow ≠ 0) (hp2 : s.pPrune ≠ 0)
    (hth : s.thin ≠ 0) (hch : 0 < s.nChains) (hns : 0 < s.nSamples) {y : Fin n → K} (hy : ∃ i j, y i ≠ y j) {N k : Nat} (hN : ∀ L, 1 ≤ L → L ≤ max n p → L ∣ N) (other : Nat → Rand K)
    {q : Nat} {Z : Fin q → Fin p → Fl K} (hZ : ∀ r, GoodRow (Z r)) (A : Set (Except PyErr (List K))) :
    Nat.card {us : Fin s.nChains → Fin k → Fin N // predictionsOf (fit s X y (withPicks other us)) Z ∈ A} =
      Nat.card {us : Fin s.nChains → Fin k → Fin N // predictionsOf (fit s (reorder ρ (Equiv.refl _) X) (y ∘ ρ) (withPicks other us)) Z ∈ A} := by
  obtain ⟨T, hT, h⟩ := C133_rows_partial hX hd ρ hp hp1 hp2 hth hch hns hy
  exact odistribution (σ := Equiv.refl _) hT h hN other hZ A

section examples
attribute [local instance] exFns

/-- The target of the counterexample. -/
def exYo : Fin 3 → ℚ := fun r => if r.val < 2 then 0 else 1

theorem exDup_good : ∀ r, GoodRow (exDup r) := by
  intro r j
  obtain rfl : j = 0 := Subsingleton.elim _ _
  fin_cases r <;> simp [exDup, exX3]

/-- C133, refuted in general: if the first proposal is to grow, a fit to X = 1, 2, 2 raises AttributeError, whatever the other draws; with the first two rows exchanged (X = 2, 1, 2) it can return. So there
is no correspondence between the draws that leaves all but the picks alone. -/
theorem C133_refuted : ∃ (X : Fin 3 → Fin 1 → Fl ℚ) (y : Fin 3 → ℚ) (ρ : Equiv.Perm (Fin 3)) (s : SkModel ℚ 1), (∀ r, GoodRow (X r)) ∧ s.pGrow ≠ 0 ∧ s.pPrune ≠ 0 ∧ s.thin ≠ 0 ∧ 0 < s.nChains ∧
    0 < s.nSamples ∧ (∃ i j, y i ≠ y j) ∧ (∀ rs ms, (rs 0).methods = .grow :: ms → fit s X y rs = .error .attributeError) ∧
    (∃ rs ms f, (rs 0).methods = .grow :: ms ∧ fit s (reorder ρ (Equiv.refl _) X) (y ∘ ρ) rs = .ok f) ∧
    ¬∃ T : Equiv.Perm (Rand ℚ), OnlyPicks 3 T ∧ ∀ rs, SameUpTo (SameFit ρ (Equiv.refl (Fin 1)) s.storePredictions s.storeAcceptance) (fit s X y rs) (fit s (reorder ρ (Equiv.refl _) X) (y ∘ ρ) (T ∘ rs)) := by
  have hy : ∃ i j, exYo i ≠ exYo j := ⟨0, 2, by decide +kernel⟩
  have h1 : ∀ (rs : Nat → Rand ℚ) ms, (rs 0).methods = .grow :: ms → fit exSkf exDup exYo rs = .error .attributeError := by
    intro rs ms h
    refine C126_constant exDup_good (by decide) (by decide +kernel) (by decide +kernel) (by decide +kernel) (by decide +kernel) (by decide +kernel) (by decide +kernel) hy (fun j => ?_) h
    obtain rfl : j = 0 := Subsingleton.elim _ _
    rintro ⟨a, ha, b, hb, hab⟩
    rw [show (column exDup (fun _ => true) 0).tail = [.fin 2, .fin 2] by decide +kernel] at ha hb
    simp only [List.mem_cons, List.not_mem_nil, or_false, or_self] at ha hb
    exact hab (ha.trans hb.symm)
  have h2 : ∃ f, fit exSkf (reorder (Equiv.swap 0 1) (Equiv.refl _) exDup) (exYo ∘ (Equiv.swap 0 1 : Equiv.Perm (Fin 3))) (fun _ => { exRf with picks := [0, 1, 0, 1, 0, 1, 0, 1, 0, 1, 0, 1, 0, 1] }) = .ok f := by
    have h : (match fit exSkf (reorder (Equiv.swap 0 1) (Equiv.refl _) exDup) (exYo ∘ (Equiv.swap 0 1 : Equiv.Perm (Fin 3))) (fun _ => { exRf with picks := [0, 1, 0, 1, 0, 1, 0, 1, 0, 1, 0, 1, 0, 1] }) with
        | .ok _ => true
        | .error _ => false) = true := by decide +kernel
    split at h
    · next f hf => exact ⟨f, hf⟩
    · cases h
  refine ⟨exDup, exYo, Equiv.swap 0 1, exSkf, exDup_good, by decide +kernel, by decide +kernel, by decide +kernel, by decide +kernel, by decide +kernel, hy, h1, ?_, ?_⟩
  · obtain ⟨f, hf⟩ := h2
    exact ⟨_, _, f, rfl, hf⟩
  · rintro ⟨T, hT, h⟩
    obtain ⟨f, hf⟩ := h2
    have h3 := h (fun _ => T.symm { exRf with picks := [0, 1, 0, 1, 0, 1, 0, 1, 0, 1, 0, 1, 0, 1] })
    have h4 : (T ∘ fun _ : Nat => T.symm { exRf with picks := [0, 1, 0, 1, 0, 1, 0, 1, 0, 1, 0, 1, 0, 1] }) = fun _ => { exRf with picks := [0, 1, 0, 1, 0, 1, 0, 1, 0, 1, 0, 1, 0, 1] } := by
      funext i
      simp
    rw [h4, hf, h1 _ [.grow, .grow, .grow] ?_] at h3
    · exact h3
    · have := hT.methods (T.symm { exRf with picks := [0, 1, 0, 1, 0, 1, 0, 1, 0, 1, 0, 1, 0, 1] })
      rw [Equiv.apply_symm_apply] at this
      exact this.symm

/-- Data with two columns: 0, 1, 2, 3 and 0, 5, 2, 7. -/
def exXo : Fin 4 → Fin 2 → Fl ℚ := fun r j => if j = 0 then .fin r.val else .fin (if r.val % 2 = 1 then r.val + 4 else r.val)

/-- C132, C133: the hypotheses are met. -/
example : (∀ r, GoodRow (exXo r)) ∧ (∀ j, Function.Injective fun i => exXo i j) ∧ exSkg.pGrow ≠ 0 ∧ 0 < exSkg.nChains ∧ (∃ i j, exYf i ≠ exYf j) := by
  refine ⟨fun r j => ?_, ?_, by decide +kernel, by decide +kernel, 0, 2, by decide +kernel⟩
  · fin_cases r <;> fin_cases j <;> simp [exXo]
  · intro j i i'
    revert j i i'
    decide +kernel

/-- The draws of the example with other picks. -/
def exRo (picks : List Nat) : Nat → Rand ℚ := fun _ => { exRf with picks := picks }

/-- C132, what the correspondence does: the predictions for the data with exchanged columns are the same if the picks of the columns are exchanged (with the same picks they are not). -/
example : (match predictionsOf (fit exSkg exXo exYf (exRo [0, 0, 0, 0, 0, 0, 0, 0, 0, 0, 0, 0])) exXo,
      predictionsOf (fit exSkg (reorder (Equiv.refl _) (Equiv.swap 0 1) exXo) exYf (exRo [1, 0, 1, 0, 1, 0, 1, 0, 1, 0, 1, 0])) (reorder (Equiv.refl _) (Equiv.swap 0 1) exXo),
      predictionsOf (fit exSkg (reorder (Equiv.refl _) (Equiv.swap 0 1) exXo) exYf (exRo [0, 0, 0, 0, 0, 0, 0, 0, 0, 0, 0, 0])) (reorder (Equiv.refl _) (Equiv.swap 0 1) exXo) with
    | .ok a, .ok b, .ok c => decide (a = b ∧ a ≠ c)
    | _, _, _ => false) = true := by decide +kernel

end examples
end Bart.Oblivious
