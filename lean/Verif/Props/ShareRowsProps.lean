import Verif.Props.ShareInvarianceProps

/-! C153: if no column has the same value in two rows, the shares of the columns do not depend on the order of the training rows, with both samplers. -/

set_option linter.unusedSectionVars false

namespace Bart
open Spec Reference
variable {K : Type} [Field K] [LinearOrder K] [IsStrictOrderedRing K] {n p : Nat} {X : Fin n → Fin p → Fl K} [MathFns K] [FloorRing K]

/-- C153: with the training rows in another order, and the random choices changed by a permutation that depends on the data only, each column has the same share (or the fit raises the same
exception). -/
theorem C153_rows (hX : NoNan X) (hd : ∀ j, Function.Injective fun i => X i j) (ρ : Equiv.Perm (Fin n)) {s : SkModel K p} (hp : 0 < p) (hp1 : s.pGrow ≠ 0) (hp2 : s.pPrune ≠ 0)
    (hth : s.thin ≠ 0) (hch : 0 < s.nChains) {y : Fin n → K} (hy : ∃ i j, y i ≠ y j) :
    ∃ T : Equiv.Perm (Rand K), OnlyPicks (max n p) T ∧ ∀ rs j, splitShareOf (s.fit (reorder ρ (Equiv.refl _) X) (y ∘ ρ) (T ∘ rs)) j = splitShareOf (s.fit X y rs) j := by
  obtain ⟨lo, hi, hlo, hhi, hlt⟩ := exists_range hy
  have hr : Set.range (y ∘ ρ) = Set.range y := ρ.surjective.range_comp y
  have hX' : NoNan (reorder ρ (Equiv.refl _) X) := fun i j => hX _ _
  obtain ⟨T, hT, h⟩ := chains_reorder (σ := Equiv.refl _) (sameColumns_of_inj (ρ := ρ) hd) s.config (scaled lo hi y)
  refine ⟨T, hT, fun rs j => ?_⟩
  rw [splitShareOf_fit hX' hp hp1 hp2 hth hch (by rw [hr]; exact hlo) (by rw [hr]; exact hhi) hlt, splitShareOf_fit hX hp hp1 hp2 hth hch hlo hhi hlt]
  have h3 : Reference.fit s.config (reorder ρ (Equiv.refl _) X) lo hi (y ∘ ρ) (T ∘ rs) = match Reference.fit s.config X lo hi y rs with
      | .error e => .error e
      | .ok l => .ok (l.map fun a => (a.1, a.2.relabel (Equiv.refl _))) := by
    unfold Reference.fit
    rw [← List.map_map]
    exact h _
  rw [h3]
  cases Reference.fit s.config X lo hi y rs with
  | error e => rfl
  | ok l => simp only [totalSplitsOn_relabel, nodesIn_relabel, Equiv.refl_apply]

/-- C153, the distribution: whatever the other draws, for picks uniformly from `0 .. N - 1` every set of tables of shares is equally likely for the data and for the data with reordered rows. -/
theorem C153_distribution (hX : NoNan X) (hd : ∀ j, Function.Injective fun i => X i j) (ρ : Equiv.Perm (Fin n)) {s : SkModel K p} (hp : 0 < p) (hp1 : s.pGrow ≠ 0) (hp2 : s.pPrune ≠ 0)
    (hth : s.thin ≠ 0) (hch : 0 < s.nChains) {y : Fin n → K} (hy : ∃ i j, y i ≠ y j) {N m : Nat} (hN : ∀ L, 1 ≤ L → L ≤ max n p → L ∣ N) (other : Nat → Rand K)
    (A : Set (Fin p → Except PyErr K)) :
    Nat.card {us : Fin s.nChains → Fin m → Fin N // splitShareOf (s.fit X y (withPicks other us)) ∈ A} =
      Nat.card {us : Fin s.nChains → Fin m → Fin N // splitShareOf (s.fit (reorder ρ (Equiv.refl _) X) (y ∘ ρ) (withPicks other us)) ∈ A} := by
  obtain ⟨T, hT, h⟩ := C153_rows hX hd ρ hp hp1 hp2 hth hch hy
  refine card_of_onlyPicks hT hN other (E := fun rs => splitShareOf (s.fit X y rs) ∈ A) (E' := fun rs => splitShareOf (s.fit (reorder ρ (Equiv.refl _) X) (y ∘ ρ) rs) ∈ A) (fun rs => ?_)
    fun rs rs' hrs => by rw [fit_draws_congr s _ hrs]
  rw [show splitShareOf (s.fit X y rs) = splitShareOf (s.fit (reorder ρ (Equiv.refl _) X) (y ∘ ρ) (T ∘ rs)) from funext fun j => (h rs j).symm]

namespace Oblivious

/-- C153 with the oblivious tree sampler. -/
theorem C153_rows (hX : ∀ r, GoodRow (X r)) (hd : ∀ j, Function.Injective fun i => X i j) (ρ : Equiv.Perm (Fin n)) {s : SkModel K p} (hp : 0 < p) (hp1 : s.pGrow ≠ 0) (hp2 : s.pPrune ≠ 0)
    (hth : s.thin ≠ 0) (hch : 0 < s.nChains) {y : Fin n → K} (hy : ∃ i j, y i ≠ y j) :
    ∃ T : Equiv.Perm (Rand K), OnlyPicks (max n p) T ∧ ∀ rs j, splitShareOf (fit s (reorder ρ (Equiv.refl _) X) (y ∘ ρ) (T ∘ rs)) j = splitShareOf (fit s X y rs) j := by
  obtain ⟨lo, hi, hlo, hhi, hlt⟩ := exists_range hy
  have hr : Set.range (y ∘ ρ) = Set.range y := ρ.surjective.range_comp y
  have hX' : ∀ r, GoodRow (reorder ρ (Equiv.refl _) X r) := fun i j => hX _ _
  obtain ⟨T, hT, h⟩ := layer_chains_reorder (σ := Equiv.refl _) (sameColumns_of_inj (ρ := ρ) hd) s.config (scaled lo hi y)
  refine ⟨T, hT, fun rs j => ?_⟩
  rw [layer_share_fit hX' hp hp1 hp2 hth hch (by rw [hr]; exact hlo) (by rw [hr]; exact hhi) hlt, layer_share_fit hX hp hp1 hp2 hth hch hlo hhi hlt]
  have h3 : Layers.fit s.config (reorder ρ (Equiv.refl _) X) lo hi (y ∘ ρ) (T ∘ rs) = (Layers.fit s.config X lo hi y rs).map (List.map fun a => (a.1, a.2.relabel (Equiv.refl _))) := by
    unfold Layers.fit
    rw [← List.map_map]
    exact h _
  rw [h3]
  cases Layers.fit s.config X lo hi y rs with
  | error e => rfl
  | ok l => simp only [Except.map, ← Nat.cast_add, tally_relabel, nodesIn_relabel, Equiv.refl_apply]

/-- C153 with the oblivious tree sampler, the distribution. -/
theorem C153_distribution (hX : ∀ r, GoodRow (X r)) (hd : ∀ j, Function.Injective fun i => X i j) (ρ : Equiv.Perm (Fin n)) {s : SkModel K p} (hp : 0 < p) (hp1 : s.pGrow ≠ 0)
    (hp2 : s.pPrune ≠ 0) (hth : s.thin ≠ 0) (hch : 0 < s.nChains) {y : Fin n → K} (hy : ∃ i j, y i ≠ y j) {N m : Nat} (hN : ∀ L, 1 ≤ L → L ≤ max n p → L ∣ N) (other : Nat → Rand K)
    (A : Set (Fin p → Except PyErr K)) :
    Nat.card {us : Fin s.nChains → Fin m → Fin N // splitShareOf (fit s X y (withPicks other us)) ∈ A} =
      Nat.card {us : Fin s.nChains → Fin m → Fin N // splitShareOf (fit s (reorder ρ (Equiv.refl _) X) (y ∘ ρ) (withPicks other us)) ∈ A} := by
  obtain ⟨T, hT, h⟩ := C153_rows hX hd ρ hp hp1 hp2 hth hch hy
  refine card_of_onlyPicks hT hN other (E := fun rs => splitShareOf (fit s X y rs) ∈ A) (E' := fun rs => splitShareOf (fit s (reorder ρ (Equiv.refl _) X) (y ∘ ρ) rs) ∈ A) (fun rs => ?_)
    fun rs rs' hrs => by rw [ofit_draws_congr s _ hrs]
  rw [show splitShareOf (fit s X y rs) = splitShareOf (fit s (reorder ρ (Equiv.refl _) X) (y ∘ ρ) (T ∘ rs)) from funext fun j => (h rs j).symm]

end Oblivious

section examples
attribute [local instance] exFns

/-- C153, the hypotheses are met; with the first two rows exchanged there are draws with the same shares 2/3 and 0, while the draws `exOrdRs` give other shares (1/3 and 1/3). -/
example : NoNan exOrd ∧ (∀ j i i', exOrd i j = exOrd i' j → i = i') ∧ exSk2.pGrow ≠ 0 ∧ exSk2.pPrune ≠ 0 ∧ exSk2.thin ≠ 0 ∧ 0 < exSk2.nChains ∧ exY 0 ≠ exY 1 ∧
    [0, 1].map (fun j => shareNumber (splitShareOf (exSk2.fit exOrd exY exRs) j)) = [2/3, 0] ∧
    [0, 1].map (fun j => shareNumber (splitShareOf (exSk2.fit (reorder (Equiv.swap 0 1) (Equiv.refl _) exOrd) (exY ∘ (Equiv.swap 0 1 : Equiv.Perm (Fin 3))) exRs) j)) = [2/3, 0] ∧
    [0, 1].map (fun j => shareNumber (splitShareOf (exSk2.fit (reorder (Equiv.swap 0 1) (Equiv.refl _) exOrd) (exY ∘ (Equiv.swap 0 1 : Equiv.Perm (Fin 3))) exOrdRs) j)) = [1/3, 1/3] := by
  refine ⟨?_, ?_⟩
  · unfold NoNan; decide +kernel
  · decide +kernel


namespace Oblivious

/-- C153 with the oblivious tree sampler: the hypotheses are met, with the share 22/25. -/
example : (∀ r, GoodRow (exXo r)) ∧ (∀ j i i', exXo i j = exXo i' j → i = i') ∧ exSkg.pGrow ≠ 0 ∧ exSkg.pPrune ≠ 0 ∧ exSkg.thin ≠ 0 ∧ 0 < exSkg.nChains ∧ exYf 0 ≠ exYf 2 ∧
    [0, 1].map (fun j => shareNumber (splitShareOf (fit exSkg exXo exYf (exRo [1, 0, 1, 0, 1, 0, 1, 0, 1, 0, 1, 0])) j)) = [0, 22/25] ∧
    [0, 1].map (fun j => shareNumber (splitShareOf (fit exSkg (reorder (Equiv.swap 1 2) (Equiv.refl _) exXo) (exYf ∘ (Equiv.swap 1 2 : Equiv.Perm (Fin 4)))
      (exRo [1, 0, 1, 0, 1, 0, 1, 0, 1, 0, 1, 0])) j)) = [0, 22/25] := by
  refine ⟨?_, ?_⟩
  · unfold GoodRow; decide +kernel
  · decide +kernel

end Oblivious
end examples
end Bart
