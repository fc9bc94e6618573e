import Verif.Props.CopyShareProps
import Verif.Props.TurnProps

/-! C150: the shares of the columns do not depend on the direction of columns without repeated values. -/

set_option linter.unusedSectionVars false

namespace Bart
open Spec Reference

section
variable {K : Type} [Field K] [LinearOrder K] [IsStrictOrderedRing K] {n p : Nat} {X : Fin n → Fin p → Fl K} {neg : Fin p → Bool}

theorem splitsOn_turn {t t' : RTree K p} (h : Turn neg X t t') (j : Fin p) : splitsOn t' j = splitsOn t j := by
  unfold splitsOn
  rw [← h.perm.countP_eq, List.countP_map]
  apply List.countP_congr
  intro nd _
  rcases nd with ⟨path, v | ⟨i, v⟩⟩ <;> simp [turnNode, turnContent]

theorem length_turn {t t' : RTree K p} (h : Turn neg X t t') : t'.length = t.length := by
  rw [← h.perm.length_eq, List.length_map]

theorem sum_turn {ts ts' : List (RTree K p)} (h : List.Forall₂ (Turn neg X) ts ts') {f : RTree K p → Nat} (hf : ∀ {t t'}, Turn neg X t t' → f t' = f t) : (ts'.map f).sum = (ts.map f).sum := by
  induction h with
  | nil => rfl
  | cons h1 _ ih => simp only [List.map_cons, List.sum_cons, ih, hf h1]

theorem samples_turn {l l' : List (List Bool × State K p)} (h : TurnSamples neg X l l') {f : RTree K p → Nat} (hf : ∀ {t t'}, Turn neg X t t' → f t' = f t) :
    ((l'.map Prod.snd).map fun s => (s.trees.map f).sum).sum = ((l.map Prod.snd).map fun s => (s.trees.map f).sum).sum := by
  induction h with
  | nil => rfl
  | cons h1 _ ih => simp only [List.map_cons, List.sum_cons, ih, sum_turn h1.2.1 hf]

end

variable {K : Type} [Field K] [LinearOrder K] [IsStrictOrderedRing K] {n p : Nat} {X : Fin n → Fin p → Fl K} [MathFns K] [FloorRing K] {neg : Fin p → Bool}

/-- C150: with the other sign of some columns without repeated values, and corresponding draws (as in C115), both fits raise an exception or return with the same share of each column. -/
theorem C150_direction (hX : NoNan X) (ht : ∀ j, neg j = true → Function.Injective fun i => X i j) {s : SkModel K p} (hp : 0 < p) (hp1 : s.pGrow ≠ 0) (hp2 : s.pPrune ≠ 0) (hth : s.thin ≠ 0)
    (hch : 0 < s.nChains) {y : Fin n → K} (hy : ∃ i j, y i ≠ y j) :
    ∃ T : Equiv.Perm (Rand K), PicksAndOrder (max n p) T ∧ ∀ rs j, BothUpTo (fun v v' => v' = v) (splitShareOf (s.fit X y rs) j) (splitShareOf (s.fit (turned neg X) y (T ∘ rs)) j) := by
  obtain ⟨lo, hi, hlo, hhi, hlt⟩ := exists_range hy
  obtain ⟨T, hT, h⟩ := chains_turn hX ht s.config (scaled lo hi y)
  refine ⟨T, hT, fun rs j => ?_⟩
  rw [splitShareOf_fit hX hp hp1 hp2 hth hch hlo hhi hlt, splitShareOf_fit (turned_noNan (neg := neg) hX) hp hp1 hp2 hth hch hlo hhi hlt]
  have h3 : BothUpTo (TurnSamples neg X) (Reference.fit s.config X lo hi y rs) (Reference.fit s.config (turned neg X) lo hi y (T ∘ rs)) := by
    unfold Reference.fit
    rw [← List.map_map]
    exact h _
  generalize Reference.fit s.config X lo hi y rs = A at h3 ⊢
  generalize Reference.fit s.config (turned neg X) lo hi y (T ∘ rs) = A' at h3 ⊢
  cases A <;> cases A' <;> simp only [BothUpTo] at h3 ⊢
  unfold totalSplitsOn nodesIn
  rw [samples_turn h3 fun h => splitsOn_turn h j, samples_turn h3 length_turn]

open Classical in
/-- C150, the distribution: whatever the other draws, for picks uniformly from `0 .. N - 1` and normal numbers independently from any distribution with finitely many values (the value `val a` has the
weight `w a`), every set of tables of shares has the same weight for the data and for the data with the other sign of some columns without repeated values (a run with an exception has no table). -/
theorem C150_distribution (hX : NoNan X) (ht : ∀ j, neg j = true → Function.Injective fun i => X i j) {s : SkModel K p} (hp : 0 < p) (hp1 : s.pGrow ≠ 0) (hp2 : s.pPrune ≠ 0) (hth : s.thin ≠ 0)
    (hch : 0 < s.nChains) {y : Fin n → K} (hy : ∃ i j, y i ≠ y j) {S W : Type} [Fintype S] [CommSemiring W] {val : S → K} (hval : Function.Injective val) (w : S → W) {N k l : Nat}
    (hN : ∀ L, 1 ≤ L → L ≤ max n p → L ∣ N) (other : Nat → Rand K) (A : Set (Fin p → Option K)) :
    (∑ us : Fin s.nChains → (Fin k → Fin N) × (Fin l → S),
        if (fun j => (splitShareOf (s.fit X y (withPicksAndNormals val other us)) j).toOption) ∈ A then ∏ i, ∏ a, w ((us i).2 a) else 0) =
      ∑ us : Fin s.nChains → (Fin k → Fin N) × (Fin l → S),
        if (fun j => (splitShareOf (s.fit (turned neg X) y (withPicksAndNormals val other us)) j).toOption) ∈ A then ∏ i, ∏ a, w ((us i).2 a) else 0 := by
  obtain ⟨T, hT, h⟩ := C150_direction hX ht hp hp1 hp2 hth hch hy
  refine sum_of_picksAndOrder hval w hT hN other (E := fun rs => (fun j => (splitShareOf (s.fit X y rs) j).toOption) ∈ A)
    (E' := fun rs => (fun j => (splitShareOf (s.fit (turned neg X) y rs) j).toOption) ∈ A) (fun rs => ?_) fun rs rs' hrs => by rw [fit_draws_congr s _ hrs]
  have e : (fun j => (splitShareOf (s.fit X y rs) j).toOption) = fun j => (splitShareOf (s.fit (turned neg X) y (T ∘ rs)) j).toOption := by
    funext j
    have h1 := h rs j
    generalize splitShareOf (s.fit X y rs) j = a at h1 ⊢
    generalize splitShareOf (s.fit (turned neg X) y (T ∘ rs)) j = a' at h1 ⊢
    cases a <;> cases a' <;> simp only [BothUpTo] at h1
    · rfl
    · rw [h1]
  rw [e]

/-! ### a concrete case -/

section examples
attribute [local instance] exFns

/-- Two columns without repeated values, of which the second is turned. -/
def exTurnNeg : Fin 2 → Bool := fun j => decide (j = 1)

/-- C150, the hypotheses are met, and what the correspondence does (see the example of C115): 0, 5, 2 is split at 0 by the entry number 0; for 0, -5, -2 the cut that separates the same rows is the entry
number 2. -/
example : NoNan exOrd ∧ (∀ j, exTurnNeg j = true → ∀ i i', exOrd i j = exOrd i' j → i = i') ∧ exSk2.pGrow ≠ 0 ∧ exSk2.pPrune ≠ 0 ∧ exSk2.thin ≠ 0 ∧ 0 < exSk2.nChains ∧ exY 0 ≠ exY 1 ∧
    [0, 1].map (fun j => splitShareOf (({ exSk2 with nTrees := 1, nChains := 1, nSamples := 1, nBurn := 0, thin := 1 } : SkModel ℚ 2).fit exOrd exY
      fun _ => { exRands1 with picks := [0, 1, 0], normals := [1, 2] }) j) = [.ok 0, .ok (2/3)] ∧
    [0, 1].map (fun j => splitShareOf (({ exSk2 with nTrees := 1, nChains := 1, nSamples := 1, nBurn := 0, thin := 1 } : SkModel ℚ 2).fit (turned exTurnNeg exOrd) exY
      fun _ => { exRands1 with picks := [0, 1, 2], normals := [2, 1] }) j) = [.ok 0, .ok (2/3)] := by
  unfold NoNan
  decide +kernel

end examples
end Bart
