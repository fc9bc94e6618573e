import Verif.Props.ObliviousCopyShareProps
import Verif.Props.ObliviousSymmetryProps
import Verif.Props.MirrorProps

/-! C148: the shares of the columns depend neither on the order of the columns nor on the units and the sign of the target, with both samplers. -/

set_option linter.unusedSectionVars false

namespace Bart
open Spec Reference

/-! ### numbers of splits of mirrored trees -/

section
variable {K : Type} [Field K] [LinearOrder K] {n p : Nat}

theorem splitsOn_mirror (t : RTree K p) (j : Fin p) : splitsOn t.mirror j = splitsOn t j := by
  unfold splitsOn RTree.mirror
  rw [List.countP_map]
  apply List.countP_congr
  intro nd _
  rcases nd with ⟨path, v | ⟨i, v⟩⟩ <;> simp [RNode.mirror, Content.mirror]

theorem totalSplitsOn_mirror (l : List (List Bool × State K p)) (j : Fin p) :
    totalSplitsOn ((l.map fun a => (a.1, a.2.mirror)).map Prod.snd) j = totalSplitsOn (l.map Prod.snd) j := by
  unfold totalSplitsOn
  rw [List.map_map, List.map_map, List.map_map]
  congr 2
  funext a
  simp [State.mirror, Function.comp_def, splitsOn_mirror]

theorem nodesIn_mirror (l : List (List Bool × State K p)) : nodesIn ((l.map fun a => (a.1, a.2.mirror)).map Prod.snd) = nodesIn (l.map Prod.snd) := by
  unfold nodesIn
  rw [List.map_map, List.map_map, List.map_map]
  congr 2
  funext a
  simp [State.mirror, RTree.mirror, Function.comp_def]

end

variable {K : Type} [Field K] [LinearOrder K] [IsStrictOrderedRing K] {n p : Nat} {X : Fin n → Fin p → Fl K} [MathFns K] [FloorRing K]

theorem isLeast_rescaled {a : K} (ha : 0 < a) (b : K) {y : Fin n → K} {lo : K} (h : IsLeast (Set.range y) lo) : IsLeast (Set.range (rescaled a b y)) (a * lo + b) := by
  obtain ⟨⟨i, hi⟩, h⟩ := h
  refine ⟨⟨i, by simp [rescaled, hi]⟩, ?_⟩
  rintro _ ⟨j, rfl⟩
  have := h ⟨j, rfl⟩
  simp only [rescaled]
  nlinarith

theorem isGreatest_rescaled {a : K} (ha : 0 < a) (b : K) {y : Fin n → K} {hi : K} (h : IsGreatest (Set.range y) hi) : IsGreatest (Set.range (rescaled a b y)) (a * hi + b) := by
  obtain ⟨⟨i, hi⟩, h⟩ := h
  refine ⟨⟨i, by simp [rescaled, hi]⟩, ?_⟩
  rintro _ ⟨j, rfl⟩
  have := h ⟨j, rfl⟩
  simp only [rescaled]
  nlinarith

theorem isLeast_rescaled_neg {a : K} (ha : a < 0) (b : K) {y : Fin n → K} {hi : K} (h : IsGreatest (Set.range y) hi) : IsLeast (Set.range (rescaled a b y)) (a * hi + b) := by
  obtain ⟨⟨i, hi⟩, h⟩ := h
  refine ⟨⟨i, by simp [rescaled, hi]⟩, ?_⟩
  rintro _ ⟨j, rfl⟩
  have := h ⟨j, rfl⟩
  simp only [rescaled]
  nlinarith

theorem isGreatest_rescaled_neg {a : K} (ha : a < 0) (b : K) {y : Fin n → K} {lo : K} (h : IsLeast (Set.range y) lo) : IsGreatest (Set.range (rescaled a b y)) (a * lo + b) := by
  obtain ⟨⟨i, hi⟩, h⟩ := h
  refine ⟨⟨i, by simp [rescaled, hi]⟩, ?_⟩
  rintro _ ⟨j, rfl⟩
  have := h ⟨j, rfl⟩
  simp only [rescaled]
  nlinarith

theorem scaled_rescaled {a : K} (ha : 0 < a) (b : K) {lo hi : K} (h : lo < hi) (y : Fin n → K) : scaled (a * lo + b) (a * hi + b) (rescaled a b y) = scaled lo hi y := by
  funext i
  unfold scaled rescaled
  have h3 : hi - lo ≠ 0 := by rw [sub_ne_zero]; exact h.ne'
  rw [show a * y i + b - (a * lo + b) = a * (y i - lo) by ring, show a * hi + b - (a * lo + b) = a * (hi - lo) by ring, mul_div_mul_left _ _ ha.ne']

/-- C148, the order of the columns: with the columns of X in another order, and the random choices changed by a permutation that depends on the data only, each column has the same share (or the fit
raises the same exception). -/
theorem C148_columns (hX : NoNan X) (σ : Equiv.Perm (Fin p)) {s : SkModel K p} (hp : 0 < p) (hp1 : s.pGrow ≠ 0) (hp2 : s.pPrune ≠ 0) (hth : s.thin ≠ 0) (hch : 0 < s.nChains) {y : Fin n → K}
    (hy : ∃ i j, y i ≠ y j) :
    ∃ T : Equiv.Perm (Rand K), OnlyPicks (max n p) T ∧ ∀ rs j, splitShareOf (s.fit (reorder (Equiv.refl _) σ X) y (T ∘ rs)) j = splitShareOf (s.fit X y rs) (σ j) :=
  splitShareOf_reorder hX σ hp hp1 hp2 hth hch hy

/-- C148, the order of the columns, the distribution: whatever the other draws, for picks uniformly from `0 .. N - 1` every set of tables of shares is equally likely for the data and for the data with
reordered columns. -/
theorem C148_distribution (hX : NoNan X) (σ : Equiv.Perm (Fin p)) {s : SkModel K p} (hp : 0 < p) (hp1 : s.pGrow ≠ 0) (hp2 : s.pPrune ≠ 0) (hth : s.thin ≠ 0) (hch : 0 < s.nChains) {y : Fin n → K}
    (hy : ∃ i j, y i ≠ y j) {N m : Nat} (hN : ∀ L, 1 ≤ L → L ≤ max n p → L ∣ N) (other : Nat → Rand K) (A : Set (Fin p → Except PyErr K)) :
    Nat.card {us : Fin s.nChains → Fin m → Fin N // (fun j => splitShareOf (s.fit X y (withPicks other us)) (σ j)) ∈ A} =
      Nat.card {us : Fin s.nChains → Fin m → Fin N // splitShareOf (s.fit (reorder (Equiv.refl _) σ X) y (withPicks other us)) ∈ A} := by
  obtain ⟨T, hT, h⟩ := C148_columns hX σ hp hp1 hp2 hth hch hy
  refine card_of_onlyPicks hT hN other (E := fun rs => (fun j => splitShareOf (s.fit X y rs) (σ j)) ∈ A) (E' := fun rs => splitShareOf (s.fit (reorder (Equiv.refl _) σ X) y rs) ∈ A) (fun rs => ?_)
    fun rs rs' hrs => by rw [fit_draws_congr s _ hrs]
  rw [show (fun j => splitShareOf (s.fit X y rs) (σ j)) = splitShareOf (s.fit (reorder (Equiv.refl _) σ X) y (T ∘ rs)) from funext fun j => (h rs j).symm]

/-- C148, the units of the target: with `a * y + b` for `y`, `a > 0`, each column has the same share for the same draws (or the fit raises the same exception). -/
theorem C148_units (hX : NoNan X) {a : K} (ha : 0 < a) (b : K) {s : SkModel K p} (hp : 0 < p) (hp1 : s.pGrow ≠ 0) (hp2 : s.pPrune ≠ 0) (hth : s.thin ≠ 0) (hch : 0 < s.nChains) {y : Fin n → K}
    (hy : ∃ i j, y i ≠ y j) (rs : Nat → Rand K) (j : Fin p) : splitShareOf (s.fit X (rescaled a b y) rs) j = splitShareOf (s.fit X y rs) j := by
  obtain ⟨lo, hi, hlo, hhi, hlt⟩ := exists_range hy
  rw [splitShareOf_fit hX hp hp1 hp2 hth hch hlo hhi hlt, splitShareOf_fit hX hp hp1 hp2 hth hch (isLeast_rescaled ha b hlo) (isGreatest_rescaled ha b hhi) (by nlinarith)]
  unfold Reference.fit
  rw [scaled_rescaled ha b hlt]

/-- C148, the sign of the target: with `a * y + b` for `y`, `a < 0`, and the other sign of all normal draws, each column has the same share (or the fit raises the same exception). -/
theorem C148_sign (hX : NoNan X) {a : K} (ha : a < 0) (b : K) {s : SkModel K p} (hp : 0 < p) (hp1 : s.pGrow ≠ 0) (hp2 : s.pPrune ≠ 0) (hth : s.thin ≠ 0) (hch : 0 < s.nChains) {y : Fin n → K}
    (hy : ∃ i j, y i ≠ y j) (rs : Nat → Rand K) (j : Fin p) : splitShareOf (s.fit X (rescaled a b y) (mirrored ∘ rs)) j = splitShareOf (s.fit X y rs) j := by
  obtain ⟨lo, hi, hlo, hhi, hlt⟩ := exists_range hy
  rw [splitShareOf_fit hX hp hp1 hp2 hth hch hlo hhi hlt, splitShareOf_fit hX hp hp1 hp2 hth hch (isLeast_rescaled_neg ha b hhi) (isGreatest_rescaled_neg ha b hlo) (by nlinarith)]
  have h3 : Reference.fit s.config X (a * hi + b) (a * lo + b) (rescaled a b y) (mirrored ∘ rs) = match Reference.fit s.config X lo hi y rs with
      | .error e => .error e
      | .ok l => .ok (l.map fun x => (x.1, x.2.mirror)) := by
    unfold Reference.fit
    rw [← List.map_map]
    unfold rescaled
    rw [scaled_mirror b ha hlt]
    exact mirror_chains _ _ _
  rw [h3]
  cases Reference.fit s.config X lo hi y rs with
  | error e => rfl
  | ok l => simp only [totalSplitsOn_mirror, nodesIn_mirror]

namespace Oblivious

theorem tally_mirror (l : List (List Bool × Layers.State K p)) (j : Fin p) :
    splitsIn (l.map fun a => (a.1, a.2.mirror)) j + doublingsIn (l.map fun a => (a.1, a.2.mirror)) j = splitsIn l j + doublingsIn l j := by
  unfold splitsIn doublingsIn
  simp only [List.flatMap_map, Layers.State.mirror, List.map_map, Function.comp_def, Layers.LTree.mirror]

theorem nodesIn_mirror (l : List (List Bool × Layers.State K p)) : nodesIn (l.map fun a => (a.1, a.2.mirror)) = nodesIn l := by
  unfold nodesIn
  simp only [List.flatMap_map, Layers.State.mirror, List.map_map, Function.comp_def, Layers.LTree.mirror]

/-- C148 with the oblivious tree sampler, the order of the columns. -/
theorem C148_columns (hX : ∀ r, GoodRow (X r)) (σ : Equiv.Perm (Fin p)) {s : SkModel K p} (hp : 0 < p) (hp1 : s.pGrow ≠ 0) (hp2 : s.pPrune ≠ 0) (hth : s.thin ≠ 0) (hch : 0 < s.nChains)
    {y : Fin n → K} (hy : ∃ i j, y i ≠ y j) :
    ∃ T : Equiv.Perm (Rand K), OnlyPicks (max n p) T ∧ ∀ rs j, splitShareOf (fit s (reorder (Equiv.refl _) σ X) y (T ∘ rs)) j = splitShareOf (fit s X y rs) (σ j) :=
  layer_share_reorder hX σ hp hp1 hp2 hth hch hy

/-- C148 with the oblivious tree sampler, the order of the columns, the distribution. -/
theorem C148_distribution (hX : ∀ r, GoodRow (X r)) (σ : Equiv.Perm (Fin p)) {s : SkModel K p} (hp : 0 < p) (hp1 : s.pGrow ≠ 0) (hp2 : s.pPrune ≠ 0) (hth : s.thin ≠ 0) (hch : 0 < s.nChains)
    {y : Fin n → K} (hy : ∃ i j, y i ≠ y j) {N m : Nat} (hN : ∀ L, 1 ≤ L → L ≤ max n p → L ∣ N) (other : Nat → Rand K) (A : Set (Fin p → Except PyErr K)) :
    Nat.card {us : Fin s.nChains → Fin m → Fin N // (fun j => splitShareOf (fit s X y (withPicks other us)) (σ j)) ∈ A} =
      Nat.card {us : Fin s.nChains → Fin m → Fin N // splitShareOf (fit s (reorder (Equiv.refl _) σ X) y (withPicks other us)) ∈ A} := by
  obtain ⟨T, hT, h⟩ := C148_columns hX σ hp hp1 hp2 hth hch hy
  refine card_of_onlyPicks hT hN other (E := fun rs => (fun j => splitShareOf (fit s X y rs) (σ j)) ∈ A) (E' := fun rs => splitShareOf (fit s (reorder (Equiv.refl _) σ X) y rs) ∈ A) (fun rs => ?_)
    fun rs rs' hrs => by rw [ofit_draws_congr s _ hrs]
  rw [show (fun j => splitShareOf (fit s X y rs) (σ j)) = splitShareOf (fit s (reorder (Equiv.refl _) σ X) y (T ∘ rs)) from funext fun j => (h rs j).symm]

/-- C148 with the oblivious tree sampler, the units of the target. -/
theorem C148_units (hX : ∀ r, GoodRow (X r)) {a : K} (ha : 0 < a) (b : K) {s : SkModel K p} (hp : 0 < p) (hp1 : s.pGrow ≠ 0) (hp2 : s.pPrune ≠ 0) (hth : s.thin ≠ 0) (hch : 0 < s.nChains)
    {y : Fin n → K} (hy : ∃ i j, y i ≠ y j) (rs : Nat → Rand K) (j : Fin p) : splitShareOf (fit s X (rescaled a b y) rs) j = splitShareOf (fit s X y rs) j := by
  obtain ⟨lo, hi, hlo, hhi, hlt⟩ := exists_range hy
  rw [layer_share_fit hX hp hp1 hp2 hth hch hlo hhi hlt, layer_share_fit hX hp hp1 hp2 hth hch (isLeast_rescaled ha b hlo) (isGreatest_rescaled ha b hhi) (by nlinarith)]
  unfold Layers.fit
  rw [scaled_rescaled ha b hlt]

/-- C148 with the oblivious tree sampler, the sign of the target. -/
theorem C148_sign (hX : ∀ r, GoodRow (X r)) {a : K} (ha : a < 0) (b : K) {s : SkModel K p} (hp : 0 < p) (hp1 : s.pGrow ≠ 0) (hp2 : s.pPrune ≠ 0) (hth : s.thin ≠ 0) (hch : 0 < s.nChains)
    {y : Fin n → K} (hy : ∃ i j, y i ≠ y j) (rs : Nat → Rand K) (j : Fin p) : splitShareOf (fit s X (rescaled a b y) (mirrored ∘ rs)) j = splitShareOf (fit s X y rs) j := by
  obtain ⟨lo, hi, hlo, hhi, hlt⟩ := exists_range hy
  rw [layer_share_fit hX hp hp1 hp2 hth hch hlo hhi hlt, layer_share_fit hX hp hp1 hp2 hth hch (isLeast_rescaled_neg ha b hhi) (isGreatest_rescaled_neg ha b hlo) (by nlinarith)]
  have h3 : Layers.fit s.config X (a * hi + b) (a * lo + b) (rescaled a b y) (mirrored ∘ rs) = (Layers.fit s.config X lo hi y rs).map (List.map (fun x => (x.1, x.2.mirror))) := by
    unfold Layers.fit
    rw [← List.map_map]
    unfold rescaled
    rw [scaled_mirror b ha hlt]
    exact Layers.mirror_chains _ _ _
  rw [h3]
  cases Layers.fit s.config X lo hi y rs with
  | error e => rfl
  | ok l => simp only [Except.map, ← Nat.cast_add, tally_mirror, nodesIn_mirror]

end Oblivious

section
open MeasureTheory ProbabilityTheory
variable {n p : Nat} {X : Fin n → Fin p → Fl ℝ}

/-- C148, the sign of the target, the distribution: whatever the other draws, for independent standard normal numbers, the table of shares of the fit to `a * y + b` with `a < 0` has the distribution of
that of the fit to `y`. -/
theorem C148_sign_distribution (hX : NoNan X) {a : ℝ} (ha : a < 0) (b : ℝ) {s : SkModel ℝ p} (hp : 0 < p) (hp1 : s.pGrow ≠ 0) (hp2 : s.pPrune ≠ 0) (hth : s.thin ≠ 0) (hch : 0 < s.nChains)
    {y : Fin n → ℝ} (hy : ∃ i j, y i ≠ y j) (other : Nat → Rand ℝ) {k : Nat} (A : Set (Fin p → Except PyErr ℝ)) :
    normalLaw s.nChains k {zs | splitShareOf (s.fit X (rescaled a b y) (withNormals other zs)) ∈ A} = normalLaw s.nChains k {zs | splitShareOf (s.fit X y (withNormals other zs)) ∈ A} := by
  rw [← (normalLaw_neg s.nChains k).measure_preimage_equiv {zs | splitShareOf (s.fit X (rescaled a b y) (withNormals other zs)) ∈ A}]
  congr 1
  ext zs
  simp only [Set.mem_preimage, Set.mem_ofPred_eq]
  rw [← show splitShareOf (s.fit X (rescaled a b y) (mirrored ∘ withNormals other zs)) = splitShareOf (s.fit X y (withNormals other zs)) from
    funext fun j => C148_sign hX ha b hp hp1 hp2 hth hch hy (withNormals other zs) j]
  rw [fit_draws_congr s (rescaled a b y) (rs := mirrored ∘ withNormals other zs) (rs' := withNormals other (MeasurableEquiv.neg _ zs))]
  intro i hi
  simp only [Function.comp_apply, withNormals, hi, dif_pos, mirrored, List.map_ofFn]
  rfl

namespace Oblivious

/-- C148 with the oblivious tree sampler, the sign of the target, the distribution: whatever the other draws, for independent standard normal numbers, the table of shares of the fit to `a * y + b` with `a < 0` has the distribution of
that of the fit to `y`. -/
theorem C148_sign_distribution (hX : ∀ r, GoodRow (X r)) {a : ℝ} (ha : a < 0) (b : ℝ) {s : SkModel ℝ p} (hp : 0 < p) (hp1 : s.pGrow ≠ 0) (hp2 : s.pPrune ≠ 0) (hth : s.thin ≠ 0) (hch : 0 < s.nChains)
    {y : Fin n → ℝ} (hy : ∃ i j, y i ≠ y j) (other : Nat → Rand ℝ) {k : Nat} (A : Set (Fin p → Except PyErr ℝ)) :
    normalLaw s.nChains k {zs | splitShareOf (fit s X (rescaled a b y) (withNormals other zs)) ∈ A} = normalLaw s.nChains k {zs | splitShareOf (fit s X y (withNormals other zs)) ∈ A} := by
  rw [← (normalLaw_neg s.nChains k).measure_preimage_equiv {zs | splitShareOf (fit s X (rescaled a b y) (withNormals other zs)) ∈ A}]
  congr 1
  ext zs
  simp only [Set.mem_preimage, Set.mem_ofPred_eq]
  rw [← show splitShareOf (fit s X (rescaled a b y) (mirrored ∘ withNormals other zs)) = splitShareOf (fit s X y (withNormals other zs)) from
    funext fun j => C148_sign hX ha b hp hp1 hp2 hth hch hy (withNormals other zs) j]
  rw [ofit_draws_congr s (rescaled a b y) (rs := mirrored ∘ withNormals other zs) (rs' := withNormals other (MeasurableEquiv.neg _ zs))]
  intro i hi
  simp only [Function.comp_apply, withNormals, hi, dif_pos, mirrored, List.map_ofFn]
  rfl

end Oblivious
end

/-! ### concrete cases -/

section examples
attribute [local instance] exFns

/-- C148, the hypotheses are met: the share 2/3 of the second column goes with the column to the first place, and is the same for the target `-3 * y + 1` with the other sign of the normal draws. -/
example : NoNan exOrd ∧ exSk2.pGrow ≠ 0 ∧ exSk2.pPrune ≠ 0 ∧ exSk2.thin ≠ 0 ∧ 0 < exSk2.nChains ∧ exY 0 ≠ exY 1 ∧
    [0, 1].map (fun j => shareNumber (splitShareOf (exSk2.fit exOrd exY exOrdRs) j)) = [0, 2/3] ∧
    [0, 1].map (fun j => shareNumber (splitShareOf (exSk2.fit (reorder (Equiv.refl _) (Equiv.swap 0 1) exOrd) exY exRs) j)) = [2/3, 0] ∧
    [0, 1].map (fun j => shareNumber (splitShareOf (exSk2.fit exOrd (rescaled 3 1 exY) exOrdRs) j)) = [0, 2/3] ∧
    [0, 1].map (fun j => shareNumber (splitShareOf (exSk2.fit exOrd (rescaled (-3) 1 exY) (mirrored ∘ exOrdRs)) j)) = [0, 2/3] := by
  refine ⟨?_, ?_⟩
  · unfold NoNan; decide +kernel
  · decide +kernel

namespace Oblivious

/-- C148 with the oblivious tree sampler: as above, with the share 22/25. -/
example : (∀ r, GoodRow (exXo r)) ∧ exSkg.pGrow ≠ 0 ∧ exSkg.pPrune ≠ 0 ∧ exSkg.thin ≠ 0 ∧ 0 < exSkg.nChains ∧ exYf 0 ≠ exYf 2 ∧
    [0, 1].map (fun j => shareNumber (splitShareOf (fit exSkg exXo exYf (exRo [1, 0, 1, 0, 1, 0, 1, 0, 1, 0, 1, 0])) j)) = [0, 22/25] ∧
    [0, 1].map (fun j => shareNumber (splitShareOf (fit exSkg (reorder (Equiv.refl _) (Equiv.swap 0 1) exXo) exYf (exRo [0, 0, 0, 0, 0, 0, 0, 0, 0, 0, 0, 0])) j)) = [22/25, 0] ∧
    [0, 1].map (fun j => shareNumber (splitShareOf (fit exSkg exXo (rescaled (-3) 1 exYf) (mirrored ∘ exRo [1, 0, 1, 0, 1, 0, 1, 0, 1, 0, 1, 0])) j)) = [0, 22/25] := by
  refine ⟨?_, ?_⟩
  · unfold GoodRow; decide +kernel
  · decide +kernel

end Oblivious
end examples
end Bart
