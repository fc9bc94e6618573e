import Verif.Props.ExtensionUnitProps
import Verif.Props.OrderProps

/-! C154: the order of the columns for models fitted to the residuals of another estimator. -/

set_option linter.unusedSectionVars false

namespace Bart
open Spec
variable {K : Type} [Field K] [LinearOrder K] [IsStrictOrderedRing K] [MathFns K] [FloorRing K] {n p : Nat} {X : Fin n → Fin p → Fl K}

namespace Spec

/-- The predictions of the regressor do not change when the columns are put into another order, in the training data and in the data to predict. -/
def IgnoresOrder (σ : Equiv.Perm (Fin p)) (kd : Regressor K p) : Prop :=
  ∀ {n : Nat} (X : Fin n → Fin p → Fl K) (y : Fin n → K),
    SameUpTo (fun st st' => ∀ {q : Nat} (Z : Fin q → Fin p → Fl K), SameUpTo (fun f f' => f' = f) (kd.predict st Z) (kd.predict st' (reorder (Equiv.refl _) σ Z)))
      (kd.fit X y) (kd.fit (reorder (Equiv.refl _) σ X) y)

/-- The same for a statistical model. -/
def IgnoresOrderStat (σ : Equiv.Perm (Fin p)) (kd : StatModel K p) : Prop :=
  ∀ {n : Nat} (X : Fin n → Fin p → Fl K) (y : Fin n → K),
    SameUpTo (fun st st' => st'.2 = st.2 ∧ ∀ {q : Nat} (Z : Fin q → Fin p → Fl K), SameUpTo (fun f f' => f' = f) (kd.predict st.1 Z) (kd.predict st'.1 (reorder (Equiv.refl _) σ Z)))
      (kd.fit X y) (kd.fit (reorder (Equiv.refl _) σ X) y)

/-- The predictions of a fit. -/
def residualPredictions {q : Nat} (f : Except PyErr (ResidualBart K p × World K p)) (Z : Fin q → Fin p → Fl K) : Except PyErr (List K) :=
  match f with
  | .error e => .error e
  | .ok (m, w) => m.predict w (some ⟨q, Z⟩)

/-- The predictions of a fit. -/
def olsPredictions {q : Nat} (f : Except PyErr (Ols K p)) (Z : Fin q → Fin p → Fl K) : Except PyErr (List K) :=
  match f with
  | .error e => .error e
  | .ok m => m.predict (some ⟨q, Z⟩)

end Spec

theorem onlyPicks_refl (B : Nat) : OnlyPicks B (Equiv.refl (Rand K)) := ⟨fun _ => rfl, fun _ => rfl, fun _ => rfl, fun _ => rfl, fun _ => rfl, fun _ _ _ => Iff.rfl⟩

/-- C154: the columns in another order and a base estimator whose predictions do not depend on the order, but do not fit the target up to a constant. There is a one-to-one correspondence between the
draws, which only exchanges the results of random choices against equally likely ones, such that both fits raise the same exception or have the same predictions and residuals. -/
theorem C154_residual_bart (hX : NoNan X) (σ : Equiv.Perm (Fin p)) (m : ResidualBart K p) (w : World K p) (hb : IgnoresOrder σ (w.obj m.base).kind) (hp : 0 < p) (hp1 : m.sk.pGrow ≠ 0)
    (hp2 : m.sk.pPrune ≠ 0) (hth : m.sk.thin ≠ 0) (hch : 0 < m.sk.nChains) (hns : 0 < m.sk.nSamples) {y : Fin n → K}
    (hy : ∀ st f, (w.obj m.base).kind.fit X y = .ok st → (w.obj m.base).kind.predict st X = .ok f → ∃ i j, y i - f i ≠ y j - f j) :
    ∃ T : Equiv.Perm (Rand K), OnlyPicks (max n p) T ∧ ∀ rs,
      SameFits (fun q q' => ∀ {r : Nat} (Z : Fin r → Fin p → Fl K), (∀ i, GoodRow (Z i)) →
          q'.1.predict q'.2 (some ⟨r, reorder (Equiv.refl _) σ Z⟩) = q.1.predict q.2 (some ⟨r, Z⟩) ∧
          ∀ yn, q'.1.residuals q'.2 (some ⟨r, reorder (Equiv.refl _) σ Z⟩) (some yn) = q.1.residuals q.2 (some ⟨r, Z⟩) (some yn))
        (m.fit w X y rs) (m.fit w (reorder (Equiv.refl _) σ X) y (T ∘ rs)) := by
  rcases sameUpTo_elim (hb X y) with ⟨e, a1, a2⟩ | ⟨st, st', a1, a2, a3⟩
  · refine ⟨Equiv.refl _, onlyPicks_refl _, fun rs => ?_⟩
    have key := ResidualBart.fit_rel (n := n) m w (rs := rs) (rs' := rs) (kd := (w.obj m.base).kind) (st0 := (w.obj m.base).state) rfl
      (P := fun _ _ => False) (Q := fun _ _ => False) (R := fun _ _ => False) (X := X) (X' := reorder (Equiv.refl _) σ X) (y := y) (y' := y) (by rw [a1, a2]; rfl) (fun _ _ h => h.elim) (fun _ _ h => h.elim)
    rcases sameFits_elim key with ⟨e, b1, b2⟩ | ⟨q, q', b1, b2, _, _, h, _⟩
    · rw [b1]
      show SameFits _ _ (m.fit w (reorder (Equiv.refl _) σ X) y rs)
      rw [b2]
      rfl
    · exact h.elim
  · rcases sameUpTo_elim (a3 X) with ⟨e, c1, c2⟩ | ⟨f, f', c1, c2, rfl⟩
    · refine ⟨Equiv.refl _, onlyPicks_refl _, fun rs => ?_⟩
      have key := ResidualBart.fit_rel (n := n) m w (rs := rs) (rs' := rs) (kd := (w.obj m.base).kind) (st0 := (w.obj m.base).state) rfl
        (P := fun s s' => s = st ∧ s' = st') (Q := fun _ _ => False) (R := fun _ _ => False) (X := X) (X' := reorder (Equiv.refl _) σ X) (y := y) (y' := y) (by rw [a1, a2]; exact ⟨rfl, rfl⟩)
        (by rintro _ _ ⟨rfl, rfl⟩; rw [c1, c2]; rfl) (fun _ _ h => h.elim)
      rcases sameFits_elim key with ⟨e, b1, b2⟩ | ⟨q, q', b1, b2, _, _, _, h, _⟩
      · rw [b1]
        show SameFits _ _ (m.fit w (reorder (Equiv.refl _) σ X) y rs)
        rw [b2]
        rfl
      · exact h.elim
    · obtain ⟨T, hT, h⟩ := C104_columns hX σ hp hp1 hp2 hth hch hns (hy st f' a1 c1)
      refine ⟨T, hT, fun rs => ?_⟩
      have key := ResidualBart.fit_rel (n := n) m w (rs := rs) (rs' := T ∘ rs) (kd := (w.obj m.base).kind) (st0 := (w.obj m.base).state) rfl
        (P := fun s s' => s = st ∧ s' = st') (Q := fun g g' => g = f' ∧ g' = f') (R := SameFit (Equiv.refl (Fin n)) σ m.sk.storePredictions m.sk.storeAcceptance) (X := X)
        (X' := reorder (Equiv.refl _) σ X) (y := y) (y' := y) (by rw [a1, a2]; exact ⟨rfl, rfl⟩) (by rintro _ _ ⟨rfl, rfl⟩; rw [c1, c2]; exact ⟨rfl, rfl⟩) (by
          rintro _ _ ⟨rfl, rfl⟩
          exact h rs)
      rcases sameFits_elim key with ⟨e, b1, b2⟩ | ⟨q, q', b1, b2, _, _, ⟨rfl, rfl⟩, h2, -, -, p1, p2⟩
      · rw [b1, b2]; rfl
      · rw [b1, b2]
        intro r Z hZ
        have hpr : q'.1.predict q'.2 (some ⟨r, reorder (Equiv.refl _) σ Z⟩) = q.1.predict q.2 (some ⟨r, Z⟩) := by
          unfold ResidualBart.predict
          simp only [p1, p2, h2.newData Z hZ]
          rcases sameUpTo_elim (a3 Z) with ⟨e, d1, d2⟩ | ⟨g, g', d1, d2, rfl⟩
          · rw [d1, d2]
          · rw [d1, d2]
        refine ⟨hpr, fun yn => ?_⟩
        unfold ResidualBart.residuals residualsWith
        rw [hpr]

theorem ResidualBart.fit_draws_congr (m : ResidualBart K p) (w : World K p) (y : Fin n → K) {rs rs' : Nat → Rand K} (h : ∀ i < m.sk.nChains, rs i = rs' i) :
    m.fit w X y rs = m.fit w X y rs' := by
  have h1 : ∀ y : Fin n → K, m.sk.fit X y rs = m.sk.fit X y rs' := fun y => Bart.fit_draws_congr m.sk y h
  unfold ResidualBart.fit
  simp only [h1]

/-- C154, the distribution: whatever the other draws, for picks uniformly from `0 .. N - 1` every set of predictions is equally likely for the data and for the data with reordered columns. -/
theorem C154_distribution (hX : NoNan X) (σ : Equiv.Perm (Fin p)) (m : ResidualBart K p) (w : World K p) (hb : IgnoresOrder σ (w.obj m.base).kind) (hp : 0 < p) (hp1 : m.sk.pGrow ≠ 0)
    (hp2 : m.sk.pPrune ≠ 0) (hth : m.sk.thin ≠ 0) (hch : 0 < m.sk.nChains) (hns : 0 < m.sk.nSamples) {y : Fin n → K}
    (hy : ∀ st f, (w.obj m.base).kind.fit X y = .ok st → (w.obj m.base).kind.predict st X = .ok f → ∃ i j, y i - f i ≠ y j - f j)
    {N k : Nat} (hN : ∀ L, 1 ≤ L → L ≤ max n p → L ∣ N) (other : Nat → Rand K) {q : Nat} {Z : Fin q → Fin p → Fl K} (hZ : ∀ r, GoodRow (Z r)) (A : Set (Except PyErr (List K))) :
    Nat.card {us : Fin m.sk.nChains → Fin k → Fin N // residualPredictions (m.fit w X y (withPicks other us)) Z ∈ A} =
      Nat.card {us : Fin m.sk.nChains → Fin k → Fin N //
        residualPredictions (m.fit w (reorder (Equiv.refl _) σ X) y (withPicks other us)) (reorder (Equiv.refl _) σ Z) ∈ A} := by
  obtain ⟨T, hT, h⟩ := C154_residual_bart hX σ m w hb hp hp1 hp2 hth hch hns hy
  refine card_of_onlyPicks hT hN other (E := fun rs => residualPredictions (m.fit w X y rs) Z ∈ A)
    (E' := fun rs => residualPredictions (m.fit w (reorder (Equiv.refl _) σ X) y rs) (reorder (Equiv.refl _) σ Z) ∈ A) (fun rs => ?_) fun rs rs' hrs => by rw [ResidualBart.fit_draws_congr m w y hrs]
  rcases sameFits_elim (h rs) with ⟨e, a1, a2⟩ | ⟨⟨m1, w1⟩, ⟨m2, w2⟩, a1, a2, a3⟩
  · rw [a1, a2]; rfl
  · rw [a1, a2]
    simp only [residualPredictions]
    rw [← (a3 Z hZ).1]

/-- C154, the same for `OLS`. -/
theorem C154_ols (hX : NoNan X) (σ : Equiv.Perm (Fin p)) (m : Ols K p) (hb : IgnoresOrderStat σ m.kind) (hp : 0 < p) (hp1 : m.sk.pGrow ≠ 0)
    (hp2 : m.sk.pPrune ≠ 0) (hth : m.sk.thin ≠ 0) (hch : 0 < m.sk.nChains) (hns : 0 < m.sk.nSamples) {y : Fin n → K}
    (hy : ∀ st, m.kind.fit X y = .ok st → ∃ i j, st.2 i ≠ st.2 j) :
    ∃ T : Equiv.Perm (Rand K), OnlyPicks (max n p) T ∧ ∀ rs,
      SameFits (fun q q' => ∀ {r : Nat} (Z : Fin r → Fin p → Fl K), (∀ i, GoodRow (Z i)) →
          q'.predict (some ⟨r, reorder (Equiv.refl _) σ Z⟩) = q.predict (some ⟨r, Z⟩) ∧
          ∀ yn, q'.residuals (some ⟨r, reorder (Equiv.refl _) σ Z⟩) (some yn) = q.residuals (some ⟨r, Z⟩) (some yn))
        (m.fit X y rs) (m.fit (reorder (Equiv.refl _) σ X) y (T ∘ rs)) := by
  rcases sameUpTo_elim (hb X y) with ⟨e, a1, a2⟩ | ⟨⟨st, u⟩, ⟨st', u'⟩, a1, a2, a3, a4⟩
  · refine ⟨Equiv.refl _, onlyPicks_refl _, fun rs => ?_⟩
    unfold Ols.fit
    rw [a1, a2]
    rfl
  · obtain rfl : u' = u := a3
    obtain ⟨T, hT, h⟩ := C104_columns hX σ hp hp1 hp2 hth hch hns (hy _ a1)
    refine ⟨T, hT, fun rs => ?_⟩
    have key := Ols.fit_rel (n := n) m (rs := rs) (rs' := T ∘ rs) (P := fun s s' => s = (st, u') ∧ s' = (st', u'))
      (R := SameFit (Equiv.refl (Fin n)) σ m.sk.storePredictions m.sk.storeAcceptance) (X := X)
      (X' := reorder (Equiv.refl _) σ X) (y := y) (y' := y) (by rw [a1, a2]; exact ⟨rfl, rfl⟩) (by
        rintro _ _ ⟨rfl, rfl⟩
        exact h rs)
    rcases sameFits_elim key with ⟨e, b1, b2⟩ | ⟨q, q', b1, b2, _, _, s, s', ⟨rfl, rfl⟩, h2, -, -, rfl, rfl⟩
    · rw [b1, b2]; rfl
    · rw [b1, b2]
      intro r Z hZ
      have hpr : Ols.predict ⟨m.kind, some st', s'⟩ (some ⟨r, reorder (Equiv.refl _) σ Z⟩) = Ols.predict ⟨m.kind, some st, s⟩ (some ⟨r, Z⟩) := by
        unfold Ols.predict
        simp only [h2.newData Z hZ]
        rcases sameUpTo_elim (a4 Z) with ⟨e, d1, d2⟩ | ⟨g, g', d1, d2, rfl⟩
        · simp only at d1 d2; rw [d1, d2]
        · simp only at d1 d2; rw [d1, d2]
      refine ⟨hpr, fun yn => ?_⟩
      unfold Ols.residuals residualsWith
      rw [hpr]

/-- C154, the distribution for `OLS`. -/
theorem C154_ols_distribution (hX : NoNan X) (σ : Equiv.Perm (Fin p)) (m : Ols K p) (hb : IgnoresOrderStat σ m.kind) (hp : 0 < p) (hp1 : m.sk.pGrow ≠ 0)
    (hp2 : m.sk.pPrune ≠ 0) (hth : m.sk.thin ≠ 0) (hch : 0 < m.sk.nChains) (hns : 0 < m.sk.nSamples) {y : Fin n → K} (hy : ∀ st, m.kind.fit X y = .ok st → ∃ i j, st.2 i ≠ st.2 j)
    {N k : Nat} (hN : ∀ L, 1 ≤ L → L ≤ max n p → L ∣ N) (other : Nat → Rand K) {q : Nat} {Z : Fin q → Fin p → Fl K} (hZ : ∀ r, GoodRow (Z r)) (A : Set (Except PyErr (List K))) :
    Nat.card {us : Fin m.sk.nChains → Fin k → Fin N // olsPredictions (m.fit X y (withPicks other us)) Z ∈ A} =
      Nat.card {us : Fin m.sk.nChains → Fin k → Fin N // olsPredictions (m.fit (reorder (Equiv.refl _) σ X) y (withPicks other us)) (reorder (Equiv.refl _) σ Z) ∈ A} := by
  obtain ⟨T, hT, h⟩ := C154_ols hX σ m hb hp hp1 hp2 hth hch hns hy
  refine card_of_onlyPicks hT hN other (E := fun rs => olsPredictions (m.fit X y rs) Z ∈ A)
    (E' := fun rs => olsPredictions (m.fit (reorder (Equiv.refl _) σ X) y rs) (reorder (Equiv.refl _) σ Z) ∈ A) (fun rs => ?_) fun rs rs' hrs => by
      have h1 : ∀ y : Fin n → K, m.sk.fit (reorder (Equiv.refl _) σ X) y rs = m.sk.fit (reorder (Equiv.refl _) σ X) y rs' := fun y => Bart.fit_draws_congr m.sk y hrs
      unfold Ols.fit
      simp only [h1]
  rcases sameFits_elim (h rs) with ⟨e, a1, a2⟩ | ⟨m1, m2, a1, a2, a3⟩
  · rw [a1, a2]; rfl
  · rw [a1, a2]
    simp only [olsPredictions]
    rw [← (a3 Z hZ).1]

section examples
attribute [local instance] exFns

/-- The mean of the target, for tables with two columns. -/
def exMean2 : Regressor ℚ 2 := ⟨ℚ, fun {n} _ y => if n = 0 then .error .valueError else .ok (mean (List.ofFn y)), fun st {_} _ => .ok (fun _ => st)⟩

/-- C154, the example: it ignores the order of the columns. -/
theorem exMean2_ignores (σ : Equiv.Perm (Fin 2)) : IgnoresOrder σ exMean2 := by
  intro n X y
  unfold exMean2
  by_cases hn : n = 0
  · simp only [if_pos hn]; rfl
  · simp only [if_neg hn]
    intro q Z
    rfl

/-- C154, the example: the other hypotheses are met as well, and with corresponding draws the predictions are the same. -/
example : NoNan exOrd ∧ (exSk2.pGrow ≠ 0 ∧ exSk2.pPrune ≠ 0 ∧ exSk2.thin ≠ 0 ∧ 0 < exSk2.nChains ∧ 0 < exSk2.nSamples ∧
    (match residualPredictions (ResidualBart.fit ⟨0, exSk2⟩ ⟨fun _ => ⟨exMean2, none⟩, 1⟩ exOrd exY exRs) exOrd,
        residualPredictions (ResidualBart.fit ⟨0, exSk2⟩ ⟨fun _ => ⟨exMean2, none⟩, 1⟩ (reorder (Equiv.refl _) (Equiv.swap 0 1) exOrd) exY exOrdRs) (reorder (Equiv.refl _) (Equiv.swap 0 1) exOrd),
        residualPredictions (ResidualBart.fit ⟨0, exSk2⟩ ⟨fun _ => ⟨exMean2, none⟩, 1⟩ (reorder (Equiv.refl _) (Equiv.swap 0 1) exOrd) exY exRs) (reorder (Equiv.refl _) (Equiv.swap 0 1) exOrd) with
      | .ok a, .ok b, .ok c => decide (a = b ∧ a ≠ c)
      | _, _, _ => false) = true) := by
  refine ⟨?_, ?_⟩
  · unfold NoNan; decide +kernel
  · decide +kernel

example : ∀ st f, exMean2.fit exOrd exY = .ok st → exMean2.predict st exOrd = .ok f → ∃ i j, exY i - f i ≠ exY j - f j := by
  intro st f _ h2
  obtain rfl : (fun _ => st) = f := by injection h2
  refine ⟨0, 1, fun h => ?_⟩
  have h3 : exY 0 = exY 1 := sub_left_injective h
  exact absurd h3 (by decide +kernel)

/-- The mean in place of a regression, for tables with two columns: the hypotheses of C154 for `OLS`. -/
def exMeanStat2 : StatModel ℚ 2 :=
  ⟨ℚ, fun {n} _ y => if n = 0 then .error .valueError else .ok (mean (List.ofFn y), fun r => y r - mean (List.ofFn y)), fun st {_} _ => .ok (fun _ => st)⟩

example (σ : Equiv.Perm (Fin 2)) : IgnoresOrderStat σ exMeanStat2 := by
  intro n X y
  unfold exMeanStat2
  by_cases hn : n = 0
  · simp only [if_pos hn]; rfl
  · simp only [if_neg hn]
    exact ⟨rfl, fun Z => rfl⟩

example : ∀ st, exMeanStat2.fit exOrd exY = .ok st → ∃ i j, st.2 i ≠ st.2 j := by
  intro st h
  obtain rfl : (mean (List.ofFn exY), fun r => exY r - mean (List.ofFn exY)) = st := by
    have h' : (Except.ok (mean (List.ofFn exY), fun r => exY r - mean (List.ofFn exY)) : Except PyErr (ℚ × (Fin 3 → ℚ))) = .ok st := h
    injection h'
  refine ⟨0, 1, fun h => ?_⟩
  have h3 : exY 0 = exY 1 := sub_left_injective h
  exact absurd h3 (by decide +kernel)

end examples
end Bart
