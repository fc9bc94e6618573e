import Verif.Props.ExtensionProps
import Verif.Props.InvarianceProps

/-! Property theorems C151 and C152 (units of the target and of the features for models fitted to the residuals of another estimator). -/

set_option linter.unusedSectionVars false

namespace Bart
open Spec
variable {K : Type} [Field K] [LinearOrder K] [IsStrictOrderedRing K] [MathFns K] [FloorRing K] {n p : Nat}

namespace Spec

/-- Both fail with the same exception, or both succeed with results related by `R`; as `SameUpTo`, for models that contain other estimators. -/
def SameFits {α β : Type 1} (R : α → β → Prop) : Except PyErr α → Except PyErr β → Prop
  | .error e, .error e' => e = e'
  | .ok x, .ok y => R x y
  | _, _ => False

/-- The regressor follows the units of the target: fitted to `a * y + b` it predicts `a * f + b`, with `f` its prediction when fitted to `y`. -/
def FollowsUnits (a b : K) (kd : Regressor K p) : Prop :=
  ∀ {n : Nat} (X : Fin n → Fin p → Fl K) (y : Fin n → K),
    SameUpTo (fun st st' => ∀ {q : Nat} (Z : Fin q → Fin p → Fl K), SameUpTo (fun f g => g = fun r => a * f r + b) (kd.predict st Z) (kd.predict st' Z))
      (kd.fit X y) (kd.fit X (fun r => a * y r + b))

/-- The same for a statistical model, whose residuals have to be multiplied by `a`. -/
def FollowsUnitsStat (a b : K) (kd : StatModel K p) : Prop :=
  ∀ {n : Nat} (X : Fin n → Fin p → Fl K) (y : Fin n → K),
    SameUpTo (fun st st' => (st'.2 = fun r => a * st.2 r) ∧
        ∀ {q : Nat} (Z : Fin q → Fin p → Fl K), SameUpTo (fun f g => g = fun r => a * f r + b) (kd.predict st.1 Z) (kd.predict st'.1 Z))
      (kd.fit X y) (kd.fit X (fun r => a * y r + b))

/-- The predictions of the regressor do not change when column `j` is replaced by the function `g j` of it, in the training data and in the data to predict. -/
def IgnoresRecoding (g : Fin p → K → K) (kd : Regressor K p) : Prop :=
  ∀ {n : Nat} (X : Fin n → Fin p → Fl K) (y : Fin n → K),
    SameUpTo (fun st st' => ∀ {q : Nat} (Z : Fin q → Fin p → Fl K), SameUpTo (fun f f' => f' = f) (kd.predict st Z) (kd.predict st' (recoded g Z)))
      (kd.fit X y) (kd.fit (recoded g X) y)

/-- The same for a statistical model. -/
def IgnoresRecodingStat (g : Fin p → K → K) (kd : StatModel K p) : Prop :=
  ∀ {n : Nat} (X : Fin n → Fin p → Fl K) (y : Fin n → K),
    SameUpTo (fun st st' => st'.2 = st.2 ∧ ∀ {q : Nat} (Z : Fin q → Fin p → Fl K), SameUpTo (fun f f' => f' = f) (kd.predict st.1 Z) (kd.predict st'.1 (recoded g Z)))
      (kd.fit X y) (kd.fit (recoded g X) y)

end Spec

/-! ### two fits side by side -/

theorem sameUpTo_elim {α β : Type} {R : α → β → Prop} {x : Except PyErr α} {y : Except PyErr β} (h : SameUpTo R x y) :
    (∃ e, x = .error e ∧ y = .error e) ∨ ∃ a b, x = .ok a ∧ y = .ok b ∧ R a b := by
  cases x with
  | error e =>
    cases y with
    | error e' => exact .inl ⟨e, rfl, by rw [show e = e' from h]⟩
    | ok b => exact h.elim
  | ok a =>
    cases y with
    | error e' => exact h.elim
    | ok b => exact .inr ⟨a, b, rfl, rfl, h⟩

theorem sameFits_elim {α β : Type 1} {R : α → β → Prop} {x : Except PyErr α} {y : Except PyErr β} (h : SameFits R x y) :
    (∃ e, x = .error e ∧ y = .error e) ∨ ∃ a b, x = .ok a ∧ y = .ok b ∧ R a b := by
  cases x with
  | error e =>
    cases y with
    | error e' => exact .inl ⟨e, rfl, by rw [show e = e' from h]⟩
    | ok b => exact h.elim
  | ok a =>
    cases y with
    | error e' => exact h.elim
    | ok b => exact .inr ⟨a, b, rfl, rfl, h⟩

/-- Two fits of a `ResidualBART` whose three steps correspond. -/
theorem ResidualBart.fit_rel {X X' : Fin n → Fin p → Fl K} {y y' : Fin n → K} (m : ResidualBart K p) (w : World K p) {rs rs' : Nat → Rand K}
    {kd : Regressor K p} {st0 : Option kd.State} (hk : w.obj m.base = ⟨kd, st0⟩)
    {P : kd.State → kd.State → Prop} {R : SkModel K p → SkModel K p → Prop} {Q : (Fin n → K) → (Fin n → K) → Prop}
    (h1 : SameUpTo P (kd.fit X y) (kd.fit X' y')) (h2 : ∀ st st', P st st' → SameUpTo Q (kd.predict st X) (kd.predict st' X'))
    (h3 : ∀ f f', Q f f' → SameUpTo R (m.sk.fit X (fun r => y r - f r) rs) (m.sk.fit X' (fun r => y' r - f' r) rs')) :
    SameFits (fun q q' => ∃ st st', P st st' ∧ R q.1.sk q'.1.sk ∧ q.1.sk.data.isSome = true ∧ q'.1.sk.data.isSome = true ∧
        (∀ {r : Nat} (Z : Fin r → Fin p → Fl K), q.2.predict q.1.base Z = kd.predict st Z) ∧ ∀ {r : Nat} (Z : Fin r → Fin p → Fl K), q'.2.predict q'.1.base Z = kd.predict st' Z)
      (m.fit w X y rs) (m.fit w X' y' rs') := by
  unfold ResidualBart.fit World.fit
  rw [hk]
  unfold Estimator.fit
  rcases sameUpTo_elim h1 with ⟨e, a1, a2⟩ | ⟨st, st', a1, a2, a3⟩
  · simp only [a1, a2]; rfl
  · simp only [a1, a2, predict_update]
    rcases sameUpTo_elim (h2 st st' a3) with ⟨e, b1, b2⟩ | ⟨f, f', b1, b2, b3⟩
    · simp only [b1, b2]; rfl
    · simp only [b1, b2]
      rcases sameUpTo_elim (h3 f f' b3) with ⟨e, c1, c2⟩ | ⟨s, s', c1, c2, c3⟩
      · simp only [c1, c2]; rfl
      · simp only [c1, c2]
        obtain ⟨_, _, _, _, -, -, -, k⟩ := Bart.fit_spec c1
        obtain ⟨_, _, _, _, -, -, -, k'⟩ := Bart.fit_spec c2
        exact ⟨st, st', a3, c3, by rw [k]; rfl, by rw [k']; rfl, fun Z => predict_update _ _ _ _ Z, fun Z => predict_update _ _ _ _ Z⟩

/-- Two fits of an `OLS` model whose steps correspond. -/
theorem Ols.fit_rel {X X' : Fin n → Fin p → Fl K} {y y' : Fin n → K} (m : Ols K p) {rs rs' : Nat → Rand K}
    {P : m.kind.State × (Fin n → K) → m.kind.State × (Fin n → K) → Prop} {R : SkModel K p → SkModel K p → Prop}
    (h1 : SameUpTo P (m.kind.fit X y) (m.kind.fit X' y')) (h3 : ∀ st st', P st st' → SameUpTo R (m.sk.fit X st.2 rs) (m.sk.fit X' st'.2 rs')) :
    SameFits (fun q q' => ∃ st st' s s', P st st' ∧ R s s' ∧ s.data.isSome = true ∧ s'.data.isSome = true ∧ q = ⟨m.kind, some st.1, s⟩ ∧ q' = ⟨m.kind, some st'.1, s'⟩)
      (m.fit X y rs) (m.fit X' y' rs') := by
  unfold Ols.fit
  rcases sameUpTo_elim h1 with ⟨e, a1, a2⟩ | ⟨⟨st, u⟩, ⟨st', u'⟩, a1, a2, a3⟩
  · simp only [a1, a2]; rfl
  · simp only [a1, a2]
    rcases sameUpTo_elim (h3 _ _ a3) with ⟨e, c1, c2⟩ | ⟨s, s', c1, c2, c3⟩
    · simp only at c1 c2; simp only [c1, c2]; rfl
    · simp only at c1 c2
      simp only [c1, c2]
      obtain ⟨_, _, _, _, -, -, -, k⟩ := Bart.fit_spec c1
      obtain ⟨_, _, _, _, -, -, -, k'⟩ := Bart.fit_spec c2
      exact ⟨(st, u), (st', u'), s, s', a3, c3, by rw [k]; rfl, by rw [k']; rfl, rfl, rfl⟩

theorem zipWith_units (a b : K) : ∀ (f g : List K),
    List.zipWith (· + ·) (f.map (fun z => a * z + b)) (g.map (fun z => a * z + 0)) = (List.zipWith (· + ·) f g).map (fun z => a * z + b) := by
  intro f
  induction f with
  | nil => intro g; rfl
  | cons x f ih =>
    intro g
    cases g with
    | nil => rfl
    | cons z g => simp only [List.map_cons, List.zipWith_cons_cons, ih, List.cons.injEq, and_true]; ring

theorem sum_units {a b : K} {q : Nat} (f : Fin q → K) (g : List K) :
    List.zipWith (· + ·) (List.ofFn (fun r => a * f r + b)) (g.map (fun z => a * z + 0)) = (List.zipWith (· + ·) (List.ofFn f) g).map (fun z => a * z + b) := by
  rw [← zipWith_units, List.map_ofFn]
  rfl

theorem residualsWith_units {a b : K} {s s' : SkModel K p} {u u' : Except PyErr (List K)} (h : SameUpTo (fun f g => g = f.map (fun z => a * z + b)) u u') (yn : List K) :
    SameUpTo (fun f g => g = f.map (fun z => a * z)) (residualsWith s u (some yn)) (residualsWith s' u' (some (yn.map (fun z => a * z + b)))) := by
  unfold residualsWith
  rcases sameUpTo_elim h with ⟨e, a1, a2⟩ | ⟨f, g, a1, a2, a3⟩
  · simp only [a1, a2]; rfl
  · simp only [a1, a2, a3, npSub_affine]
    exact sameUpTo_map _ (by intro f; rfl) _

/-! ### C151 -/

/-- C151: the target in other units, `a * y + b` with `a > 0`, a base estimator that follows the units, and the same random draws: `fit` raises the same exception or both succeed; then every
prediction of the second model is `a * f + b` with `f` that of the first, and the residuals for a given target are multiplied by `a`. -/
theorem C151_residual_bart {a : K} (ha : 0 < a) (b : K) (m : ResidualBart K p) (w : World K p) (hb : FollowsUnits a b (w.obj m.base).kind) (X : Fin n → Fin p → Fl K) (y : Fin n → K)
    (rs : Nat → Rand K) :
    SameFits (fun q q' => ∀ Z : Option (Covariates K p),
        SameUpTo (fun f g => g = f.map (fun z => a * z + b)) (q.1.predict q.2 Z) (q'.1.predict q'.2 Z) ∧
        ∀ yn, SameUpTo (fun f g => g = f.map (fun z => a * z)) (q.1.residuals q.2 Z (some yn)) (q'.1.residuals q'.2 Z (some (yn.map (fun z => a * z + b)))))
      (m.fit w X y rs) (m.fit w X (fun r => a * y r + b) rs) := by
  have key := ResidualBart.fit_rel (n := n) m w (rs := rs) (kd := (w.obj m.base).kind) (st0 := (w.obj m.base).state) rfl (hb X y)
    (Q := fun f g => g = fun r => a * f r + b) (fun st st' h => h X) (R := fun s1 s2 => ∀ Xn : Option (Covariates K p), SameUpTo (fun f g => g = f.map (fun z => a * z + 0)) (s1.predict Xn) (s2.predict Xn)) (by
      rintro f _ rfl
      have h := C78_target_units ha 0 m.sk X (fun r => y r - f r) rs
      have e : (fun r => a * y r + b - (a * f r + b)) = rescaled a 0 (fun r => y r - f r) := by funext r; unfold rescaled; ring
      rw [e]
      exact h)
  rcases sameFits_elim key with ⟨e, a1, a2⟩ | ⟨q, q', a1, a2, st, st', h1, h2, d1, d2, p1, p2⟩
  · rw [a1, a2]; rfl
  · rw [a1, a2]
    intro Z
    have hp : SameUpTo (fun f g => g = f.map (fun z => a * z + b)) (q.1.predict q.2 Z) (q'.1.predict q'.2 Z) := by
      unfold ResidualBart.predict
      cases Z with
      | none =>
        obtain ⟨d, hd⟩ := Option.isSome_iff_exists.1 d1
        obtain ⟨d', hd'⟩ := Option.isSome_iff_exists.1 d2
        simp only [hd, hd']
        rfl
      | some Z =>
        simp only [p1, p2]
        rcases sameUpTo_elim (h1 Z.entry) with ⟨e, b1, b2⟩ | ⟨f, f', b1, b2, rfl⟩
        · rw [b1, b2]; rfl
        · rcases sameUpTo_elim (h2 (some Z)) with ⟨e, c1, c2⟩ | ⟨g, g', c1, c2, rfl⟩
          · rw [b1, b2, c1, c2]; rfl
          · rw [b1, b2, c1, c2]
            exact sum_units f g
    exact ⟨hp, fun yn => residualsWith_units hp yn⟩

/-- C151, the same for `OLS`. -/
theorem C151_ols {a : K} (ha : 0 < a) (b : K) (m : Ols K p) (hb : FollowsUnitsStat a b m.kind) (X : Fin n → Fin p → Fl K) (y : Fin n → K) (rs : Nat → Rand K) :
    SameFits (fun q q' => ∀ Z : Option (Covariates K p),
        SameUpTo (fun f g => g = f.map (fun z => a * z + b)) (q.predict Z) (q'.predict Z) ∧
        ∀ yn, SameUpTo (fun f g => g = f.map (fun z => a * z)) (q.residuals Z (some yn)) (q'.residuals Z (some (yn.map (fun z => a * z + b)))))
      (m.fit X y rs) (m.fit X (fun r => a * y r + b) rs) := by
  have key := Ols.fit_rel (n := n) m (rs := rs) (hb X y)
    (R := fun s1 s2 => ∀ Xn : Option (Covariates K p), SameUpTo (fun f g => g = f.map (fun z => a * z + 0)) (s1.predict Xn) (s2.predict Xn)) (by
      rintro ⟨st, u⟩ ⟨st', u'⟩ ⟨hu, -⟩
      have h := C78_target_units ha 0 m.sk X u rs
      have e : u' = rescaled a 0 u := by rw [show u' = _ from hu]; funext r; unfold rescaled; ring
      rw [← e] at h
      exact h)
  rcases sameFits_elim key with ⟨e, a1, a2⟩ | ⟨q, q', a1, a2, st, st', s, s', h1, h2, d1, d2, rfl, rfl⟩
  · rw [a1, a2]; rfl
  · rw [a1, a2]
    intro Z
    have hp : SameUpTo (fun f g => g = f.map (fun z => a * z + b)) (Ols.predict ⟨m.kind, some st.1, s⟩ Z) (Ols.predict ⟨m.kind, some st'.1, s'⟩ Z) := by
      unfold Ols.predict
      cases Z with
      | none =>
        obtain ⟨d, hd⟩ := Option.isSome_iff_exists.1 d1
        obtain ⟨d', hd'⟩ := Option.isSome_iff_exists.1 d2
        simp only [hd, hd']
        rfl
      | some Z =>
        simp only
        rcases sameUpTo_elim (h1.2 Z.entry) with ⟨e, b1, b2⟩ | ⟨f, f', b1, b2, rfl⟩
        · rw [b1, b2]; rfl
        · rcases sameUpTo_elim (h2 (some Z)) with ⟨e, c1, c2⟩ | ⟨g, g', c1, c2, rfl⟩
          · rw [b1, b2, c1, c2]; rfl
          · rw [b1, b2, c1, c2]
            exact sum_units f g
    exact ⟨hp, fun yn => residualsWith_units hp yn⟩

/-! ### C152 -/

/-- C152: columns replaced by strictly increasing functions of them, in the training data and the data to predict, and a base estimator whose predictions do not change then: with the same random draws
the predictions and residuals of the model do not change either. -/
theorem C152_residual_bart {g : Fin p → K → K} (hg : ∀ j, StrictMono (g j)) (m : ResidualBart K p) (w : World K p) (hb : IgnoresRecoding g (w.obj m.base).kind) (X : Fin n → Fin p → Fl K)
    (y : Fin n → K) (rs : Nat → Rand K) :
    SameFits (fun q q' => ∀ {r : Nat} (Z : Fin r → Fin p → Fl K),
        q'.1.predict q'.2 (some ⟨r, recoded g Z⟩) = q.1.predict q.2 (some ⟨r, Z⟩) ∧
        ∀ yn, q'.1.residuals q'.2 (some ⟨r, recoded g Z⟩) (some yn) = q.1.residuals q.2 (some ⟨r, Z⟩) (some yn))
      (m.fit w X y rs) (m.fit w (recoded g X) y rs) := by
  have key := ResidualBart.fit_rel (n := n) m w (rs := rs) (kd := (w.obj m.base).kind) (st0 := (w.obj m.base).state) rfl (hb X y)
    (Q := fun f f' => f' = f) (fun st st' h => h X) (R := fun s1 s2 => ∀ (q : Nat) (Xn : Fin q → Fin p → Fl K), s2.predict (some ⟨q, recoded g Xn⟩) = s1.predict (some ⟨q, Xn⟩)) (by
      intro f f' hf
      rw [show f' = f from hf]
      rcases sameUpTo_elim (C79_feature_units hg m.sk X (fun r => y r - f r) rs) with ⟨e, a1, a2⟩ | ⟨s, s', a1, a2, a3⟩
      · rw [a1, a2]; rfl
      · rw [a1, a2]; exact a3.2.1)
  rcases sameFits_elim key with ⟨e, a1, a2⟩ | ⟨q, q', a1, a2, st, st', h1, h2, d1, d2, p1, p2⟩
  · rw [a1, a2]; rfl
  · rw [a1, a2]
    intro r Z
    have hp : q'.1.predict q'.2 (some ⟨r, recoded g Z⟩) = q.1.predict q.2 (some ⟨r, Z⟩) := by
      unfold ResidualBart.predict
      simp only [p1, p2, h2]
      rcases sameUpTo_elim (h1 Z) with ⟨e, b1, b2⟩ | ⟨f, f', b1, b2, rfl⟩
      · rw [b1, b2]
      · rw [b1, b2]
    refine ⟨hp, fun yn => ?_⟩
    unfold ResidualBart.residuals residualsWith
    rw [hp]

/-- C152, the same for `OLS`. -/
theorem C152_ols {g : Fin p → K → K} (hg : ∀ j, StrictMono (g j)) (m : Ols K p) (hb : IgnoresRecodingStat g m.kind) (X : Fin n → Fin p → Fl K) (y : Fin n → K) (rs : Nat → Rand K) :
    SameFits (fun q q' => ∀ {r : Nat} (Z : Fin r → Fin p → Fl K),
        q'.predict (some ⟨r, recoded g Z⟩) = q.predict (some ⟨r, Z⟩) ∧
        ∀ yn, q'.residuals (some ⟨r, recoded g Z⟩) (some yn) = q.residuals (some ⟨r, Z⟩) (some yn))
      (m.fit X y rs) (m.fit (recoded g X) y rs) := by
  have key := Ols.fit_rel (n := n) m (rs := rs) (hb X y)
    (R := fun s1 s2 => ∀ (q : Nat) (Xn : Fin q → Fin p → Fl K), s2.predict (some ⟨q, recoded g Xn⟩) = s1.predict (some ⟨q, Xn⟩)) (by
      rintro ⟨st, u⟩ ⟨st', u'⟩ ⟨hu, -⟩
      obtain rfl : u' = u := hu
      rcases sameUpTo_elim (C79_feature_units hg m.sk X u' rs) with ⟨e, a1, a2⟩ | ⟨s, s', a1, a2, a3⟩
      · rw [a1, a2]; rfl
      · rw [a1, a2]; exact a3.2.1)
  rcases sameFits_elim key with ⟨e, a1, a2⟩ | ⟨q, q', a1, a2, st, st', s, s', h1, h2, d1, d2, rfl, rfl⟩
  · rw [a1, a2]; rfl
  · rw [a1, a2]
    intro r Z
    have hp : Ols.predict ⟨m.kind, some st'.1, s'⟩ (some ⟨r, recoded g Z⟩) = Ols.predict ⟨m.kind, some st.1, s⟩ (some ⟨r, Z⟩) := by
      unfold Ols.predict
      simp only [h2]
      rcases sameUpTo_elim (h1.2 Z) with ⟨e, b1, b2⟩ | ⟨f, f', b1, b2, rfl⟩
      · rw [b1, b2]
      · rw [b1, b2]
    refine ⟨hp, fun yn => ?_⟩
    unfold Ols.residuals residualsWith
    rw [hp]

/-! ### examples -/

section ex
attribute [local instance] exFns

theorem mean_units (a b : ℚ) : ∀ {n : Nat}, n ≠ 0 → ∀ y : Fin n → ℚ, mean (List.ofFn (fun r => a * y r + b)) = a * mean (List.ofFn y) + b := by
  intro n hn y
  have hq : (n : ℚ) ≠ 0 := Nat.cast_ne_zero.2 hn
  simp only [mean, List.sum_ofFn, List.length_ofFn, Finset.sum_add_distrib, ← Finset.mul_sum, Finset.sum_const, Finset.card_univ, Fintype.card_fin, nsmul_eq_mul]
  field_simp

/-- C151, C152, the example: the mean of the target as base estimator follows all units of the target and ignores all recodings. -/
theorem exMean_follows (a b : ℚ) : FollowsUnits a b exMean := by
  intro n X y
  unfold exMean
  by_cases hn : n = 0
  · simp only [if_pos hn]; rfl
  · simp only [if_neg hn]
    intro q Z
    show (fun _ => _) = _
    funext r
    exact mean_units a b hn y

theorem exMean_ignores (g : Fin 1 → ℚ → ℚ) : IgnoresRecoding g exMean := by
  intro n X y
  unfold exMean
  by_cases hn : n = 0
  · simp only [if_pos hn]; rfl
  · simp only [if_neg hn]
    intro q Z
    rfl

/-- C151, C152, the example: both hypotheses hold for the model below, for `2 * y + 3` and columns `2 * x + 1`. -/
example : (0 : ℚ) < 2 ∧ FollowsUnits 2 3 (exWorld.obj (ResidualBart.init exMean exWorld (some 0) (exSk true)).1.base).kind ∧
    IgnoresRecoding (fun _ x => 2 * x + 1) (exWorld.obj (ResidualBart.init exMean exWorld (some 0) (exSk true)).1.base).kind ∧ ∀ _ : Fin 1, StrictMono (fun x : ℚ => 2 * x + 1) :=
  ⟨by norm_num, exMean_follows 2 3, exMean_ignores _, fun _ x y h => by show 2 * x + 1 < 2 * y + 1; linarith⟩

/-- The fits succeed and the predictions are not constant. -/
example : (match (ResidualBart.init exMean exWorld (some 0) (exSk true)).1.fit (ResidualBart.init exMean exWorld (some 0) (exSk true)).2 exX exY exRs,
      (ResidualBart.init exMean exWorld (some 0) (exSk true)).1.fit (ResidualBart.init exMean exWorld (some 0) (exSk true)).2 exX (fun r => 2 * exY r + 3) exRs with
    | .ok (m, w), .ok (m', w') =>
      match m.predict w (some ⟨3, exX⟩), m'.predict w' (some ⟨3, exX⟩) with
      | .ok f, .ok f' => decide (f' = f.map (fun x => 2 * x + 3) ∧ f' ≠ f ∧ f.length = 3 ∧ ∃ x ∈ f, ∃ z ∈ f, x ≠ z)
      | _, _ => false
    | _, _ => false) = true := by
  decide +kernel

/-- A base estimator that does not follow the units (it always predicts 1): C151 needs the hypothesis. -/
example : ¬ FollowsUnits 2 0 (⟨Unit, fun {_} _ _ => .ok (), fun _ {_} _ => .ok (fun _ => 1)⟩ : Regressor ℚ 1) := by
  intro h
  have := congrFun (h (n := 0) Fin.elim0 Fin.elim0 (q := 1) (fun _ _ => .fin 0)) 0
  norm_num at this

/-- C151, C152, the example for `OLS`: the mean in place of a regression. -/
def exMeanStat : StatModel ℚ 1 :=
  ⟨ℚ, fun {n} _ y => if n = 0 then .error .valueError else .ok (mean (List.ofFn y), fun r => y r - mean (List.ofFn y)), fun st {_} _ => .ok (fun _ => st)⟩

example (a b : ℚ) : FollowsUnitsStat a b exMeanStat := by
  intro n X y
  unfold exMeanStat
  by_cases hn : n = 0
  · simp only [if_pos hn]; rfl
  · simp only [if_neg hn]
    refine ⟨?_, ?_⟩
    · funext r
      simp only [mean_units a b hn y]
      ring
    · intro q Z
      show (fun _ => _) = _
      funext r
      exact mean_units a b hn y

example (g : Fin 1 → ℚ → ℚ) : IgnoresRecodingStat g exMeanStat := by
  intro n X y
  unfold exMeanStat
  by_cases hn : n = 0
  · simp only [if_pos hn]; rfl
  · simp only [if_neg hn]
    exact ⟨rfl, fun Z => rfl⟩

end ex
end Bart
