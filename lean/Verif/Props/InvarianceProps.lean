import Verif.Proofs.TransportModel
import Verif.Props.RunnerProps
import Verif.Model.Features
import Verif.Spec.Storing

/-! Changes of unit: C78 (the target), C79 (the features). C80: a second fit. -/

set_option linter.unusedSectionVars false

namespace Bart

namespace Spec
variable {K : Type}

/-- The numbers `a * y + b`. -/
def rescaled [Field K] {ι : Type} (a b : K) (y : ι → K) : ι → K := fun r => a * y r + b

/-- A number of a column after the column has been replaced by the function `g` of it; NaN and the infinities stay. -/
def recodeEntry (g : K → K) : Fl K → Fl K
  | .fin x => .fin (g x)
  | x => x

/-- The table in which column `j` has been replaced by the function `g j` of it. -/
def recoded {q p : Nat} (g : Fin p → K → K) (X : Fin q → Fin p → Fl K) : Fin q → Fin p → Fl K := fun r j => recodeEntry (g j) (X r j)

end Spec
open Spec

section
variable {K : Type} [Field K] [LinearOrder K] {n p : Nat}

theorem mat_eq_recoded (T : Trans K p) {q : Nat} (X : Fin q → Fin p → Fl K) : T.mat X = recoded T.f X := by
  funext r j
  simp only [Trans.mat, Trans.row, Trans.fl, recoded]
  cases X r j <;> rfl

theorem sameUpTo_map {α β : Type} {R : α → β → Prop} (g : α → β) (h : ∀ x, R x (g x)) : ∀ x : Except PyErr α, SameUpTo R x (x.map g)
  | .error _ => rfl
  | .ok x => h x

/-! ### the fitted estimator -/

variable [MathFns K]

theorem fitted_models (T : Trans K p) (c : Combined K p) {q : Nat} (X : Fin q → Fin p → Fl K) :
    (T.combined c).models.map (fun x => List.ofFn (x.predictX (T.mat X))) = c.models.map (fun x => List.ofFn (x.predictX X)) := by
  simp only [Trans.combined, List.map_map, Function.comp_def]
  exact List.map_congr_left fun x _ => congrArg List.ofFn (Trans.sample_predictX T x X)

theorem fitted_proportions (T : Trans K p) (s : SkModel K p) (l : Option (List (Fin p))) : (T.fitted s).featureSplitProportions l = s.featureSplitProportions l := by
  have h : ∀ xs : List (Sample K p), splitVariables (xs.map T.sample) = splitVariables xs := by
    intro xs
    unfold splitVariables
    rw [List.flatMap_map]
    congr 1
    funext x
    have e : (T.sample x).trees = x.trees.map T.tree := Trans.model_storedTrees T x.live x.stored
    rw [e]
    exact List.flatMap_map (f := T.tree) (l := x.trees) _
  unfold SkModel.featureSplitProportions
  have e : (T.fitted s).samples = s.samples.map T.combined := rfl
  rw [e]
  cases s.samples with
  | none => rfl
  | some c =>
    have e2 : (T.combined c).models = c.models.map T.sample := rfl
    simp only [Option.map_some, featureSplitProportions, e2, h]

theorem fitted_predict (T : Trans K p) (s : SkModel K p) (g : K → K)
    (hu : ∀ (n : Nat) (d : Data K n p) (l : List K), s.data = some ⟨n, d⟩ → unnormalizeList (T.data d) l = (unnormalizeList d l).map (List.map g)) (X : Option (Covariates K p)) :
    (T.fitted s).predict (X.map (fun X => ⟨X.rows, T.mat X.entry⟩)) = (s.predict X).map (List.map g) := by
  cases X with
  | none =>
    simp only [SkModel.predict, Option.map_none, Trans.fitted]
    by_cases hp : s.storePredictions = true
    · simp only [hp, if_true]
      cases hd : s.data with
      | none => rfl
      | some d =>
        obtain ⟨n, d⟩ := d
        cases s.samples with
        | none => rfl
        | some c =>
          have e : (T.combined c).predictions = c.predictions := rfl
          simp only [Option.map_some, e]
          cases meanRows c.predictions with
          | error e => rfl
          | ok l => exact hu n d l hd
    · simp only [hp]; rfl
  | some X =>
    simp only [SkModel.predict, Option.map_some, SkModel.outOfSamplePredict, Trans.fitted]
    cases hd : s.data with
    | none => rfl
    | some d =>
      obtain ⟨n, d⟩ := d
      cases s.samples with
      | none => rfl
      | some c =>
        simp only [Option.map_some, fitted_models]
        cases meanRows (c.models.map (fun x => List.ofFn (x.predictX X.entry))) with
        | error e => rfl
        | ok l => exact hu n d l hd

end

section
variable {K : Type} [Field K] [LinearOrder K] [IsStrictOrderedRing K] {n p : Nat}

/-! ### the target -/

theorem foldl_min_affine {a : K} (ha : 0 < a) (b : K) (l : List K) (x : K) :
    (l.map (fun z => a * z + b)).foldl min (a * x + b) = a * l.foldl min x + b := by
  induction l generalizing x with
  | nil => rfl
  | cons z l ih =>
    have h : min (a * x + b) (a * z + b) = a * min x z + b := by
      rcases le_total x z with h | h
      · rw [min_eq_left h, min_eq_left (by have := mul_le_mul_of_nonneg_left h ha.le; linarith)]
      · rw [min_eq_right h, min_eq_right (by have := mul_le_mul_of_nonneg_left h ha.le; linarith)]
    simp only [List.map_cons, List.foldl_cons, h, ih]

theorem foldl_max_affine {a : K} (ha : 0 < a) (b : K) (l : List K) (x : K) :
    (l.map (fun z => a * z + b)).foldl max (a * x + b) = a * l.foldl max x + b := by
  induction l generalizing x with
  | nil => rfl
  | cons z l ih =>
    have h : max (a * x + b) (a * z + b) = a * max x z + b := by
      rcases le_total x z with h | h
      · rw [max_eq_right h, max_eq_right (by have := mul_le_mul_of_nonneg_left h ha.le; linarith)]
      · rw [max_eq_left h, max_eq_left (by have := mul_le_mul_of_nonneg_left h ha.le; linarith)]
    simp only [List.map_cons, List.foldl_cons, h, ih]

theorem yMin_affine {a : K} (ha : 0 < a) (b : K) (y : Fin n → K) : Target.yMin (rescaled a b y) = (Target.yMin y).map (fun z => a * z + b) := by
  unfold Target.yMin
  have h : (List.finRange n).map (rescaled a b y) = ((List.finRange n).map y).map (fun z => a * z + b) := by rw [List.map_map]; rfl
  rw [h]
  cases (List.finRange n).map y with
  | nil => rfl
  | cons x l => simp only [List.map_cons, foldl_min_affine ha]; rfl

theorem yMax_affine {a : K} (ha : 0 < a) (b : K) (y : Fin n → K) : Target.yMax (rescaled a b y) = (Target.yMax y).map (fun z => a * z + b) := by
  unfold Target.yMax
  have h : (List.finRange n).map (rescaled a b y) = ((List.finRange n).map y).map (fun z => a * z + b) := by rw [List.map_map]; rfl
  rw [h]
  cases (List.finRange n).map y with
  | nil => rfl
  | cons x l => simp only [List.map_cons, foldl_max_affine ha]; rfl

theorem normalizeY_affine {a : K} (ha : 0 < a) (b : K) (y : Fin n → K) : Target.normalizeY (rescaled a b y) = Target.normalizeY y := by
  unfold Target.normalizeY
  rw [yMin_affine ha, yMax_affine ha]
  cases Target.yMin y with
  | error e => rfl
  | ok lo =>
    cases Target.yMax y with
    | error e => rfl
    | ok hi =>
      simp only [Except.map]
      have h1 : a * hi + b - (a * lo + b) = a * (hi - lo) := by ring
      rw [h1]
      by_cases h : hi - lo = 0
      · rw [if_pos h, if_pos (by rw [h, mul_zero])]
      · rw [if_neg h, if_neg (mul_ne_zero ha.ne' h)]
        congr 1
        funext r
        have h2 : rescaled a b y r - (a * lo + b) = a * (y r - lo) := by unfold rescaled; ring
        rw [h2, mul_div_mul_left _ _ ha.ne']

/-- Features as they are, the target on another scale. -/
def affineTrans (p : Nat) (a b : K) : Trans K p where
  f := fun _ x => x
  mono := fun _ => strictMono_id
  range := fun r => (a * r.1 + b, a * r.2 + b)
  scale := fun c => a * c

theorem affine_mat (a b : K) {q : Nat} (X : Fin q → Fin p → Fl K) : (affineTrans p a b).mat X = X := by
  rw [mat_eq_recoded]
  funext r j
  simp only [recoded]
  cases h : X r j <;> rfl

theorem affine_normalizingScale (a b : K) (d : Data K n p) : ((affineTrans p a b).data d).y.normalizingScale = d.y.normalizingScale.map (affineTrans p a b).scale := by
  simp only [Trans.data, Trans.tgt, Target.normalizingScale]
  rcases d.y.originalRange with _ | ⟨lo, hi⟩
  · rfl
  · simp only [Option.map_some, Except.map, affineTrans, Except.ok.injEq]; ring

theorem affine_dataMap {a : K} (ha : 0 < a) (b : K) (X : Fin n → Fin p → Fl K) (y : Fin n → K) : (affineTrans p a b).DataMap X y (rescaled a b y) where
  init := by
    intro m k ys
    unfold Target.init
    simp only [yMin_affine ha, yMax_affine ha, normalizeY_affine ha, if_true]
    cases Target.yMin y with
    | error e => rfl
    | ok lo =>
      cases Target.yMax y with
      | error e => rfl
      | ok hi => cases Target.normalizeY y <;> rfl
  scale := fun d _ => affine_normalizingScale a b d

theorem affine_unnormalize (a b : K) (d : Data K n p) (l : List K) :
    unnormalizeList ((affineTrans p a b).data d) l = (unnormalizeList d l).map (List.map (fun z => a * z + b)) := by
  unfold unnormalizeList Target.unnormalizeY
  have h : ((affineTrans p a b).data d).y.originalRange = d.y.originalRange.map (affineTrans p a b).range := rfl
  rw [h]
  rcases d.y.originalRange with _ | ⟨lo, hi⟩
  · rfl
  · simp only [Option.map_some, Except.map, affineTrans, Except.ok.injEq, List.map_ofFn]
    congr 1
    funext i
    simp only [Function.comp_def]
    ring

variable [MathFns K] [FloorRing K]

/-- C78: a target in other units, `a * y + b` with `a > 0`, and the same random draws: `fit` raises the same exception or both succeed; then every prediction (`predict()` and `predict(X)` for any
`X`) of the second estimator is `a * f + b` with `f` the prediction of the first. -/
theorem C78_target_units {a : K} (ha : 0 < a) (b : K) (s : SkModel K p) (X : Fin n → Fin p → Fl K) (y : Fin n → K) (rs : Nat → Rand K) :
    SameUpTo (fun s1 s2 => ∀ Xn : Option (Covariates K p), SameUpTo (fun f g => g = f.map (fun z => a * z + b)) (s1.predict Xn) (s2.predict Xn))
      (s.fit X y rs) (s.fit X (rescaled a b y) rs) := by
  have h := (affineTrans p a b).fit_map s (affine_dataMap ha b X y) rs
  rw [affine_mat] at h
  rw [h]
  refine sameUpTo_map _ (fun s1 => ?_) _
  intro Xn
  have h2 := fitted_predict (affineTrans p a b) s1 (fun z => a * z + b) (fun n d l _ => affine_unnormalize a b d l) Xn
  have h3 : Xn.map (fun X => (⟨X.rows, (affineTrans p a b).mat X.entry⟩ : Covariates K p)) = Xn := by
    cases Xn with
    | none => rfl
    | some X => simp only [Option.map_some, affine_mat]
  rw [h3] at h2
  rw [h2]
  exact sameUpTo_map _ (by intro f; rfl) _

theorem npSub_affine (a b : K) (f g : List K) :
    npSub (f.map (fun z => a * z + b)) (g.map (fun z => a * z + b)) = (npSub f g).map (List.map (fun z => a * z)) := by
  unfold npSub
  simp only [List.length_map]
  have hz : ∀ l l' : List K, List.zipWith (· - ·) (l.map (fun z => a * z + b)) (l'.map (fun z => a * z + b)) = (List.zipWith (· - ·) l l').map (fun z => a * z) := by
    intro l
    induction l with
    | nil => intro l'; rfl
    | cons x l ih =>
      intro l'
      cases l' with
      | nil => rfl
      | cons x' l' => simp only [List.map_cons, List.zipWith_cons_cons, ih, List.cons.injEq, and_true]; ring
  by_cases h : f.length = g.length
  · rw [if_pos h, if_pos h, hz]; rfl
  · rw [if_neg h, if_neg h]
    have h1 : ∀ (x : K) (l : List K), (l.map (fun z => a * z + b)).map (fun y => a * x + b - y) = (l.map (fun y => x - y)).map (fun z => a * z) := by
      intro x l; rw [List.map_map, List.map_map]; congr 1; funext z; simp only [Function.comp_def]; ring
    have h2 : ∀ (y : K) (l : List K), (l.map (fun z => a * z + b)).map (fun x => x - (a * y + b)) = (l.map (fun x => x - y)).map (fun z => a * z) := by
      intro x l; rw [List.map_map, List.map_map]; congr 1; funext z; simp only [Function.comp_def]; ring
    rcases f with _ | ⟨x, _ | ⟨x2, f⟩⟩ <;> rcases g with _ | ⟨z, _ | ⟨z2, g⟩⟩ <;> first | rfl | (exfalso; exact h rfl) | skip
    · exact congrArg Except.ok (h1 x (z :: z2 :: g))
    · exact congrArg Except.ok (h2 z (x :: x2 :: f))

/-- C78: the residuals, of the training data or of other data with the target in the same units, are multiplied by `a`, the squared errors by `a²`. -/
theorem C78_residuals {a : K} (ha : 0 < a) (b : K) (s : SkModel K p) (X : Fin n → Fin p → Fl K) (y : Fin n → K) (rs : Nat → Rand K) :
    SameUpTo (fun s1 s2 => ∀ (Xn : Option (Covariates K p)) (yn : Option (List K)),
        SameUpTo (fun f g => g = f.map (fun z => a * z)) (s1.residuals Xn yn) (s2.residuals Xn (yn.map (List.map (fun z => a * z + b)))) ∧
        SameUpTo (fun f g => g = f.map (fun z => a ^ 2 * z)) (s1.l2Error Xn yn) (s2.l2Error Xn (yn.map (List.map (fun z => a * z + b)))))
      (s.fit X y rs) (s.fit X (rescaled a b y) rs) := by
  have h := (affineTrans p a b).fit_map s (affine_dataMap ha b X y) rs
  rw [affine_mat] at h
  rw [h]
  refine sameUpTo_map _ (fun s1 => ?_) _
  intro Xn yn
  have h2 := fitted_predict (affineTrans p a b) s1 (fun z => a * z + b) (fun n d l _ => affine_unnormalize a b d l) Xn
  have h3 : Xn.map (fun X => (⟨X.rows, (affineTrans p a b).mat X.entry⟩ : Covariates K p)) = Xn := by
    cases Xn with
    | none => rfl
    | some X => simp only [Option.map_some, affine_mat]
  rw [h3] at h2
  have hres : ((affineTrans p a b).fitted s1).residuals Xn (yn.map (List.map (fun z => a * z + b))) = (s1.residuals Xn yn).map (List.map (fun z => a * z)) := by
    unfold SkModel.residuals
    cases yn with
    | some yn =>
      simp only [Option.map_some, h2]
      cases s1.predict Xn with
      | error e => rfl
      | ok f => exact npSub_affine a b yn f
    | none =>
      simp only [Option.map_none]
      have hm : ((affineTrans p a b).fitted s1).model = s1.model.map (fun m => ⟨m.1, (affineTrans p a b).model m.2⟩) := rfl
      rw [hm]
      rcases s1.model with _ | ⟨n', m⟩
      · rfl
      · simp only [Option.map_some]
        have hy : ((affineTrans p a b).model m).data.y.unnormalizedY = m.data.y.unnormalizedY.map (fun y r => a * y r + b) := by
          have e1 : ((affineTrans p a b).model m).data.y.y = m.data.y.y := rfl
          have e2 : ((affineTrans p a b).model m).data.y.originalRange = m.data.y.originalRange.map (affineTrans p a b).range := rfl
          unfold Target.unnormalizedY Target.unnormalizeY
          rw [e1, e2]
          cases m.data.y.y with
          | none => rfl
          | some y0 =>
            rcases m.data.y.originalRange with _ | ⟨lo, hi⟩
            · rfl
            · simp only [Option.map_some, Except.map, affineTrans, Except.ok.injEq]; funext r; ring
        rw [hy]
        cases m.data.y.unnormalizedY with
        | error e => rfl
        | ok y0 =>
          simp only [Except.map, h2]
          cases s1.predict Xn with
          | error e => rfl
          | ok f =>
            have e : List.ofFn (fun r => a * y0 r + b) = (List.ofFn y0).map (fun z => a * z + b) := by rw [List.map_ofFn]; rfl
            simp only [Except.map, e]
            exact npSub_affine a b (List.ofFn y0) f
  refine ⟨?_, ?_⟩
  · rw [hres]; exact sameUpTo_map _ (by intro f; rfl) _
  · unfold SkModel.l2Error
    rw [hres]
    cases s1.residuals Xn yn with
    | error e => rfl
    | ok l =>
      simp only [Except.map, SameUpTo, List.map_map]
      congr 1
      funext z
      simp only [Function.comp_def]
      ring

/-! ### the features -/

/-- Features recoded, the target as it is. -/
def recodeTrans (g : Fin p → K → K) (hg : ∀ j, StrictMono (g j)) : Trans K p where
  f := g
  mono := hg
  range := id
  scale := id

theorem recode_data {g : Fin p → K → K} (hg : ∀ j, StrictMono (g j)) (t : Target K n) : (recodeTrans g hg).tgt t = t := by
  simp only [Trans.tgt, recodeTrans, Option.map_id_fun, id]

theorem recode_dataMap {g : Fin p → K → K} (hg : ∀ j, StrictMono (g j)) (X : Fin n → Fin p → Fl K) (y : Fin n → K) : (recodeTrans g hg).DataMap X y y where
  init := by
    intro m k ys
    have h : (recodeTrans g hg).tgt = (id : Target K n → Target K n) := funext (recode_data hg)
    rw [h]
    cases Target.init y m k true ys <;> rfl
  scale := by
    intro d _
    have h : ((recodeTrans g hg).data d).y = d.y := recode_data hg d.y
    rw [h]
    cases d.y.normalizingScale <;> rfl

/-- C79: the columns replaced by strictly increasing functions of them (logarithms, ranks, other units), in the training data and in the data to predict, and the same random draws: `fit` raises
the same exception or both succeed; then all predictions, residuals, the acceptance rates and the feature split proportions are the same. -/
theorem C79_feature_units {g : Fin p → K → K} (hg : ∀ j, StrictMono (g j)) (s : SkModel K p) (X : Fin n → Fin p → Fl K) (y : Fin n → K) (rs : Nat → Rand K) :
    SameUpTo (fun s1 s2 =>
        s2.predict none = s1.predict none ∧
        (∀ (q : Nat) (Xn : Fin q → Fin p → Fl K), s2.predict (some ⟨q, recoded g Xn⟩) = s1.predict (some ⟨q, Xn⟩)) ∧
        (∀ yn, s2.residuals none yn = s1.residuals none yn) ∧
        (∀ (q : Nat) (Xn : Fin q → Fin p → Fl K) (yn : Option (List K)), s2.residuals (some ⟨q, recoded g Xn⟩) yn = s1.residuals (some ⟨q, Xn⟩) yn) ∧
        s2.samples.map Combined.acceptance = s1.samples.map Combined.acceptance ∧
        (∀ l, s2.featureSplitProportions l = s1.featureSplitProportions l))
      (s.fit X y rs) (s.fit (recoded g X) y rs) := by
  have h := (recodeTrans g hg).fit_map s (recode_dataMap hg X y) rs
  rw [mat_eq_recoded] at h
  have hf : (recodeTrans g hg).f = g := rfl
  rw [hf] at h
  rw [h]
  refine sameUpTo_map _ (fun s1 => ?_) _
  have hd : ∀ (n : Nat) (d : Data K n p), ((recodeTrans g hg).data d).y = d.y := fun n d => recode_data hg d.y
  have h2 : ∀ Xn, ((recodeTrans g hg).fitted s1).predict (Xn.map (fun X => ⟨X.rows, (recodeTrans g hg).mat X.entry⟩)) = s1.predict Xn := by
    intro Xn
    rw [fitted_predict (recodeTrans g hg) s1 id ?_ Xn]
    · rw [List.map_id_fun]; cases s1.predict Xn <;> rfl
    · intro n d l _
      rw [List.map_id_fun]
      unfold unnormalizeList
      rw [hd]
      cases d.y.unnormalizeY (fun i : Fin l.length => l[i]) <;> rfl
  have hm : ((recodeTrans g hg).fitted s1).model = s1.model.map (fun m => ⟨m.1, (recodeTrans g hg).model m.2⟩) := rfl
  have hp1 : ((recodeTrans g hg).fitted s1).predict none = s1.predict none := h2 none
  have hp2 : ∀ (q : Nat) (Xn : Fin q → Fin p → Fl K), ((recodeTrans g hg).fitted s1).predict (some ⟨q, recoded g Xn⟩) = s1.predict (some ⟨q, Xn⟩) := by
    intro q Xn
    rw [← h2 (some ⟨q, Xn⟩)]
    simp only [Option.map_some, mat_eq_recoded, hf]
  have hres : ∀ Xn Xn' yn, ((recodeTrans g hg).fitted s1).predict Xn' = s1.predict Xn →
      ((recodeTrans g hg).fitted s1).residuals Xn' yn = s1.residuals Xn yn := by
    intro Xn Xn' yn e
    unfold SkModel.residuals
    cases yn with
    | some yn => simp only [e]
    | none =>
      rw [hm]
      rcases s1.model with _ | ⟨n', m⟩
      · rfl
      · have hy : ((recodeTrans g hg).model m).data.y = m.data.y := hd _ m.data
        simp only [Option.map_some, hy, e]
  refine ⟨hp1, hp2, fun yn => hres _ _ _ hp1, fun q Xn yn => hres _ _ _ (hp2 q Xn), ?_, fitted_proportions _ s1⟩
  simp only [Trans.fitted, Option.map_map]
  rfl

end

section
variable {K : Type} [Field K] [LinearOrder K] [MathFns K] [FloorRing K] {n p : Nat}

/-- C80: an estimator that has already been fitted, to any data, is fitted as a new one with the same settings would be: the same exception, or the same estimator. -/
theorem C80_refit {n0 : Nat} (s s1 : SkModel K p) (X0 : Fin n0 → Fin p → Fl K) (y0 : Fin n0 → K) (rs0 : Nat → Rand K) (h : s.fit X0 y0 rs0 = .ok s1)
    (X : Fin n → Fin p → Fl K) (y : Fin n → K) (rs : Nat → Rand K) : s1.fit X y rs = s.fit X y rs := by
  unfold SkModel.fit at h
  split at h
  · cases h
  · split at h
    · cases h
    · split at h
      · cases h
      · next d0 m0 _ _ ex _ _ c0 _ =>
        injection h with h; subst h
        have h1 : ∀ l, SkModel.runChains { s with data := some ⟨n0, d0⟩, model := some ⟨n0, m0⟩, samples := some c0, extract := some ex } X y l = s.runChains X y l := by
          intro l
          induction l with
          | nil => rfl
          | cons r l ih => simp only [SkModel.runChains, ih]; rfl
        unfold SkModel.fit
        simp only [h1]
        rfl

end

/-! ### examples -/

section ex
attribute [local instance] exFns

/-- C78, the example: the fit succeeds, the predictions are not constant and differ from those in the other units. -/
example : (0 : ℚ) < 5 ∧ (match exFit true, (exSk true).fit exX (rescaled 5 7 exY) exRs with
    | .ok s1, .ok s2 =>
      match s1.predict (some ⟨3, exX⟩), s2.predict (some ⟨3, exX⟩) with
      | .ok f, .ok g => decide (f ≠ g ∧ g = f.map (fun z => 5 * z + 7) ∧ f[0]? ≠ f[1]?)
      | _, _ => false
    | _, _ => false) = true := by
  refine ⟨by norm_num, by decide +kernel⟩

/-- A positive factor is needed: with `a = -1` the predictions are not those with the other sign. -/
example : (match exFit true, (exSk true).fit exX (rescaled (-1) 0 exY) exRs with
    | .ok s1, .ok s2 =>
      match s1.predict (some ⟨3, exX⟩), s2.predict (some ⟨3, exX⟩) with
      | .ok f, .ok g => decide (g ≠ f.map (fun z => -1 * z + 0))
      | _, _ => false
    | _, _ => false) = true := by
  decide +kernel

/-- C79, the example: another unit for the only column, a fit that succeeds; data in the old unit are predicted differently. -/
example : (∀ j : Fin 1, StrictMono ((fun _ x => 3 * x + 2 : Fin 1 → ℚ → ℚ) j)) ∧ recoded (fun _ x => 3 * x + 2) exX ≠ exX ∧
    (match exFit true with | .ok s1 => (s1.predict (some ⟨3, exX⟩)).isOk | .error _ => false) = true ∧
    (match exFit true, (exSk true).fit (recoded (fun _ x => 3 * x + 2) exX) exY exRs with
      | .ok s1, .ok s2 => decide (s2.predict (some ⟨3, exX⟩) ≠ s1.predict (some ⟨3, exX⟩))
      | _, _ => false) = true := by
  refine ⟨fun j x y h => by simp only; linarith, ?_, by decide +kernel, by decide +kernel⟩
  intro h
  exact absurd (congrFun (congrFun h 0) 0) (by decide +kernel)

/-- C80, the example: a first fit to another target succeeds. -/
example : ∃ s1, (exSk true).fit exX (rescaled 5 7 exY) exRs = .ok s1 ∧ (s1.predict none).isOk = true := by
  have h : (match (exSk true).fit exX (rescaled 5 7 exY) exRs with | .ok s1 => (s1.predict none).isOk | .error _ => false) = true := by decide +kernel
  cases e : (exSk true).fit exX (rescaled 5 7 exY) exRs with
  | error _ => rw [e] at h; cases h
  | ok s1 => rw [e] at h; exact ⟨s1, rfl, h⟩

end ex
end Bart
