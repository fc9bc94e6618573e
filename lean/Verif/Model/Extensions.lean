import Verif.Model.Sklearn

/-! Model of bartpy/extensions/{baseestimator,ols}.py.

* An estimator of another library is given by what `fit` and `predict` compute. It is an object: `fit` changes it, and several variables can refer to it.
* Line bartpy/extensions/baseestimator.py:3 imports `sklearn.linear_model.base`, which newer versions of sklearn do not have; the model assumes that the import works. -/

namespace Bart

/-- A kind of regressor: `fit` gives its fitted state, `predict` one number per row. -/
structure Regressor (K : Type) (p : Nat) where
  State : Type
  fit : {n : Nat} → (Fin n → Fin p → Fl K) → (Fin n → K) → Except PyErr State
  predict : State → {q : Nat} → (Fin q → Fin p → Fl K) → Except PyErr (Fin q → K)

/-- An estimator object: its kind, and its state once it is fitted. -/
structure Estimator (K : Type) (p : Nat) where
  kind : Regressor K p
  state : Option kind.State

abbrev EstId := Nat

/-- The estimator objects. -/
structure World (K : Type) (p : Nat) where
  obj : EstId → Estimator K p
  next : EstId

/-- bartpy/extensions/baseestimator.py:8-19: the attributes of `ResidualBART`. -/
structure ResidualBart (K : Type) (p : Nat) where
  base : EstId
  sk : SkModel K p

/-- bartpy/extensions/ols.py:8-15: the attributes of `OLS`. `fit` gives the fitted result and its attribute `resid`. -/
structure StatModel (K : Type) (p : Nat) where
  State : Type
  fit : {n : Nat} → (Fin n → Fin p → Fl K) → (Fin n → K) → Except PyErr (State × (Fin n → K))
  predict : State → {q : Nat} → (Fin q → Fin p → Fl K) → Except PyErr (Fin q → K)

structure Ols (K : Type) (p : Nat) where
  kind : StatModel K p
  fitted : Option kind.State
  sk : SkModel K p

section
variable {K : Type} [Field K] [LinearOrder K] {n p : Nat}

/-- `estimator.predict(X)`; an estimator that is not fitted raises `NotFittedError`, a ValueError. -/
def Estimator.predict (e : Estimator K p) (X : Fin n → Fin p → Fl K) : Except PyErr (Fin n → K) :=
  match e.state with
  | none => .error .valueError
  | some st => e.kind.predict st X

/-- `estimator.fit(X, y)`. -/
def Estimator.fit (e : Estimator K p) (X : Fin n → Fin p → Fl K) (y : Fin n → K) : Except PyErr (Estimator K p) :=
  match e.kind.fit X y with
  | .error e => .error e
  | .ok st => .ok ⟨e.kind, some st⟩

namespace World

/-- Object creation. -/
def alloc (w : World K p) (e : Estimator K p) : EstId × World K p := (w.next, ⟨Function.update w.obj w.next e, w.next + 1⟩)

/-- `sklearn.base.clone`: a new object with the same settings that is not fitted. -/
def clone (w : World K p) (b : EstId) : EstId × World K p := w.alloc ⟨(w.obj b).kind, none⟩

/-- `estimator.fit(X, y)` on the object `b`. -/
def fit (w : World K p) (b : EstId) (X : Fin n → Fin p → Fl K) (y : Fin n → K) : Except PyErr (World K p) :=
  match (w.obj b).fit X y with
  | .error e => .error e
  | .ok e => .ok { w with obj := Function.update w.obj b e }

/-- `estimator.predict(X)` on the object `b`. -/
def predict (w : World K p) (b : EstId) (X : Fin n → Fin p → Fl K) : Except PyErr (Fin n → K) := (w.obj b).predict X

end World

/-- `residuals` of an object whose `predict` is overridden (bartpy/sklearnmodel.py:249-252). -/
def residualsWith (s : SkModel K p) (predict : Except PyErr (List K)) (y : Option (List K)) : Except PyErr (List K) :=
  match y with
  | none =>
    match s.model with
    | none => .error .attributeError
    | some ⟨_, m⟩ =>
      match m.data.y.unnormalizedY with
      | .error e => .error e
      | .ok y =>
        match predict with
        | .error e => .error e
        | .ok f => npSub (List.ofFn y) f
  | some y =>
    match predict with
    | .error e => .error e
    | .ok f => npSub y f

namespace ResidualBart

/-- bartpy/extensions/baseestimator.py:10-19 `__init__`; `lin` is sklearn's `LinearRegression`. -/
def init (lin : Regressor K p) (w : World K p) (base : Option EstId) (s : SkModel K p) : ResidualBart K p × World K p :=
  match base with
  | some b =>
    let c := w.clone b
    let self : ResidualBart K p := ⟨c.1, s⟩
    ({ self with base := b }, c.2)
  | none =>
    let c := w.alloc ⟨lin, none⟩
    (⟨c.1, s⟩, c.2)

/-- bartpy/extensions/baseestimator.py:26-31 `predict`. Without `X` it takes `self.data.X`, which is a `CovariateMatrix` and not an array: the base estimator raises, or else
`SklearnModel.predict` does, because a `CovariateMatrix` has no length (bartpy/tree.py:107); reported as TypeError. The attribute does not exist on a model that is not fitted.
The numpy sum of two arrays of equal length. -/
def predict (m : ResidualBart K p) (w : World K p) (X : Option (Covariates K p)) : Except PyErr (List K) :=
  match X with
  | none =>
    match m.sk.data with
    | none => .error .attributeError
    | some _ => .error .typeError
  | some X =>
    match w.predict m.base X.entry with
    | .error e => .error e
    | .ok f =>
      match m.sk.predict (some X) with
      | .error e => .error e
      | .ok g => .ok (List.zipWith (· + ·) (List.ofFn f) g)

/-- The inherited `residuals` (bartpy/sklearnmodel.py:233-252). -/
def residuals (m : ResidualBart K p) (w : World K p) (X : Option (Covariates K p)) (y : Option (List K)) : Except PyErr (List K) :=
  residualsWith m.sk (m.predict w X) y

variable [MathFns K] [FloorRing K]

/-- bartpy/extensions/baseestimator.py:21-24 `fit`. -/
def fit (m : ResidualBart K p) (w : World K p) (X : Fin n → Fin p → Fl K) (y : Fin n → K) (rs : Nat → Rand K) : Except PyErr (ResidualBart K p × World K p) :=
  match w.fit m.base X y with
  | .error e => .error e
  | .ok w1 =>
    match w1.predict m.base X with
    | .error e => .error e
    | .ok f =>
      match m.sk.fit X (fun r => y r - f r) rs with
      | .error e => .error e
      | .ok s => .ok ({ m with sk := s }, w1)

/-- The inherited `fit_predict` (bartpy/sklearnmodel.py:293-298). -/
def fitPredict (m : ResidualBart K p) (w : World K p) (X : Fin n → Fin p → Fl K) (y : Fin n → K) (rs : Nat → Rand K) :
    Except PyErr (List K × ResidualBart K p × World K p) :=
  match m.fit w X y rs with
  | .error e => .error e
  | .ok (m1, w1) =>
    match m1.predict w1 (if m1.sk.storePredictions then none else some ⟨n, X⟩) with
    | .error e => .error e
    | .ok f => .ok (f, m1, w1)

end ResidualBart

namespace Ols

/-- bartpy/extensions/ols.py:10-15 `__init__`. -/
def init (kind : StatModel K p) (s : SkModel K p) : Ols K p := ⟨kind, none, s⟩

/-- bartpy/extensions/ols.py:22-27 `predict`; without `X` as for `ResidualBart.predict`. On a model that is not fitted, `stat_model_fit` is None. -/
def predict (m : Ols K p) (X : Option (Covariates K p)) : Except PyErr (List K) :=
  match X with
  | none =>
    match m.sk.data with
    | none => .error .attributeError
    | some _ => .error .typeError
  | some X =>
    match m.fitted with
    | none => .error .attributeError
    | some st =>
      match m.kind.predict st X.entry with
      | .error e => .error e
      | .ok f =>
        match m.sk.predict (some X) with
        | .error e => .error e
        | .ok g => .ok (List.zipWith (· + ·) (List.ofFn f) g)

/-- The inherited `residuals`. -/
def residuals (m : Ols K p) (X : Option (Covariates K p)) (y : Option (List K)) : Except PyErr (List K) := residualsWith m.sk (m.predict X) y

variable [MathFns K] [FloorRing K]

/-- bartpy/extensions/ols.py:17-20 `fit`. -/
def fit (m : Ols K p) (X : Fin n → Fin p → Fl K) (y : Fin n → K) (rs : Nat → Rand K) : Except PyErr (Ols K p) :=
  match m.kind.fit X y with
  | .error e => .error e
  | .ok (st, resid) =>
    match m.sk.fit X resid rs with
    | .error e => .error e
    | .ok s => .ok { m with fitted := some st, sk := s }

end Ols
end
end Bart
