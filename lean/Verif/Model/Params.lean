import Verif.Model.Extensions

/-! Model of the settings of the estimators: the constructors, and the methods `get_params`, `set_params` and the function `clone` of sklearn, which all the estimators inherit from
`sklearn.base.BaseEstimator`.

sklearn, as modelled: the parameter names are the names of the arguments of `__init__` without `**kwargs`; `get_params` reads the attributes with these names; `set_params` raises
ValueError for another name and otherwise assigns the attribute; `clone` calls the constructor with clones of the parameters and raises RuntimeError if afterwards an attribute is
not the very object passed to the constructor. Nested parameter names (with `__`) are not modelled.

The initializer is None (as in `SkModel`). -/

namespace Bart

/-- bartpy/samplers/unconstrainedtree/treemutation.py:53-56 `get_tree_sampler`: what a tree sampler is made from. (Its cached draws are in `Verif/Model/Generator.lean`.) -/
structure TreeSampler (K : Type) where
  pGrow : K
  pPrune : K
  deriving DecidableEq

/-- bartpy/sklearnmodel.py:87-101: the arguments of `SklearnModel.__init__`. -/
structure Settings (K : Type) where
  nTrees : Nat
  nChains : Nat
  sigmaA : K
  sigmaB : K
  nSamples : Nat
  nBurn : Nat
  thin : K
  alpha : K
  beta : K
  storePredictions : Bool
  storeAcceptance : Bool
  treeSampler : TreeSampler K
  nJobs : Int
  deriving DecidableEq

/-- An assignment `name=value` in the arguments of `set_params`. -/
inductive Param (K : Type) where
  | nTrees (v : Nat)
  | nChains (v : Nat)
  | sigmaA (v : K)
  | sigmaB (v : K)
  | nSamples (v : Nat)
  | nBurn (v : Nat)
  | thin (v : K)
  | alpha (v : K)
  | beta (v : K)
  | storePredictions (v : Bool)
  | storeAcceptance (v : Bool)
  | treeSampler (v : TreeSampler K)
  | nJobs (v : Int)

/-- `setattr` for the attribute that holds a parameter (bartpy/sklearnmodel.py:102-117: each argument is stored under its name). -/
def Param.assign {K : Type} : Param K → Settings K → Settings K
  | .nTrees v, c => { c with nTrees := v }
  | .nChains v, c => { c with nChains := v }
  | .sigmaA v, c => { c with sigmaA := v }
  | .sigmaB v, c => { c with sigmaB := v }
  | .nSamples v, c => { c with nSamples := v }
  | .nBurn v, c => { c with nBurn := v }
  | .thin v, c => { c with thin := v }
  | .alpha v, c => { c with alpha := v }
  | .beta v, c => { c with beta := v }
  | .storePredictions v, c => { c with storePredictions := v }
  | .storeAcceptance v, c => { c with storeAcceptance := v }
  | .treeSampler v, c => { c with treeSampler := v }
  | .nJobs v, c => { c with nJobs := v }

/-- A `SklearnModel` object with the distinction that `SkModel` does not make: `settings` are the attributes named like the parameters, `scheduled` is the tree sampler inside
`self.schedule` and `self.sampler` (bartpy/sklearnmodel.py:102-122). -/
structure SkObj (K : Type) (p : Nat) where
  settings : Settings K
  scheduled : TreeSampler K
  data : Option (Σ n, Data K n p)
  model : Option (Σ n, BModel K n p)
  samples : Option (Combined K p)
  extract : Option (List (ChainOut K p))

namespace SkObj
variable {K : Type} {n p : Nat}

/-- bartpy/sklearnmodel.py:87-122 `__init__`: the schedule is made here (:118-119). -/
def init (c : Settings K) : SkObj K p := ⟨c, c.treeSampler, none, none, none, none⟩

/-- The object as the methods of `SklearnModel` see it: they run `self.sampler` (bartpy/sklearnmodel.py:28) and read everything else from the attributes. -/
def toSk (o : SkObj K p) : SkModel K p :=
  let c := o.settings
  ⟨c.nTrees, c.nChains, c.sigmaA, c.sigmaB, c.nSamples, c.nBurn, c.thin, c.alpha, c.beta, c.storePredictions, c.storeAcceptance, o.scheduled.pGrow, o.scheduled.pPrune,
    o.data, o.model, o.samples, o.extract⟩

/-- `get_params` (sklearn). -/
def getParams (o : SkObj K p) : Settings K := o.settings

/-- `set_params` (sklearn), for names that are parameters. -/
def setParams (o : SkObj K p) (ps : List (Param K)) : SkObj K p := { o with settings := ps.foldl (fun c q => q.assign c) o.settings }

/-- `clone` (sklearn). Every attribute is the object that was passed to `__init__` (bartpy/sklearnmodel.py:102-117), so the check of `clone` succeeds. -/
def clone (o : SkObj K p) : SkObj K p := init o.getParams

variable [Field K] [LinearOrder K] [MathFns K] [FloorRing K]

/-- `fit` (bartpy/sklearnmodel.py:124-145), see `SkModel.fit`. -/
def fit (o : SkObj K p) (X : Fin n → Fin p → Fl K) (y : Fin n → K) (rs : Nat → Rand K) : Except PyErr (SkObj K p) :=
  match o.toSk.fit X y rs with
  | .error e => .error e
  | .ok s => .ok { o with data := s.data, model := s.model, samples := s.samples, extract := s.extract }

/-- `predict` (bartpy/sklearnmodel.py:208-231). -/
def predict (o : SkObj K p) (X : Option (Covariates K p)) : Except PyErr (List K) := o.toSk.predict X

end SkObj

/-- The default values of the arguments (bartpy/sklearnmodel.py:88-101). -/
def Settings.default (K : Type) [Field K] : Settings K :=
  ⟨200, 4, 1/1000, 1/1000, 200, 200, 1/10, 95/100, 2, false, false, ⟨1/2, 1/2⟩, -1⟩

/-! ### the extensions -/

/-- bartpy/extensions/baseestimator.py:8-19: a `ResidualBART` object. -/
structure ResidualObj (K : Type) (p : Nat) where
  base : EstId
  sk : SkObj K p

namespace ResidualObj
variable {K : Type} [Field K] [LinearOrder K] {p : Nat}

/-- bartpy/extensions/baseestimator.py:10-19 `__init__(base_estimator, **kwargs)`; `c` are the settings given by `kwargs`. -/
def init (lin : Regressor K p) (w : World K p) (base : Option EstId) (c : Settings K) : ResidualObj K p × World K p :=
  let r := ResidualBart.init lin w base (SkObj.init c).toSk
  (⟨r.1.base, SkObj.init c⟩, r.2)

/-- `set_params` (sklearn) with parameters of `SklearnModel`: the only parameter of `ResidualBART` is `base_estimator`, any other name is a ValueError. -/
def setParams (o : ResidualObj K p) (ps : List (Param K)) : Except PyErr (ResidualObj K p) :=
  match ps with
  | [] => .ok o
  | _ :: _ => .error .valueError

/-- `clone` (sklearn): `ResidualBART(base_estimator=clone(self.base_estimator))`. The constructor stores the given object (bartpy/extensions/baseestimator.py:18), so the check of
`clone` succeeds. -/
def clone (lin : Regressor K p) (o : ResidualObj K p) (w : World K p) : ResidualObj K p × World K p :=
  let b := w.clone o.base
  init lin b.2 (some b.1) (Settings.default K)

end ResidualObj

/-- bartpy/extensions/ols.py:8-15: an `OLS` object. -/
structure OlsObj (K : Type) (p : Nat) where
  kind : StatModel K p
  sk : SkObj K p

/-- bartpy/extensions/ols.py:10-15 `__init__(stat_model, **kwargs)`. -/
def OlsObj.init {K : Type} {p : Nat} (kind : StatModel K p) (c : Settings K) : OlsObj K p := ⟨kind, SkObj.init c⟩

/-- `clone` (sklearn): `OLS(stat_model=copy.deepcopy(self.stat_model))`; a deep copy of a class is the class itself. -/
def OlsObj.clone {K : Type} [Field K] {p : Nat} (o : OlsObj K p) : OlsObj K p := OlsObj.init o.kind (Settings.default K)

/-! ### the selectors -/

/-- `model` objects, by identity. -/
structure Objects (K : Type) (p : Nat) where
  obj : Nat → SkObj K p
  next : Nat

namespace Objects
variable {K : Type} {p : Nat}

/-- Object creation. -/
def alloc (w : Objects K p) (o : SkObj K p) : Nat × Objects K p := (w.next, ⟨Function.update w.obj w.next o, w.next + 1⟩)

/-- `copy.deepcopy(model)`. -/
def deepcopy (w : Objects K p) (i : Nat) : Nat × Objects K p := w.alloc (w.obj i)

/-- `sklearn.base.clone(model)`. -/
def clone (w : Objects K p) (i : Nat) : Nat × Objects K p := w.alloc (w.obj i).clone

end Objects

/-- bartpy/features/featureselection.py:14-20: a `SelectSplitProportionThreshold` object (not fitted). -/
structure ProportionSelector (K : Type) where
  model : Nat
  percentile : K

/-- bartpy/features/featureselection.py:16-20 `__init__`: the model is copied. -/
def ProportionSelector.init {K : Type} {p : Nat} (w : Objects K p) (model : Nat) (percentile : K) : ProportionSelector K × Objects K p :=
  let c := w.deepcopy model
  (⟨c.1, percentile⟩, c.2)

/-- `clone` (sklearn): clones the parameters, calls the constructor and compares the attributes with the arguments by identity. -/
def ProportionSelector.clone {K : Type} {p : Nat} (s : ProportionSelector K) (w : Objects K p) : Except PyErr (ProportionSelector K × Objects K p) :=
  let m := w.clone s.model
  let r := ProportionSelector.init m.2 m.1 s.percentile
  if r.1.model = m.1 then .ok r else .error .runtimeError

/-- The argument `method` of `SelectNullDistributionThreshold`. -/
inductive MethodArg where
  | string (s : String)
  | function

/-- bartpy/features/featureselection.py:38-54 `SelectNullDistributionThreshold.__init__`: the branch on `method`. The message of the exception reads `self.method`, which does not
exist yet. -/
def nullSelectorMethod (m : MethodArg) : Except PyErr Bool :=
  match m with
  | .string s => if s = "local" then .ok true else if s = "global" then .ok false else .error .attributeError
  | .function => .error .attributeError

/-- `clone` (sklearn) of a `SelectNullDistributionThreshold`: the attribute `n_trees` does not exist (AttributeError; with `tolerant`, for older versions of sklearn, it is taken as
None), and the attribute `method` is a function. -/
def nullSelectorClone (tolerant : Bool) : Except PyErr Bool := if tolerant then nullSelectorMethod .function else .error .attributeError

end Bart
