import Verif.Model.Samples

/-! Model of bartpy/sklearnmodel.py (`SklearnModel`, default sampler and no initializer) and bartpy/runner.py.

* Arrays of numbers that the user sees are lists. A covariate matrix is a function on `Fin q`; it always has `p` columns (another number of columns is not modelled).
* The chains run by joblib are independent: chain number `i` uses the draws `rs[i]`. The calling `SklearnModel` does not see what a chain does to its copy of the object
  (joblib's default backend runs the chains in other processes). With `n_jobs=1` the attribute `model` would afterwards be the model of the last chain; the code below reads only its
  `data`, which the chain does not change.
* The models with which the diagnostics deal are the stored samples; a stored sample lives in the heap of the live model of its chain, as that chain left it. -/

namespace Bart

/-- A covariate matrix with `p` columns. -/
structure Covariates (K : Type) (p : Nat) where
  rows : Nat
  entry : Fin rows → Fin p → Fl K

/-- An entry of `model_samples`: the stored model, and the live model of its chain at the end of the chain (whose heap has the objects). -/
structure Sample (K : Type) (p : Nat) where
  n : Nat
  live : BModel K n p
  stored : StoredModel K

/-- The value that one chain returns, with the heap it lives in. -/
structure ChainOut (K : Type) (p : Nat) where
  n : Nat
  live : BModel K n p
  chain : Chain K n

/-- What `_combine_chains` returns (bartpy/sklearnmodel.py:147-153). -/
structure Combined (K : Type) (p : Nat) where
  models : List (Sample K p)
  acceptance : List (Option K)
  predictions : List (List K)

/-- bartpy/sklearnmodel.py:87-122: the attributes of `SklearnModel`. `pGrow` and `pPrune` are those of the tree sampler. The attributes `_model_samples`, `_prediction_samples` and
`_acceptance_trace` are always set together (143-144, 363-364): `samples`. -/
structure SkModel (K : Type) (p : Nat) where
  nTrees : Nat
  nChains : Nat
  sigmaA : K
  sigmaB : K
  nSamples : Nat
  nBurn : Nat
  thin : K
  alpha : K
  beta : K
  storePredictions : Bool
  storeAcceptance : Bool
  pGrow : K
  pPrune : K
  data : Option (Σ n, Data K n p)
  model : Option (Σ n, BModel K n p)
  samples : Option (Combined K p)
  extract : Option (List (ChainOut K p))

section
variable {K : Type} [Field K] [LinearOrder K] {n p : Nat}

/-- `x.predict(X)` for an entry `x` of `model_samples` (bartpy/model.py:61-65). -/
def Sample.predictX {q : Nat} (s : Sample K p) (X : Fin q → Fin p → Fl K) : Fin q → K := s.live.storedPredictX s.stored X

/-- The trees of an entry of `model_samples`. -/
def Sample.trees (s : Sample K p) : List (Tree K s.n p) := s.live.storedTrees s.stored

/-- The entries of `chain["model"]`. -/
def ChainOut.models (o : ChainOut K p) : List (Sample K p) := o.chain.model.map (fun s => ⟨o.n, o.live, s⟩)

/-- `chain["in_sample_predictions"]`. -/
def ChainOut.predictions (o : ChainOut K p) : List (List K) := o.chain.predictions.map List.ofFn

/-- `np.concatenate(ls, axis=0)` for lists of rows: the rows have to have the same length, and an empty list, which is an array with one dimension, cannot be concatenated with
one that has two (ValueError). -/
def concatRows (ls : List (List (List K))) : Except PyErr (List (List K)) :=
  match ls.flatten with
  | [] => .ok []
  | row :: rows => if ls.all (fun l => !l.isEmpty) && (row :: rows).all (fun r => r.length == row.length) then .ok (row :: rows) else .error .valueError

/-- bartpy/sklearnmodel.py:147-153 `_combine_chains`. The keys are those of the first chain (IndexError if there is none). -/
def combineChains (extract : List (ChainOut K p)) : Except PyErr (Combined K p) :=
  match extract with
  | [] => .error .indexError
  | _ :: _ =>
    match concatRows (extract.map ChainOut.predictions) with
    | .error e => .error e
    | .ok rows => .ok ⟨(extract.map ChainOut.models).flatten, (extract.map (fun o => o.chain.acceptance)).flatten, rows⟩

/-- `np.mean(rows, axis=0)`. The mean of no rows is NaN (error `nonFinite`). -/
def meanRows (rows : List (List K)) : Except PyErr (List K) :=
  match rows with
  | [] => .error .nonFinite
  | row :: _ => .ok ((List.range row.length).map (fun j => (rows.map (fun r => r.getD j 0)).sum / (rows.length : K)))

/-- numpy's `a - b` for two arrays of dimension one: equal lengths, or one of them has length 1 and is repeated; otherwise ValueError. -/
def npSub (a b : List K) : Except PyErr (List K) :=
  if a.length = b.length then .ok (List.zipWith (· - ·) a b)
  else
    match a, b with
    | [x], _ => .ok (b.map (fun y => x - y))
    | _, [y] => .ok (a.map (fun x => x - y))
    | _, _ => .error .valueError

/-- bartpy/data.py:255-258 on a list. -/
def unnormalizeList (d : Data K n p) (l : List K) : Except PyErr (List K) :=
  match d.y.unnormalizeY (fun i : Fin l.length => l[i]) with
  | .error e => .error e
  | .ok f => .ok (List.ofFn f)

namespace SkModel
variable (s : SkModel K p)

/-- bartpy/sklearnmodel.py:155-161 `_convert_covariates_to_data`. -/
def convertData (X : Fin n → Fin p → Fl K) (y : Fin n → K) : Except PyErr (Data K n p) := Data.init X y none true none none none none

/-- bartpy/sklearnmodel.py:163-174 `_construct_model`: the new values of the attributes `data` and `model` (`k` has its default value 2). -/
def constructModel (X : Fin n → Fin p → Fl K) (y : Fin n → K) : Except PyErr (Data K n p × BModel K n p) :=
  if n = 0 ∨ p = 0 then .error .valueError
  else
    match convertData X y with
    | .error e => .error e
    | .ok d =>
      match d.y.normalizingScale with
      | .error e => .error e
      | .ok c =>
        match BModel.construct d { alpha := s.sigmaA, beta := s.sigmaB, current := 1, scalingFactor := c } s.nTrees s.alpha s.beta 2 with
        | .error e => .error e
        | .ok m => .ok (d, m)

/-- The arguments of `samples()` in `run_chain`. -/
def sampleParams : SampleParams K := ⟨s.pGrow, s.pPrune, s.thin, s.storePredictions, s.storeAcceptance⟩

/-- bartpy/sklearnmodel.py:290-291 `_out_of_sample_predict`. -/
def outOfSamplePredict (X : Covariates K p) : Except PyErr (List K) :=
  match s.data with
  | none => .error .attributeError
  | some ⟨_, d⟩ =>
    match s.samples with
    | none => .error .typeError
    | some c =>
      match meanRows (c.models.map (fun x => List.ofFn (x.predictX X.entry))) with
      | .error e => .error e
      | .ok l => unnormalizeList d l

/-- bartpy/sklearnmodel.py:208-231 `predict`. `np.mean(None, axis=0)` raises TypeError. -/
def predict (X : Option (Covariates K p)) : Except PyErr (List K) :=
  match X with
  | none =>
    if s.storePredictions then
      match s.data with
      | none => .error .attributeError
      | some ⟨_, d⟩ =>
        match s.samples with
        | none => .error .typeError
        | some c =>
          match meanRows c.predictions with
          | .error e => .error e
          | .ok l => unnormalizeList d l
    else .error .valueError
  | some X => s.outOfSamplePredict X

/-- bartpy/sklearnmodel.py:233-252 `residuals`. -/
def residuals (X : Option (Covariates K p)) (y : Option (List K)) : Except PyErr (List K) :=
  match y with
  | none =>
    match s.model with
    | none => .error .attributeError
    | some ⟨_, m⟩ =>
      match m.data.y.unnormalizedY with
      | .error e => .error e
      | .ok y =>
        match s.predict X with
        | .error e => .error e
        | .ok f => npSub (List.ofFn y) f
  | some y =>
    match s.predict X with
    | .error e => .error e
    | .ok f => npSub y f

/-- bartpy/sklearnmodel.py:254-269 `l2_error`. -/
def l2Error (X : Option (Covariates K p)) (y : Option (List K)) : Except PyErr (List K) :=
  match s.residuals X y with
  | .error e => .error e
  | .ok l => .ok (l.map (fun x => x * x))

/-- bartpy/sklearnmodel.py:271-288 `rmse`. -/
def rmse [MathFns K] (X : Option (Covariates K p)) (y : Option (List K)) : Except PyErr (Fl K) :=
  match s.l2Error X y with
  | .error e => .error e
  | .ok l => .ok (MathFns.sqrt l.sum)

/-- bartpy/sklearnmodel.py:330-341 `prediction_samples`: the property calls itself; `limit` is Python's recursion limit. -/
def predictionSamples (s : SkModel K p) : Nat → Except PyErr (List (List K))
  | 0 => .error .recursionError
  | limit + 1 => s.predictionSamples limit

/-- bartpy/sklearnmodel.py:343-366 `from_extract`: the model afterwards and the returned model. -/
def fromExtract (extract : List (ChainOut K p)) (X : Fin n → Fin p → Fl K) (y : Fin n → K) : Except PyErr (SkModel K p × SkModel K p) :=
  let newModel := s
  match combineChains extract with
  | .error e => .error e
  | .ok c =>
    let self := { s with samples := some c }
    match convertData X y with
    | .error e => .error e
    | .ok d => .ok (self, { newModel with data := some ⟨n, d⟩ })

variable [MathFns K] [FloorRing K]

/-- bartpy/sklearnmodel.py:22-33 `run_chain`. -/
def runChain (X : Fin n → Fin p → Fl K) (y : Fin n → K) (r : Rand K) : Except PyErr (ChainOut K p) :=
  match s.constructModel X y with
  | .error e => .error e
  | .ok (_, m) =>
    match m.samples s.sampleParams s.nSamples s.nBurn r with
    | .error e => .error e
    | .ok (ch, m', _) => .ok ⟨n, m', ch⟩

/-- `Parallel(...)(self.f_delayed_chains(X, y))` (bartpy/sklearnmodel.py:141, 193, 206), one chain for each entry of the list of draws. -/
def runChains (X : Fin n → Fin p → Fl K) (y : Fin n → K) : List (Rand K) → Except PyErr (List (ChainOut K p))
  | [] => .ok []
  | r :: rs =>
    match s.runChain X y r with
    | .error e => .error e
    | .ok o =>
      match runChains X y rs with
      | .error e => .error e
      | .ok os => .ok (o :: os)

/-- bartpy/sklearnmodel.py:124-145 `fit`. Chain number `i < n_chains` gets the draws `rs i`. -/
def fit (X : Fin n → Fin p → Fl K) (y : Fin n → K) (rs : Nat → Rand K) : Except PyErr (SkModel K p) :=
  match s.constructModel X y with
  | .error e => .error e
  | .ok (d, m) =>
    match s.runChains X y ((List.range s.nChains).map rs) with
    | .error e => .error e
    | .ok extract =>
      match combineChains extract with
      | .error e => .error e
      | .ok c => .ok { s with data := some ⟨n, d⟩, model := some ⟨n, m⟩, samples := some c, extract := some extract }

/-- bartpy/sklearnmodel.py:293-298 `fit_predict`. -/
def fitPredict (X : Fin n → Fin p → Fl K) (y : Fin n → K) (rs : Nat → Rand K) : Except PyErr (List K × SkModel K p) :=
  match s.fit X y rs with
  | .error e => .error e
  | .ok s1 =>
    match s1.predict (if s1.storePredictions then none else some ⟨n, X⟩) with
    | .error e => .error e
    | .ok f => .ok (f, s1)

end SkModel

/-! ### bartpy/runner.py -/

/-- A data set. -/
structure DataSet (K : Type) (p : Nat) where
  n : Nat
  X : Fin n → Fin p → Fl K
  y : Fin n → K

/-- The loop bartpy/runner.py:21-24, from index `i` on, with the groups so far. `i % 0` raises ZeroDivisionError; the IndexError of `grouped_chains[-1]` cannot occur at `i = 0`. -/
def groupLoop {α : Type} (nChains : Nat) : Nat → List α → List (List α) → Except PyErr (List (List α))
  | _, [], groups => .ok groups
  | i, x :: xs, groups =>
    if nChains = 0 then .error .zeroDivision
    else
      let groups1 := if i % nChains = 0 then groups ++ [[]] else groups
      match groups1.getLast? with
      | none => .error .indexError
      | some g => groupLoop nChains (i + 1) xs (groups1.dropLast ++ [g ++ [x]])

/-- bartpy/runner.py:20-24. -/
def groupChains {α : Type} (nChains : Nat) (chains : List α) : Except PyErr (List (List α)) := groupLoop nChains 0 chains []

/-- The list comprehension of bartpy/runner.py:26; the model is changed by each call. -/
def fromExtracts : SkModel K p → List (List (ChainOut K p) × DataSet K p) → Except PyErr (SkModel K p × List (SkModel K p))
  | s, [] => .ok (s, [])
  | s, (chains, d) :: rest =>
    match s.fromExtract chains d.X d.y with
    | .error e => .error e
    | .ok (s1, new) =>
      match fromExtracts s1 rest with
      | .error e => .error e
      | .ok (s2, news) => .ok (s2, new :: news)

/-- bartpy/runner.py:14-26 `convert_chains_models`: the model afterwards and the returned models. -/
def convertChainsModels (s : SkModel K p) (ds : List (DataSet K p)) (chains : List (ChainOut K p)) : Except PyErr (SkModel K p × List (SkModel K p)) :=
  match groupChains s.nChains chains with
  | .error e => .error e
  | .ok groups => fromExtracts s (groups.zip ds)

variable [MathFns K] [FloorRing K]

/-- bartpy/runner.py:48-54: all the chains on all the data sets; chain `j` on data set `i` (counted from `i0`) gets the draws `rs i j`. -/
def runAll (s : SkModel K p) (rs : Nat → Nat → Rand K) : Nat → List (DataSet K p) → Except PyErr (List (ChainOut K p))
  | _, [] => .ok []
  | i, d :: ds =>
    match s.runChains d.X d.y ((List.range s.nChains).map (rs i)) with
    | .error e => .error e
    | .ok os =>
      match runAll s rs (i + 1) ds with
      | .error e => .error e
      | .ok rest => .ok (os ++ rest)

/-- bartpy/runner.py:29-55 `run_models`. -/
def runModels (s : SkModel K p) (ds : List (DataSet K p)) (rs : Nat → Nat → Rand K) : Except PyErr (SkModel K p × List (SkModel K p)) :=
  match runAll s rs 0 ds with
  | .error e => .error e
  | .ok chains => convertChainsModels s ds chains

end
end Bart
