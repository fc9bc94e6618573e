import Verif.Model.Sklearn
import Mathlib.Data.List.Sort

/-! Model of bartpy/diagnostics/features.py, bartpy/features/featureselection.py and bartpy/features/featureimportance.py (without the plots).

* A dict is the list of its items in the order of insertion; each key occurs once.
* `np.random.permutation(y)` is `y` after a permutation of the rows, which is an input; so are the folds of `KFold.split`.
* `deepcopy(model)` gives an equal model; `SkModel` is a value, so no copy is needed. -/

namespace Bart

/-! ### dicts -/

namespace Dict
variable {κ α : Type} [DecidableEq κ]

/-- `d[k]`, `none` for a KeyError. -/
def get? : List (κ × α) → κ → Option α
  | [], _ => none
  | (k, v) :: d, k' => if k = k' then some v else get? d k'

/-- `d[k] = v`. -/
def set : List (κ × α) → κ → α → List (κ × α)
  | [], k', v' => [(k', v')]
  | (k, v) :: d, k', v' => if k = k' then (k, v') :: d else (k, v) :: set d k' v'

/-- `d.keys()`. -/
def keys (d : List (κ × α)) : List κ := d.map Prod.fst

end Dict

section
variable {K : Type} [Field K] [LinearOrder K] {n p : Nat}

/-! ### bartpy/diagnostics/features.py -/

/-- bartpy/diagnostics/features.py:18-23: the list `split_variables`. -/
def splitVariables (xs : List (Sample K p)) : List (Option (Fin p)) :=
  xs.flatMap (fun x => x.trees.flatMap (fun t => t.nodes.map (fun i => (t.heap.node i).split.combined.splittingVariable)))

/-- bartpy/diagnostics/features.py:16-35 `feature_split_proportions`, for the list `model_samples`. The keys of the counter that are not None, sorted, are the columns that
occur, in increasing order. -/
def featureSplitProportions (xs : List (Sample K p)) (columns : Option (List (Fin p))) : List (Fin p × K) :=
  let vars := splitVariables xs
  let columns :=
    match columns with
    | none => (List.finRange p).filter (fun j => vars.contains (some j))
    | some l => l
  columns.foldl (fun d j => Dict.set d j (if vars.contains (some j) then (vars.count (some j) : K) / (vars.length : K) else 0)) []

/-- The same for a `SklearnModel`; iterating over `None` is a TypeError. -/
def SkModel.featureSplitProportions (s : SkModel K p) (columns : Option (List (Fin p))) : Except PyErr (List (Fin p × K)) :=
  match s.samples with
  | none => .error .typeError
  | some c => .ok (Bart.featureSplitProportions c.models columns)

/-- bartpy/diagnostics/features.py:89-90: `inclusion_dict[key].append(value)` for all items of `splits_run`. -/
def appendAll (inclusion : List (Fin p × List K)) : List (Fin p × K) → Except PyErr (List (Fin p × List K))
  | [] => .ok inclusion
  | (j, v) :: rest =>
    match Dict.get? inclusion j with
    | none => .error .keyError
    | some l => appendAll (Dict.set inclusion j (l ++ [v])) rest

/-- The loop bartpy/diagnostics/features.py:87-90. -/
def nullLoop : List (Fin p × List K) → List (SkModel K p) → Except PyErr (List (Fin p × List K))
  | inclusion, [] => .ok inclusion
  | inclusion, m :: ms =>
    match m.featureSplitProportions (some (List.finRange p)) with
    | .error e => .error e
    | .ok d =>
      match appendAll inclusion d with
      | .error e => .error e
      | .ok inclusion1 => nullLoop inclusion1 ms

/-- bartpy/diagnostics/features.py:54-92 `null_feature_split_proportions_distribution`: the distribution and the model afterwards (`run_models` changes it). -/
def nullFeatureSplitProportions [MathFns K] [FloorRing K] (s : SkModel K p) (X : Fin n → Fin p → Fl K) (y : Fin n → K) (perms : List (Equiv.Perm (Fin n)))
    (rs : Nat → Nat → Rand K) : Except PyErr (List (Fin p × List K) × SkModel K p) :=
  match runModels s (perms.map (fun π => ⟨n, X, fun r => y (π r)⟩)) rs with
  | .error e => .error e
  | .ok (s1, fits) =>
    match nullLoop ((List.finRange p).map (fun j => (j, []))) fits with
    | .error e => .error e
    | .ok d => .ok (d, s1)

/-- `np.percentile(l, q)`: linear interpolation between the order statistics; `q` is in percent. ValueError for `q` outside of 0..100, IndexError for an empty list (older
versions of numpy give NaN). -/
def percentile [FloorRing K] (l : List K) (q : K) : Except PyErr K :=
  if q < 0 ∨ 100 < q then .error .valueError
  else if l.length = 0 then .error .indexError
  else
    let a := l.insertionSort (· ≤ ·)
    let v := q / 100 * ((l.length : K) - 1)
    let i := ⌊v⌋.toNat
    .ok (a.getD i 0 + (a.getD (min (i + 1) (l.length - 1)) 0 - a.getD i 0) * (v - (i : K)))

/-- bartpy/diagnostics/features.py:106-129 `local_thresholds`. -/
def localThresholds {κ : Type} [FloorRing K] (null : List (κ × List K)) (q : K) : Except PyErr (List (κ × K)) :=
  null.mapM (fun x => (percentile x.2 q).map (fun t => (x.1, t)))

/-- bartpy/diagnostics/features.py:132-161 `global_thresholds`: a DataFrame has no attribute `iter_rows`. (Lists of different lengths are a ValueError before; the null
distributions that occur have lists of equal lengths.) -/
def globalThresholds {κ : Type} (_null : List (κ × List K)) (_q : K) : Except PyErr (List (κ × K)) := .error .attributeError

section kept
variable {κ : Type} [LinearOrder κ]

/-- bartpy/diagnostics/features.py:183-201 `is_kept` (the print is left out). -/
def isKept (props thresholds : List (κ × K)) : Except PyErr (List Bool) :=
  ((Dict.keys props).insertionSort (· ≤ ·)).mapM (fun f =>
    match Dict.get? props f, Dict.get? thresholds f with
    | some a, some b => .ok (decide (b < a))
    | _, _ => .error .keyError)

/-- bartpy/diagnostics/features.py:164-180 `kept_features`. -/
def keptFeatures (props thresholds : List (κ × K)) : Except PyErr (List κ) :=
  match isKept props thresholds with
  | .error e => .error e
  | .ok bs => .ok ((((Dict.keys props).insertionSort (· ≤ ·)).zip bs).filterMap (fun x => if x.2 then some x.1 else none))

/-- bartpy/diagnostics/features.py:204-208 `partition_into_passed_and_failed_features`. -/
def partitionFeatures (props thresholds : List (κ × K)) : Except PyErr (List (κ × K) × List (κ × K)) :=
  match keptFeatures props thresholds with
  | .error e => .error e
  | .ok kept => .ok (props.filter (fun x => kept.contains x.1), props.filter (fun x => !kept.contains x.1))

end kept

/-! ### bartpy/features/featureselection.py -/

section select
variable [MathFns K] [FloorRing K]

/-- bartpy/features/featureselection.py:14-26 `SelectSplitProportionThreshold.fit` on the model `s`: the attributes `model` and `feature_proportions`. -/
def selectProportionFit (s : SkModel K p) (X : Fin n → Fin p → Fl K) (y : Fin n → K) (rs : Nat → Rand K) : Except PyErr (SkModel K p × List (Fin p × K)) :=
  match s.fit X y rs with
  | .error e => .error e
  | .ok s1 =>
    match s1.featureSplitProportions none with
    | .error e => .error e
    | .ok d => .ok (s1, d)

/-- bartpy/features/featureselection.py:28-29 `SelectSplitProportionThreshold._get_support_mask`. -/
def selectProportionMask (props : List (Fin p × K)) (threshold : K) : List Bool := props.map (fun x => decide (threshold < x.2))

/-- The attributes of a fitted `SelectNullDistributionThreshold` (bartpy/features/featureselection.py:56-62). -/
structure NullSelector (K : Type) (p : Nat) where
  model : SkModel K p
  nullDistribution : List (Fin p × List K)
  thresholds : List (Fin p × K)
  featureProportions : List (Fin p × K)

/-- bartpy/features/featureselection.py:38-54 `SelectNullDistributionThreshold.__init__`: the model that is used. -/
def nullSelectorModel (s : SkModel K p) (nTrees : Option Nat) : SkModel K p :=
  match nTrees with
  | none => s
  | some k => { s with nTrees := k }

/-- bartpy/features/featureselection.py:56-62 `SelectNullDistributionThreshold.fit`, for the method `thresholds` (`local_thresholds` or `global_thresholds`). The fit uses the
draws `rs`, the runs on permuted targets the draws `rs'`. -/
def nullSelectorFit (method : List (Fin p × List K) → K → Except PyErr (List (Fin p × K))) (s : SkModel K p) (q : K) (X : Fin n → Fin p → Fl K) (y : Fin n → K)
    (perms : List (Equiv.Perm (Fin n))) (rs : Nat → Rand K) (rs' : Nat → Nat → Rand K) : Except PyErr (NullSelector K p) :=
  match s.fit X y rs with
  | .error e => .error e
  | .ok s1 =>
    match nullFeatureSplitProportions s1 X y perms rs' with
    | .error e => .error e
    | .ok (null, s2) =>
      match method null q with
      | .error e => .error e
      | .ok th =>
        match s2.featureSplitProportions none with
        | .error e => .error e
        | .ok d => .ok ⟨s2, null, th, d⟩

/-- bartpy/features/featureselection.py:64-65 `SelectNullDistributionThreshold._get_support_mask`. -/
def NullSelector.mask (f : NullSelector K p) : Except PyErr (List Bool) := isKept f.featureProportions f.thresholds

/-! ### bartpy/features/featureimportance.py -/

/-- `X[index]`. -/
def rowsAt (X : Fin n → Fin p → Fl K) (index : List (Fin n)) : Covariates K p := ⟨index.length, fun r => X index[r]⟩

/-- `y[index]`. -/
def targetAt (y : Fin n → K) (index : List (Fin n)) : List K := index.map y

/-- `model.fit(X[index], y[index])`. -/
def SkModel.fitAt (s : SkModel K p) (X : Fin n → Fin p → Fl K) (y : Fin n → K) (index : List (Fin n)) (rs : Nat → Rand K) : Except PyErr (SkModel K p) :=
  s.fit (rowsAt X index).entry (fun r => y index[r]) rs

/-- bartpy/features/featureimportance.py:37-40: the loop of `original_model_rmse` over the folds `(train_index, test_index)`. Each fit starts from a copy of the model fitted last. -/
def originalModelRmse (X : Fin n → Fin p → Fl K) (y : Fin n → K) (rs : Nat → Nat → Rand K) : Nat → SkModel K p → List (List (Fin n) × List (Fin n)) → Except PyErr (List (Fl K))
  | _, _, [] => .ok []
  | i, s, (train, test) :: folds =>
    match s.fitAt X y train (rs i) with
    | .error e => .error e
    | .ok s1 =>
      match s1.rmse (some (rowsAt X test)) (some (targetAt y test)) with
      | .error e => .error e
      | .ok v =>
        match originalModelRmse X y rs (i + 1) s1 folds with
        | .error e => .error e
        | .ok vs => .ok (v :: vs)

/-- bartpy/features/featureimportance.py:88-89: `X` with column `j` permuted. -/
def permuteColumn (X : Fin n → Fin p → Fl K) (j : Fin p) (π : Equiv.Perm (Fin n)) : Fin n → Fin p → Fl K := fun r v => if v = j then X (π r) v else X r v

/-- A run of `null_rmse_distribution`: a fold and a permutation. -/
structure NullRun (n : Nat) where
  train : List (Fin n)
  test : List (Fin n)
  perm : Equiv.Perm (Fin n)

/-- The data set on which run number `i` is fitted (bartpy/features/featureimportance.py:90, 92). -/
def NullRun.dataSet (a : NullRun n) (X : Fin n → Fin p → Fl K) (y : Fin n → K) (j : Fin p) : DataSet K p :=
  ⟨a.train.length, (rowsAt (permuteColumn X j a.perm) a.train).entry, fun r => y a.train[r]⟩

/-- bartpy/features/featureimportance.py:97-100: line 91 takes the rows of the test matrix with `train_index`, line 93 those of the test target with `test_index`. `zip` stands for the
indexing `permuted_test_X_s[i]`; there are as many models as runs. -/
def nullRmses (X : Fin n → Fin p → Fl K) (y : Fin n → K) (j : Fin p) : List (SkModel K p × NullRun n) → Except PyErr (List (Fl K))
  | [] => .ok []
  | (m, a) :: rest =>
    match m.rmse (some (rowsAt (permuteColumn X j a.perm) a.train)) (some (targetAt y a.test)) with
    | .error e => .error e
    | .ok v =>
      match nullRmses X y j rest with
      | .error e => .error e
      | .ok vs => .ok (v :: vs)

/-- bartpy/features/featureimportance.py:45-100 `null_rmse_distribution`; `runs` lists the folds and permutations of the loops 86-93 in order. -/
def nullRmseDistribution (s : SkModel K p) (X : Fin n → Fin p → Fl K) (y : Fin n → K) (j : Fin p) (runs : List (NullRun n)) (rs : Nat → Nat → Rand K) :
    Except PyErr (List (Fl K)) :=
  match runModels s (runs.map (fun a => a.dataSet X y j)) rs with
  | .error e => .error e
  | .ok (_, fits) => nullRmses X y j (fits.zip runs)

end select
end
end Bart
