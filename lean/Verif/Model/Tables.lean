import Verif.Model.Features

/-! Model of what the code does with tables that are not arrays with the right number of columns: `predict` with another number of columns than in `fit`, pandas DataFrames, and the conversion functions of
bartpy/data.py. -/

namespace Bart
variable {K : Type} [Field K] [LinearOrder K] {n p q : Nat}

/-! ### another number of columns -/

/-- One iteration of the loop bartpy/splitcondition.py:71-72 on a matrix with `m` rows and `q` columns: IndexError if there is no column `v`. -/
def CombinedCondition.condStep {m : Nat} (c : CombinedCondition K p) (X : Fin m → Fin q → Fl K) (acc : Fin m → Bool) (v : Fin p) : Except PyErr (Fin m → Bool) :=
  if h : v.val < q then .ok (fun r => acc r && Fl.gt (X r ⟨v.val, h⟩) (c.variables v).minValue && Fl.le (X r ⟨v.val, h⟩) (c.variables v).maxValue)
  else .error .indexError

/-- bartpy/splitcondition.py:69-73 `CombinedCondition.condition` on a matrix with `q` columns. -/
def CombinedCondition.conditionOn {m : Nat} (c : CombinedCondition K p) (X : Fin m → Fin q → Fl K) : Except PyErr (Fin m → Bool) :=
  (List.finRange p).foldlM (c.condStep X) (fun _ => true)

/-- bartpy/tree.py:107-110: one leaf. -/
def Tree.predictStep {m : Nat} (t : Tree K n p) (X : Fin m → Fin q → Fl K) (pred : Fin m → K) (i : NodeId) : Except PyErr (Fin m → K) :=
  match (t.heap.node i).split.combined.conditionOn X with
  | .error e => .error e
  | .ok c => .ok (fun r => if c r then (t.heap.node i).value else pred r)

/-- bartpy/tree.py:93-110 `_out_of_sample_predict` on a matrix with `q` columns. -/
def Tree.predictOn {m : Nat} (t : Tree K n p) (X : Fin m → Fin q → Fl K) : Except PyErr (Fin m → K) := t.leafNodes.foldlM (t.predictStep X) (fun _ => 0)

/-- bartpy/model.py:61-65 for an entry of `model_samples`. -/
def Sample.predictOn {m : Nat} (x : Sample K p) (X : Fin m → Fin q → Fl K) : Except PyErr (List K) :=
  match x.trees.mapM (fun t => t.predictOn X) with
  | .error e => .error e
  | .ok fs => .ok (List.ofFn (fun r => (fs.map (fun f => f r)).sum))

/-- bartpy/sklearnmodel.py:290-291 `_out_of_sample_predict` on a matrix with `q` columns. -/
def SkModel.predictOn {m : Nat} (s : SkModel K p) (X : Fin m → Fin q → Fl K) : Except PyErr (List K) :=
  match s.data with
  | none => .error .attributeError
  | some ⟨_, d⟩ =>
    match s.samples with
    | none => .error .typeError
    | some c =>
      match c.models.mapM (fun x => x.predictOn X) with
      | .error e => .error e
      | .ok rows =>
        match meanRows rows with
        | .error e => .error e
        | .ok l => unnormalizeList d l

/-! ### DataFrames -/

/-- A covariate table: a two-dimensional numpy array, or a DataFrame whose columns have distinct strings as labels (DataFrames with other labels are not modelled). -/
inductive Table (K : Type) (n p : Nat) where
  | array (entry : Fin n → Fin p → Fl K)
  | frame (labels : Fin p → String) (entry : Fin n → Fin p → Fl K)

/-- bartpy/data.py:37-41 `ensure_numpy_array`, and the same lines in bartpy/sklearnmodel.py:158-160, bartpy/model.py:62-64, bartpy/data.py:70-72. -/
def Table.values : Table K n p → (Fin n → Fin p → Fl K)
  | .array X => X
  | .frame _ X => X

/-- bartpy/data.py:44-45, 48-50 `ensure_float_array` and `format_covariate_matrix`: numbers are exact here, so that `astype(float)` changes nothing. -/
def formatCovariateMatrix (T : Table K n p) : Fin n → Fin p → Fl K := T.values

/-- bartpy/data.py:53-58 `make_bartpy_data`. -/
def makeBartpyData (T : Table K n p) (y : Fin n → K) (normalize : Bool) : Except PyErr (Data K n p) := Data.init (formatCovariateMatrix T) y none normalize none none none none

/-- `fit` with a table: `len(X)` and `X.shape` work for both kinds, everything else is done with the values (bartpy/sklearnmodel.py:124-174). -/
def SkModel.fitTable [MathFns K] [FloorRing K] (s : SkModel K p) (T : Table K n p) (y : Fin n → K) (rs : Nat → Rand K) : Except PyErr (SkModel K p) := s.fit T.values y rs

/-- `predict` with a table (bartpy/sklearnmodel.py:230-231, 290-291, bartpy/model.py:61-65). -/
def SkModel.predictTable (s : SkModel K p) {m : Nat} (T : Table K m q) : Except PyErr (List K) := s.predictOn T.values

section
variable [MathFns K] [FloorRing K]

/-- bartpy/features/featureimportance.py:37-40 for a table. For a DataFrame `X[train_index]` means the columns with these labels; a label that does not exist is a KeyError. Without any labels the result is a DataFrame
without columns, which `fit` rejects (bartpy/sklearnmodel.py:164-165). -/
def originalModelRmseTable (T : Table K n p) (y : Fin n → K) (rs : Nat → Nat → Rand K) (s : SkModel K p) (folds : List (List (Fin n) × List (Fin n))) : Except PyErr (List (Fl K)) :=
  match T with
  | .array X => originalModelRmse X y rs 0 s folds
  | .frame _ _ =>
    match folds with
    | [] => .ok []
    | ([], _) :: _ => .error .valueError
    | (_ :: _, _) :: _ => .error .keyError

/-- bartpy/features/featureimportance.py:45-100 for a table: `permuted_X[:, variable]` on a DataFrame is a TypeError (in newer versions of pandas InvalidIndexError), as soon as there is a fold and a permutation. -/
def nullRmseDistributionTable (s : SkModel K p) (T : Table K n p) (y : Fin n → K) (j : Fin p) (runs : List (NullRun n)) (rs : Nat → Nat → Rand K) : Except PyErr (List (Fl K)) :=
  match T with
  | .array X => nullRmseDistribution s X y j runs rs
  | .frame _ X => if runs = [] then nullRmseDistribution s X y j runs rs else .error .typeError

/-- bartpy/features/featureimportance.py:103-144 `feature_importance`: `folds` are those of `original_model_rmse`, `runs` the folds and permutations of `null_rmse_distribution` (each shuffles on its own), `rs1` and `rs2`
the draws. The histogram is left out. -/
def featureImportance (s : SkModel K p) (T : Table K n p) (y : Fin n → K) (j : Fin p) (folds : List (List (Fin n) × List (Fin n))) (runs : List (NullRun n)) (rs1 rs2 : Nat → Nat → Rand K) :
    Except PyErr (List (Fl K) × List (Fl K)) :=
  match originalModelRmseTable T y rs1 s folds with
  | .error e => .error e
  | .ok a =>
    match nullRmseDistributionTable s T y j runs rs2 with
    | .error e => .error e
    | .ok b => .ok (a, b)

end
end Bart
