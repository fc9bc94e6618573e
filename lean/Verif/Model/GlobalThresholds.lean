import Verif.Model.Features

/-! The body of `global_thresholds` (bartpy/diagnostics/features.py:132-161), for a DataFrame class with given attributes. `globalThresholds` in `Model/Features.lean` is the result that the real class leads to. -/

namespace Bart
variable {K : Type} [Field K] [LinearOrder K]

/-- The methods of `pandas.DataFrame` that iterate over its entries. -/
def dataFrameIterators : List String := ["items", "iterrows", "itertuples"]

/-- `np.max(row)` (bartpy/diagnostics/features.py:159), where `row` holds the entries of one row; ValueError without entries. -/
def rowMax : List K → Except PyErr K
  | [] => .error .valueError
  | a :: l => .ok (l.foldl max a)

/-- The rows of `pd.DataFrame(null_distributions)` (bartpy/diagnostics/features.py:157): one row per permuted model, with one entry per feature. Columns of different lengths are a ValueError. -/
def frameRows {κ : Type} (null : List (κ × List K)) : Except PyErr (List (List K)) :=
  match null with
  | [] => .ok []
  | x :: _ =>
    if null.all (fun z => z.2.length == x.2.length) then .ok ((List.range x.2.length).map (fun i => null.map (fun z => z.2.getD i 0)))
    else .error .valueError

/-- bartpy/diagnostics/features.py:156-161: the body of `global_thresholds`, for a DataFrame class with the given iterators. (If `iter_rows` existed, it would yield the rows.) -/
def globalThresholdsWith [FloorRing K] {κ : Type} (iterators : List String) (null : List (κ × List K)) (q : K) : Except PyErr (List (κ × K)) :=
  match frameRows null with
  | .error e => .error e
  | .ok rows =>
    if "iter_rows" ∈ iterators then
      match rows.mapM rowMax with
      | .error e => .error e
      | .ok qs =>
        match percentile qs q with
        | .error e => .error e
        | .ok t => .ok (null.map (fun x => (x.1, t)))
    else .error .attributeError

end Bart
