import Verif.Model.SplitCondition
import Mathlib.Algebra.Order.Field.Basic
import Mathlib.Algebra.BigOperators.Group.Finset.Basic
import Mathlib.Data.Fintype.BigOperators

/-! Model of bartpy/data.py -/

namespace Bart

/-- bartpy/data.py:11-34 `is_not_constant`: the loop body from index `i` on, `first_value` being the second argument.
`series[i] != None` is true for every number. -/
def isNotConstantLoop {K : Type} [LinearOrder K] : List (Fl K) → Option (Fl K) → Bool
  | [], _ => false
  | x :: xs, none => isNotConstantLoop xs (some x)
  | x :: xs, some first => if Fl.ne x first then true else isNotConstantLoop xs (some first)

/-- bartpy/data.py:11-34 `is_not_constant`. `range(1, len(series))` starts at index 1. -/
def isNotConstant {K : Type} [LinearOrder K] (series : List (Fl K)) : Bool :=
  if series.length ≤ 1 then false else isNotConstantLoop (series.drop 1) none

/-- numpy `maximum` of two floats: NaN propagates. -/
def Fl.npMax {K : Type} [LinearOrder K] : Fl K → Fl K → Fl K
  | .nan, _ => .nan
  | _, .nan => .nan
  | a, b => if Fl.lt a b then b else a

/-- numpy `array.max()`: ValueError on an empty array (used at bartpy/data.py:158). -/
def npMaxList {K : Type} [LinearOrder K] : List (Fl K) → Except PyErr (Fl K)
  | [] => .error .valueError
  | x :: xs => .ok (xs.foldl Fl.npMax x)

/-- `len(np.unique(l))` (bartpy/data.py:153), NaNs counted once. -/
def npUniqueCount {K : Type} [DecidableEq K] (l : List (Fl K)) : Nat := l.dedup.length

/-- bartpy/data.py:61-91 `CovariateMatrix`: `n` rows, `p` columns. The attributes `_max_values` and `_X_column_cache` are never
read and are left out. `_unique_columns` entries are `None/True/False`. -/
structure CovariateMatrix (K : Type) (n p : Nat) where
  X : Fin n → Fin p → Fl K
  mask : Fin n → Bool
  nObsv : Int
  uniqueColumns : Fin p → Option Bool
  splittableVariables : Fin p → Option Bool
  maxValueCache : Fin p → Option (Fl K)
  xCache : Option (List (Fin p → Fl K))

namespace CovariateMatrix
variable {K : Type} [LinearOrder K] {n p : Nat}

/-- bartpy/data.py:63-91 `CovariateMatrix.__init__`. `x if x is True else None` keeps only `True` entries of the parent's
`_unique_columns`; simplification: when `_n_obsv` is a numpy integer the parent's entry is a `np.bool_`, `is True` fails and the
entry is dropped and recomputed on demand, here it is kept (by theorem C02 both give the same answers).
`x if x is False else None` keeps only `False` entries of `_splittable_variables`. -/
def init (X : Fin n → Fin p → Fl K) (mask : Fin n → Bool) (nObsv : Int)
    (uniqueColumns splittableVariables : Option (Fin p → Option Bool)) : CovariateMatrix K n p where
  X := X
  mask := mask
  nObsv := nObsv
  uniqueColumns := match uniqueColumns with
    | some u => fun i => if u i = some true then some true else none
    | none => fun _ => none
  splittableVariables := match splittableVariables with
    | some s => fun i => if s i = some false then some false else none
    | none => fun _ => none
  maxValueCache := fun _ => none
  xCache := none

/-- `self.values[~self.mask, :]` (bartpy/data.py:103): the unmasked rows in order. -/
def unmaskedRows (c : CovariateMatrix K n p) : List (Fin p → Fl K) :=
  ((List.finRange n).filter (fun r => !c.mask r)).map c.X

/-- bartpy/data.py:101-104 `get_column`; fills `_X_cache`. -/
def getColumn (c : CovariateMatrix K n p) (i : Fin p) : List (Fl K) × CovariateMatrix K n p :=
  match c.xCache with
  | some rows => (rows.map (· i), c)
  | none => (c.unmaskedRows.map (· i), { c with xCache := some c.unmaskedRows })

/-- One iteration of the loop bartpy/data.py:115-117. -/
def fillSplittable (c : CovariateMatrix K n p) (i : Fin p) : CovariateMatrix K n p :=
  match c.splittableVariables i with
  | some _ => c
  | none =>
    let r := c.getColumn i
    { r.2 with splittableVariables := Function.update r.2.splittableVariables i (some (isNotConstant r.1)) }

/-- bartpy/data.py:106-119 `splittable_variables`. -/
def splittable (c : CovariateMatrix K n p) : List (Fin p) × CovariateMatrix K n p :=
  let c' := (List.finRange p).foldl fillSplittable c
  ((List.finRange p).filter (fun i => c'.splittableVariables i == some true), c')

/-- bartpy/data.py:121-123 `n_splittable_variables`. -/
def nSplittable (c : CovariateMatrix K n p) : Nat × CovariateMatrix K n p :=
  (c.splittable.1.length, c.splittable.2)

/-- bartpy/data.py:125-129 `is_at_least_one_splittable_variable`. `any` treats `None` as false. -/
def isAtLeastOneSplittable (c : CovariateMatrix K n p) : Bool × CovariateMatrix K n p :=
  if (List.finRange p).any (fun i => c.splittableVariables i == some true) then (true, c)
  else (decide (0 < c.splittable.1.length), c.splittable.2)

/-- bartpy/data.py:131-141 `random_splittable_variable`. -/
def randomSplittableVariable (c : CovariateMatrix K n p) (u : Nat) : Except PyErr (Fin p × CovariateMatrix K n p) :=
  let r := c.isAtLeastOneSplittable
  if r.1 then
    match choice r.2.splittable.1 u with
    | .ok v => .ok (v, r.2.splittable.2)
    | .error e => .error e
  else .error .noSplittableVariable

/-- bartpy/data.py:143-154 `is_column_unique`. -/
def isColumnUnique (c : CovariateMatrix K n p) (i : Fin p) : Bool × CovariateMatrix K n p :=
  match c.uniqueColumns i with
  | some b => (b, c)
  | none =>
    let r := c.getColumn i
    let b := decide ((npUniqueCount r.1 : Int) = r.2.nObsv)
    (b, { r.2 with uniqueColumns := Function.update r.2.uniqueColumns i (some b) })

/-- bartpy/data.py:156-159 `max_value_of_column`. -/
def maxValueOfColumn (c : CovariateMatrix K n p) (i : Fin p) : Except PyErr (Fl K × CovariateMatrix K n p) :=
  match c.maxValueCache i with
  | some m => .ok (m, c)
  | none =>
    let r := c.getColumn i
    match npMaxList r.1 with
    | .ok m => .ok (m, { r.2 with maxValueCache := Function.update r.2.maxValueCache i (some m) })
    | .error e => .error e

/-- bartpy/data.py:182-185: draw from the column until the draw differs from the maximum. One draw per iteration. -/
def drawNonMax (col : List (Fl K)) (m : Fl K) : List Nat → Except PyErr (Fl K × List Nat)
  | [] => .error .outOfDraws
  | u :: us =>
    match choice col u with
    | .error e => .error e
    | .ok candidate => if Fl.eq candidate m then drawNonMax col m us else .ok (candidate, us)

/-- bartpy/data.py:161-185 `random_splittable_value`; returns the remaining draws too. -/
def randomSplittableValue (c : CovariateMatrix K n p) (i : Fin p) (draws : List Nat) :
    Except PyErr (Fl K × List Nat × CovariateMatrix K n p) :=
  let r := c.splittable
  if i ∈ r.1 then
    match r.2.maxValueOfColumn i with
    | .error e => .error e
    | .ok (m, c1) =>
      let col := c1.getColumn i
      match drawNonMax col.1 m draws with
      | .error e => .error e
      | .ok (v, rest) => .ok (v, rest, col.2)
  else .error .noSplittableVariable

/-- bartpy/data.py:187-191 `proportion_of_value_in_variable`, as a pair numerator/denominator: the unique branch is `1 / n_obsv`,
the other one is the mean of a boolean vector, i.e. count / length. -/
def proportionOfValue (c : CovariateMatrix K n p) (i : Fin p) (v : Fl K) : (Int × Int) × CovariateMatrix K n p :=
  let u := c.isColumnUnique i
  if u.1 then ((1, u.2.nObsv), u.2)
  else
    let r := u.2.getColumn i
    (((r.1.countP (fun x => Fl.eq x v) : Nat), (r.1.length : Nat)), r.2)

/-- bartpy/data.py:193-201 `update_mask`. -/
def updateMask (c : CovariateMatrix K n p) (other : SplitCondition K p) : Except PyErr (Fin n → Bool) :=
  match other.operator with
  | .gt => .ok (fun r => c.mask r || Fl.le (c.X r other.splittingVariable) other.splittingValue)
  | .le => .ok (fun r => c.mask r || Fl.gt (c.X r other.splittingVariable) other.splittingValue)
  | .other => .error .typeError

end CovariateMatrix

/-- bartpy/data.py:212-231 `Target`. `y = none` is the Python value `None` (see bartpy/model.py:47).
`originalRange` is `(original_y_min, original_y_max)`, present only if `normalize` was set.
`_inverse_mask_int` is derived from the mask. Target values are finite: NaN/inf targets are not modelled. -/
structure Target (K : Type) (n : Nat) where
  y : Option (Fin n → K)
  mask : Fin n → Bool
  nObsv : Int
  originalRange : Option (K × K)
  sumCacheUpToDate : Bool
  summedY : Option K

namespace Target
variable {K : Type} [Field K] [LinearOrder K] {n : Nat}

/-- `y.min()`: ValueError on an empty array. -/
def yMin (y : Fin n → K) : Except PyErr K :=
  match (List.finRange n).map y with
  | [] => .error .valueError
  | x :: xs => .ok (xs.foldl min x)

/-- `y.max()`: ValueError on an empty array. -/
def yMax (y : Fin n → K) : Except PyErr K :=
  match (List.finRange n).map y with
  | [] => .error .valueError
  | x :: xs => .ok (xs.foldl max x)

/-- bartpy/data.py:233-253 `normalize_y`. When all targets are equal numpy computes 0/0 = NaN in every entry; NaN targets are not
modelled, this case is reported as the error `zeroDivision` (numpy only warns). -/
def normalizeY (y : Fin n → K) : Except PyErr (Fin n → K) :=
  match yMin y, yMax y with
  | .ok lo, .ok hi => if hi - lo = 0 then .error .zeroDivision else .ok (fun r => -(1/2) + (y r - lo) / (hi - lo))
  | .error e, _ => .error e
  | _, .error e => .error e

/-- bartpy/data.py:214-231 `Target.__init__`. -/
def init (y : Fin n → K) (mask : Fin n → Bool) (nObsv : Int) (normalize : Bool) (ySum : Option K) :
    Except PyErr (Target K n) :=
  let mk := fun (y' : Fin n → K) (range : Option (K × K)) =>
    ({ y := some y', mask := mask, nObsv := nObsv, originalRange := range,
       sumCacheUpToDate := ySum.isSome, summedY := ySum } : Target K n)
  if normalize then
    match yMin y, yMax y, normalizeY y with
    | .ok lo, .ok hi, .ok y' => .ok (mk y' (some (lo, hi)))
    | .error e, _, _ => .error e
    | _, .error e, _ => .error e
    | _, _, .error e => .error e
  else .ok (mk y none)

/-- bartpy/data.py:255-258 `unnormalize_y` (per entry). AttributeError if the object was not built with `normalize`. -/
def unnormalizeY {ι : Type} (t : Target K n) (y : ι → K) : Except PyErr (ι → K) :=
  match t.originalRange with
  | none => .error .attributeError
  | some (lo, hi) => .ok (fun r => lo + (y r - (-(1/2))) * (hi - lo))

/-- bartpy/data.py:260-262 `unnormalized_y`. -/
def unnormalizedY (t : Target K n) : Except PyErr (Fin n → K) :=
  match t.y with
  | none => .error .typeError
  | some y => t.unnormalizeY y

/-- bartpy/data.py:264-266 `normalizing_scale`. -/
def normalizingScale (t : Target K n) : Except PyErr K :=
  match t.originalRange with
  | none => .error .attributeError
  | some (lo, hi) => .ok (hi - lo)

/-- bartpy/data.py:268-274 `summed_y`: `np.sum(self._y * self._inverse_mask_int)`, cached. `None * array` raises TypeError. -/
def sumY (t : Target K n) : Except PyErr (K × Target K n) :=
  if t.sumCacheUpToDate then
    match t.summedY with
    | some s => .ok (s, t)
    | none => .error .typeError
  else
    match t.y with
    | none => .error .typeError
    | some y =>
      let s := ∑ r, y r * (if t.mask r then 0 else 1)
      .ok (s, { t with summedY := some s, sumCacheUpToDate := true })

/-- bartpy/data.py:276-278 `update_y` (`none` models the Python value `None`). -/
def updateY (t : Target K n) (y : Option (Fin n → K)) : Target K n :=
  { t with y := y, sumCacheUpToDate := false }

end Target

/-- bartpy/data.py:284-322 `Data`. -/
structure Data (K : Type) (n p : Nat) where
  mask : Fin n → Bool
  nObsv : Int
  X : CovariateMatrix K n p
  y : Target K n

namespace Data
variable {K : Type} [Field K] [LinearOrder K] {n p : Nat}

/-- `(~mask).astype(int).sum()` (bartpy/data.py:317). -/
def countUnmasked (mask : Fin n → Bool) : Int := ∑ r, (if mask r then (0 : Int) else 1)

/-- bartpy/data.py:302-322 `Data.__init__`. -/
def init (X : Fin n → Fin p → Fl K) (y : Fin n → K) (mask : Option (Fin n → Bool)) (normalize : Bool)
    (uniqueColumns splittableVariables : Option (Fin p → Option Bool)) (ySum : Option K) (nObsv : Option Int) :
    Except PyErr (Data K n p) :=
  let m := mask.getD (fun _ => false)
  let k := nObsv.getD (countUnmasked m)
  match Target.init y m k normalize ySum with
  | .error e => .error e
  | .ok t => .ok { mask := m, nObsv := k, X := CovariateMatrix.init X m k uniqueColumns splittableVariables, y := t }

/-- bartpy/data.py:336-337 `Data.update_y`. -/
def updateY (d : Data K n p) (y : Option (Fin n → K)) : Data K n p := { d with y := d.y.updateY y }

/-- `data.y.summed_y()`. -/
def sumY (d : Data K n p) : Except PyErr (K × Data K n p) :=
  match d.y.sumY with
  | .error e => .error e
  | .ok (s, t) => .ok (s, { d with y := t })

/-- bartpy/data.py:339-349 `Data.__add__`. A `None` target cannot be split in a way that is ever read; it is passed on
(`Target.__init__` with `normalize=False` stores it unchanged). -/
def add (d : Data K n p) (other : SplitCondition K p) : Except PyErr (Data K n p) :=
  match d.X.updateMask other with
  | .error e => .error e
  | .ok m =>
    let k := other.carryNObsv.getD (countUnmasked m)
    .ok { mask := m, nObsv := k
          X := CovariateMatrix.init d.X.X m k (some d.X.uniqueColumns) (some d.X.splittableVariables)
          y := { y := d.y.y, mask := m, nObsv := k, originalRange := none,
                 sumCacheUpToDate := other.carryYSum.isSome, summedY := other.carryYSum } }

end Data
end Bart
