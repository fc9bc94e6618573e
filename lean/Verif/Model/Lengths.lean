import Verif.Model.Sklearn
import Mathlib.Logic.Equiv.Fin.Basic

/-! Model of `fit(X, y)` for a target that has another length than the table. The mask has the length of the target (bartpy/data.py:312-313), the rows of the table are selected with it
(bartpy/data.py:103). In Verif/Model/Data.lean both have the same length; here they are lists. Only whether `fit` returns or raises is modelled. -/

namespace Bart.Lengths
open Bart
variable {K : Type} [Field K] [LinearOrder K] {p : Nat}

/-- numpy `X[b, :]` with a boolean array `b`: IndexError unless `b` has one entry for each row of `X` (used at bartpy/data.py:103). -/
def boolRows (X : List (Fin p → Fl K)) (b : List Bool) : Except PyErr (List (Fin p → Fl K)) :=
  if b.length = X.length then .ok (((X.zip b).filter (fun q => q.2)).map (fun q => q.1)) else .error .indexError

/-- bartpy/data.py:312-313: the mask of a new `Data`, `np.zeros_like(y).astype(bool)`. -/
def newMask (y : List K) : List Bool := y.map (fun _ => false)

/-- bartpy/data.py:101-104 `get_column`. -/
def getColumn (X : List (Fin p → Fl K)) (mask : List Bool) (i : Fin p) : Except PyErr (List (Fl K)) :=
  match boolRows X (mask.map (!·)) with
  | .error e => .error e
  | .ok rows => .ok (rows.map (· i))

/-- bartpy/data.py:115-119: the loop of `splittable_variables` over the given columns. -/
def splittableOf (X : List (Fin p → Fl K)) (mask : List Bool) : List (Fin p) → Except PyErr (List (Fin p))
  | [] => .ok []
  | i :: is =>
    match getColumn X mask i with
    | .error e => .error e
    | .ok col =>
      match splittableOf X mask is with
      | .error e => .error e
      | .ok l => .ok (if isNotConstant col then i :: l else l)

/-- bartpy/data.py:125-129 `is_at_least_one_splittable_variable` of a new `Data` (nothing is cached), which is `is_splittable` (bartpy/node.py:65-66) of the only leaf of a new tree. -/
def isAtLeastOneSplittable (X : List (Fin p → Fl K)) (y : List K) : Except PyErr Bool :=
  match splittableOf X (newMask y) (List.finRange p) with
  | .error e => .error e
  | .ok l => .ok (decide (0 < l.length))

/-- bartpy/samplers/unconstrainedtree/proposer.py:43-73 `propose` for a tree with a single leaf, until the leaf to split is found. A prune move raises NoPrunableNodeException, a grow move on a leaf that
cannot be split NoSplittableVariableException; both are caught. The result is the list of moves that were not drawn. -/
def proposeRoot (X : List (Fin p → Fl K)) (y : List K) : List Method → Except PyErr (List Method)
  | [] => .error .outOfDraws
  | .prune :: ms => proposeRoot X y ms
  | .grow :: ms =>
    match isAtLeastOneSplittable X y with
    | .error e => .error e
    | .ok false => proposeRoot X y ms
    | .ok true => .ok ms

variable [MathFns K] [FloorRing K]

/-- bartpy/sklearnmodel.py:124-145 `fit` for a table and a target of any length: an exception, or nothing if it returns. If the lengths agree it is the model of Verif/Model/Sklearn.lean. Otherwise:
`_construct_model` (bartpy/sklearnmodel.py:163-174) raises ValueError for an empty table, `y.min()` (bartpy/data.py:217) for an empty target; the model and its trees are built from the target alone
(bartpy/model.py:29-50). `_combine_chains` (bartpy/sklearnmodel.py:149) needs a chain. `1. / thin` is computed after the burn-in (bartpy/samplers/modelsampler.py:42-49). A sweep over no trees does not
use the table, so the fit is that on any table with as many rows as the target. A sweep begins with a move for the first tree (bartpy/samplers/schedule.py:50-51; before it only the target and the length
of the target are used: bartpy/model.py:71-76, bartpy/tree.py:76-91). The last branch cannot be reached (`C129_raises_partial` does not mention its value). -/
def fit (s : SkModel K p) (X : List (Fin p → Fl K)) (y : List K) (rs : Nat → Rand K) : Except PyErr Unit :=
  if h : X.length = y.length then
    match s.fit (fun r : Fin y.length => X[r.val]'(by rw [h]; exact r.2)) (fun r => y[r.val]) rs with
    | .error e => .error e
    | .ok _ => .ok ()
  else if X.length = 0 ∨ p = 0 then .error .valueError
  else if y.length = 0 then .error .valueError
  else if s.nChains = 0 then .error .indexError
  else if s.nBurn = 0 ∧ s.thin = 0 then .error .zeroDivision
  else if s.nBurn + s.nSamples = 0 then .ok ()
  else if s.nTrees = 0 then
    match s.fit (fun (_ : Fin y.length) => X.headD (fun _ => .nan)) (fun r => y[r.val]) rs with
    | .error e => .error e
    | .ok _ => .ok ()
  else
    match proposeRoot X y (rs 0).methods with
    | .error e => .error e
    | .ok _ => .ok ()

/-- numpy `a[b] = v` with a boolean array `b`: IndexError unless the shape of `b` is a prefix of that of `a`. -/
def assignWhere (shape mask : List Nat) : Except PyErr Unit := if mask.isPrefixOf shape then .ok () else .error .indexError

/-- bartpy/tree.py:76-93 `predict` of a tree with a single leaf, for a target of the given shape: an array with one entry for each entry of the target (bartpy/data.py:317: `n_obsv` counts the entries of the
mask, which has the shape of the target) is filled where the mask says so. -/
def predictRoot (shape : List Nat) : Except PyErr Unit := assignWhere [shape.prod] shape

/-- bartpy/sklearnmodel.py:124-145 `fit` for a target with rows and columns, as `fit` above: the model is built from the target alone; a sweep begins with the prediction of the first tree
(bartpy/model.py:71-72, 58). With no trees, only the number of entries of the target and sums over them are used (bartpy/samplers/sigma.py:16-19), so the fit is that of the entries in one column. The last
branch cannot be reached. -/
def fitColumns (s : SkModel K p) {m q : Nat} (X : List (Fin p → Fl K)) (y : Fin m → Fin q → K) (rs : Nat → Rand K) : Except PyErr Unit :=
  if X.length = 0 ∨ p = 0 then .error .valueError
  else if m * q = 0 then .error .valueError
  else if s.nChains = 0 then .error .indexError
  else if s.nBurn = 0 ∧ s.thin = 0 then .error .zeroDivision
  else if s.nBurn + s.nSamples = 0 then .ok ()
  else if s.nTrees = 0 then
    match s.fit (fun (_ : Fin (m * q)) => X.headD (fun _ => .nan)) (fun r => y (finProdFinEquiv.symm r).1 (finProdFinEquiv.symm r).2) rs with
    | .error e => .error e
    | .ok _ => .ok ()
  else
    match predictRoot [m, q] with
    | .error e => .error e
    | .ok _ => .ok ()

end Bart.Lengths
