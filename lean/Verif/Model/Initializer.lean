import Verif.Model.BartModel

/-! Model of bartpy/initializers/initializer.py and bartpy/initializers/sklearntreeinitializer.py. -/

namespace Bart

/-- `l[k]` of a Python list or array: negative numbers count from the end. -/
def pyIndex (len : Nat) (k : Int) : Except PyErr Nat :=
  if 0 ≤ k ∧ k < len then .ok k.toNat
  else if k < 0 ∧ -(len : Int) ≤ k then .ok (k + len).toNat
  else .error .indexError

/-- `l[k]`. -/
def pyGet {α : Type} (l : List α) (k : Int) : Except PyErr α :=
  match pyIndex l.length k with
  | .error e => .error e
  | .ok i =>
    match l[i]? with
    | none => .error .indexError
    | some x => .ok x

/-- `l[k] = x`. -/
def pySet {α : Type} (l : List α) (k : Int) (x : α) : Except PyErr (List α) :=
  match pyIndex l.length k with
  | .error e => .error e
  | .ok i => .ok (l.set i x)

/-- The entries of the arrays `children_left`, `children_right`, `feature`, `threshold` and `value[.][0][0]` of an sklearn tree at one position. `feature` is
`none` where sklearn stores -2 (leaves). Simplification: the arrays have the same length, so they are one list of records. -/
structure SkNode (K : Type) (p : Nat) where
  left : Int
  right : Int
  feature : Option (Fin p)
  threshold : Fl K
  value : K

section
variable {K : Type} [Field K] [LinearOrder K] {n p : Nat}

/-- bartpy/initializers/sklearntreeinitializer.py:44-60 `map_sklearn_split_into_bartpy_split_conditions`. Simplification: for the feature -2 of a leaf, where the
code would take the last but one column, this is an IndexError (the function is never called for a leaf). -/
def mapSklearnSplit (nd : SkNode K p) : Except PyErr (SplitCondition K p × SplitCondition K p) :=
  match nd.feature with
  | none => .error .indexError
  | some j => .ok ({ splittingVariable := j, splittingValue := nd.threshold, operator := .le }, { splittingVariable := j, splittingValue := nd.threshold, operator := .gt })

/-- bartpy/initializers/sklearntreeinitializer.py:76-85: splits the node, sets the values of the new leaves and applies the mutation; returns the decision node. -/
def mapSklearnNode (a : List (SkNode K p)) (nd : SkNode K p) (i : NodeId) (t : Tree K n p) : Except PyErr (NodeId × Tree K n p) :=
  match mapSklearnSplit nd with
  | .error e => .error e
  | .ok (c0, c1) =>
    match t.heap.splitNode i c0 c1 with
    | .error e => .error e
    | .ok (d, h) =>
      match Tree.childOf (h.node d).left, Tree.childOf (h.node d).right with
      | .ok l, .ok r =>
        match pyGet a nd.left, pyGet a nd.right with
        | .ok ndl, .ok ndr =>
          let h1 := (h.setValue l ndl.value).setValue r ndr.value
          match Tree.growMutation h1 i d with
          | .error e => .error e
          | .ok m =>
            match ({ t with heap := h1 } : Tree K n p).mutate m with
            | .error e => .error e
            | .ok t1 => .ok (d, t1)
        | .error e, _ => .error e
        | _, .error e => .error e
      | .error e, _ => .error e
      | _, .error e => .error e

/-- bartpy/initializers/sklearntreeinitializer.py:67-92 `search`; `nodes` is the list of line 64. Recursion depth bounded by `fuel`. -/
def mapSklearnSearch (a : List (SkNode K p)) : Nat → Int → Tree K n p → List (Option NodeId) → Except PyErr (Tree K n p × List (Option NodeId))
  | 0, _, _, _ => .error .recursionError
  | fuel + 1, index, t, nodes =>
    match pyGet a index with
    | .error e => .error e
    | .ok nd =>
      if nd.left = -1 then .ok (t, nodes)
      else
        match pyGet nodes index with
        | .error e => .error e
        | .ok none => .error .attributeError
        | .ok (some i) =>
          match mapSklearnNode a nd i t with
          | .error e => .error e
          | .ok (d, t1) =>
            match pySet nodes index (some d) with
            | .error e => .error e
            | .ok nodes1 =>
              match pySet nodes1 nd.left (t1.heap.node d).left with
              | .error e => .error e
              | .ok nodes2 =>
                match pySet nodes2 nd.right (t1.heap.node d).right with
                | .error e => .error e
                | .ok nodes3 =>
                  match mapSklearnSearch a fuel nd.left t1 nodes3 with
                  | .error e => .error e
                  | .ok (t2, nodes4) => mapSklearnSearch a fuel nd.right t2 nodes4

/-- bartpy/initializers/sklearntreeinitializer.py:63-94 `map_sklearn_tree_into_bartpy`. The recursion gets one unit of fuel per entry of the arrays. -/
def mapSklearnTree (t : Tree K n p) (a : List (SkNode K p)) : Except PyErr (Tree K n p) :=
  match t.nodes with
  | [] => .error .indexError
  | i :: _ =>
    match pySet (a.map (fun _ => (none : Option NodeId))) 0 (some i) with
    | .error e => .error e
    | .ok nodes =>
      match mapSklearnSearch a a.length 0 t nodes with
      | .error e => .error e
      | .ok (t1, _) => .ok t1

/-- The attributes of a `CovariateMatrix` object (bartpy/data.py:63-227: those set in `__init__`, the properties and the methods). -/
def covariateMatrixAttributes : List String :=
  ["_X", "_n_obsv", "_n_features", "_mask", "_unique_columns", "_splittable_variables", "_max_values", "_X_column_cache", "_max_value_cache", "_X_cache",
   "mask", "values", "get_column", "splittable_variables", "n_splittable_variables", "is_at_least_one_splittable_variable", "random_splittable_variable",
   "is_column_unique", "max_value_of_column", "random_splittable_value", "proportion_of_value_in_variable", "update_mask", "variables", "n_obsv"]

/-- Reading an attribute: AttributeError if the object does not have it. -/
def getAttribute (attributes : List String) (name : String) : Except PyErr Unit :=
  if name ∈ attributes then .ok () else .error .attributeError

/-- bartpy/initializers/sklearntreeinitializer.py:28-41 `initialize_tree`. `fit` stands for lines 30-40 and what sklearn does, given the rows and the target of the
first node; line 39 reads the attribute `data` of the covariates. -/
def sklearnInitializeTree (fit : Data K n p → Except PyErr (List (SkNode K p))) (t : Tree K n p) : Except PyErr (Tree K n p) :=
  match t.nodes with
  | [] => .error .indexError
  | i :: _ =>
    match getAttribute covariateMatrixAttributes "data" with
    | .error e => .error e
    | .ok () =>
      match fit (t.heap.dataOf i) with
      | .error e => .error e
      | .ok a => mapSklearnTree t a

/-- bartpy/initializers/initializer.py:20-21 `Initializer.initialize_tree`: does nothing. -/
def baseInitializeTree (t : Tree K n p) : Except PyErr (Tree K n p) := .ok t

/-- bartpy/initializers/initializer.py:23-25 `initialize_trees` on bartpy/model.py:71-78 `refreshed_trees`. -/
def BModel.initializeTrees (m : BModel K n p) (init : Tree K n p → Except PyErr (Tree K n p)) : Except PyErr (BModel K n p) :=
  match m.data.y.y with
  | none => .error .typeError
  | some y =>
    match m.startPrediction with
    | .error e => .error e
    | .ok (f, m1) =>
      match BModel.refreshLoop y (fun t (_ : Unit) => (init t).map (fun t' => ((), t', ()))) m1.trees f () with
      | .error e => .error e
      | .ok (_, f1, ts, _) => .ok { m1 with trees := ts, prediction := some f1 }

/-- `Model(data, sigma, n_trees=..., alpha=..., beta=..., k=..., initializer=...)` (bartpy/model.py:17-42). -/
def BModel.constructWith (init : Option (Tree K n p → Except PyErr (Tree K n p))) (d : Data K n p) (sigma : Sigma K) (nTrees : Nat) (alpha beta k : K) :
    Except PyErr (BModel K n p) :=
  match BModel.construct d sigma nTrees alpha beta k with
  | .error e => .error e
  | .ok m =>
    match init with
    | none => .ok m
    | some f => m.initializeTrees f

end
end Bart
