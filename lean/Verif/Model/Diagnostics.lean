import Verif.Model.Features

/-! Model of bartpy/diagnostics/{residuals,sampling,sigma,trees,diagnostics}.py and bartpy/plotting.py. What is modelled is the data handed to the plotting library and the exceptions raised before; the drawing itself
(matplotlib, seaborn, statsmodels) is not. -/

namespace Bart
variable {K : Type} [Field K] [LinearOrder K] {n p : Nat}

/-- bartpy/model.py:84-86, bartpy/sigma.py:30-31: `x.sigma.current_value()` for an entry of `model_samples`. -/
def Sample.sigmaValue (x : Sample K p) : K := (x.live.storedSigma x.stored).current

/-- bartpy/diagnostics/sigma.py:6-14 `plot_sigma_convergence`: the curve. Iterating over `None` is a TypeError. -/
def plotSigmaConvergence (s : SkModel K p) : Except PyErr (List K) :=
  match s.samples with
  | none => .error .typeError
  | some c => .ok (c.models.map Sample.sigmaValue)

/-- bartpy/diagnostics/trees.py:12-14: the list `model_depths` of one sample. -/
def Sample.depths (x : Sample K p) : List Nat := x.trees.flatMap (fun t => t.nodes.map (fun i => (t.heap.node i).depth))

/-- bartpy/diagnostics/trees.py:15-17: minimum, mean and maximum of `model_depths`; `np.min` of an empty list is a ValueError. -/
def depthSummary (depths : List Nat) : Except PyErr (Nat × K × Nat) :=
  match depths.min?, depths.max? with
  | some lo, some hi => .ok (lo, (depths.map (fun d : Nat => (d : K))).sum / (depths.length : K), hi)
  | _, _ => .error .valueError

/-- bartpy/diagnostics/trees.py:7-26 `plot_tree_depth`: the points of the three curves "Min Depth", "Mean Depth" and "Max Depth". -/
def plotTreeDepth (s : SkModel K p) : Except PyErr (List (Nat × K × Nat)) :=
  match s.samples with
  | none => .error .typeError
  | some c => c.models.mapM (fun x => depthSummary x.depths)

/-- bartpy/diagnostics/sampling.py:6-15 `plot_tree_mutation_acceptance_rate`: the curve (`none` stands for NaN). The attribute `_acceptance_trace` is first set by `fit` (bartpy/sklearnmodel.py:122, 144), before
that reading it is an AttributeError. -/
def plotAcceptanceRate (s : SkModel K p) : Except PyErr (List (Option K)) :=
  match s.samples with
  | none => .error .attributeError
  | some c => .ok c.acceptance

/-- `model.data.X.values` (bartpy/data.py:85-87, 328-330). -/
def SkModel.trainingX (s : SkModel K p) : Except PyErr (Covariates K p) :=
  match s.data with
  | none => .error .attributeError
  | some ⟨q, d⟩ => .ok ⟨q, d.X.X⟩

/-- bartpy/diagnostics/residuals.py:8-14 `plot_qq`: the sample whose quantiles are drawn. -/
def plotQq (s : SkModel K p) : Except PyErr (List K) :=
  match s.trainingX with
  | .error e => .error e
  | .ok X => s.residuals (some X) none

/-- bartpy/diagnostics/residuals.py:17-24 `plot_homoskedasity_diagnostics`: the two coordinates of the points. -/
def plotHomoskedasity (s : SkModel K p) : Except PyErr (List K × List K) :=
  match s.trainingX with
  | .error e => .error e
  | .ok X =>
    match s.predict (some X) with
    | .error e => .error e
    | .ok f =>
      match s.residuals (some X) none with
      | .error e => .error e
      | .ok l => .ok (f, l)

/-- bartpy/diagnostics/diagnostics.py:10-18 `plot_diagnostics`: the five plots in order. -/
def plotDiagnostics (s : SkModel K p) : Except PyErr (List K × List (Nat × K × Nat) × List K × (List K × List K) × List (Option K)) :=
  match plotQq s with
  | .error e => .error e
  | .ok a =>
    match plotTreeDepth s with
    | .error e => .error e
    | .ok b =>
      match plotSigmaConvergence s with
      | .error e => .error e
      | .ok c =>
        match plotHomoskedasity s with
        | .error e => .error e
        | .ok d =>
          match plotAcceptanceRate s with
          | .error e => .error e
          | .ok e => .ok (a, b, c, d, e)

/-- The attributes of a `Data` object (bartpy/data.py:306-345): those set by `__init__`, the properties and the methods. -/
def dataAttributes : List String := ["_mask", "_n_obsv", "_X", "_y", "y", "X", "mask", "update_y", "__add__"]

/-- `model.data.unnormalized_y` in bartpy/plotting.py:7, 12, for a class `Data` with the given attributes: reading an attribute that the class does not have is an AttributeError. (The target of the data
has this attribute, the data do not; if they had, it would be this array.) -/
def SkModel.dataUnnormalizedY (attributes : List String) (s : SkModel K p) : Except PyErr (List K) :=
  match s.data with
  | none => .error .attributeError
  | some ⟨_, d⟩ =>
    if "unnormalized_y" ∈ attributes then
      match d.y.unnormalizedY with
      | .error e => .error e
      | .ok y => .ok (List.ofFn y)
    else .error .attributeError

/-- bartpy/plotting.py:6-8: the body of `plot_residuals`, for a class `Data` with the given attributes. -/
def plotResidualsWith (attributes : List String) (s : SkModel K p) : Except PyErr (List K) :=
  match s.dataUnnormalizedY attributes with
  | .error e => .error e
  | .ok y =>
    match s.predict none with
    | .error e => .error e
    | .ok f => npSub y f

/-- bartpy/plotting.py:6-8 `plot_residuals`: the curve. -/
def plotResiduals (s : SkModel K p) : Except PyErr (List K) := plotResidualsWith dataAttributes s

/-- bartpy/plotting.py:11-14: the body of `plot_modelled_against_actual`, for a class `Data` with the given attributes. -/
def plotModelledAgainstActualWith (attributes : List String) (s : SkModel K p) : Except PyErr (List K × List K) :=
  match s.dataUnnormalizedY attributes with
  | .error e => .error e
  | .ok y =>
    match s.predict none with
    | .error e => .error e
    | .ok f => .ok (y, f)

/-- bartpy/plotting.py:11-14 `plot_modelled_against_actual`: the two curves. -/
def plotModelledAgainstActual (s : SkModel K p) : Except PyErr (List K × List K) := plotModelledAgainstActualWith dataAttributes s

/-- bartpy/model.py:53-54 `unnormalized_residuals`. -/
def BModel.unnormalizedResiduals (m : BModel K n p) : Except PyErr ((Fin n → K) × BModel K n p) :=
  match m.data.y.unnormalizedY with
  | .error e => .error e
  | .ok y =>
    match m.predict with
    | .error e => .error e
    | .ok (f, m1) =>
      match m.data.y.unnormalizeY f with
      | .error e => .error e
      | .ok g => .ok (fun r => y r - g r, m1)

end Bart
