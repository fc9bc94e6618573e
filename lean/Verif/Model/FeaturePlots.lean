import Verif.Model.Features

/-! Model of the plots of bartpy/diagnostics/features.py and of the methods `plot` of bartpy/features/featureselection.py. What is modelled is the data handed to the plotting library and the exceptions raised before; the
drawing itself (matplotlib, seaborn) is not. -/

namespace Bart
variable {K : Type} [Field K] [LinearOrder K] {n p : Nat}

/-- bartpy/diagnostics/features.py:38-51 `plot_feature_split_proportions`: position, label and length of the bars. -/
def plotFeatureSplitProportions (s : SkModel K p) : Except PyErr (List (Nat × Fin p × K)) :=
  match s.featureSplitProportions none with
  | .error e => .error e
  | .ok d => .ok ((List.range d.length).zip (d.insertionSort (fun a b => a.1 ≤ b.1)))

/-- bartpy/diagnostics/features.py:95-103 `plot_null_feature_importance_distributions`: the data frame with the columns "variable" and "p" given to the box plot. `pd.DataFrame` raises ValueError for lists of different
lengths; `unstack` puts the columns one after the other. -/
def plotNullDistributions {κ : Type} (null : List (κ × List K)) : Except PyErr (List (κ × K)) :=
  if null.all (fun x => null.all (fun y => x.2.length == y.2.length)) then .ok (null.flatMap (fun x => x.2.map (fun v => (x.1, v)))) else .error .valueError

/-- bartpy/diagnostics/features.py:211-222 `plot_feature_proportions_against_thresholds`: the bars, the green points and the red points. -/
def plotAgainstThresholds {κ : Type} [LinearOrder κ] (props thresholds : List (κ × K)) : Except PyErr (List (κ × K) × List (κ × K) × List (κ × K)) :=
  match partitionFeatures props thresholds with
  | .error e => .error e
  | .ok (passed, failed) =>
    .ok ((Dict.keys thresholds).zip ((thresholds.map Prod.snd).map (fun x => x * 100)), (Dict.keys passed).zip ((passed.map Prod.snd).map (fun x => x * 100)),
      (Dict.keys failed).zip ((failed.map Prod.snd).map (fun x => x * 100)))

/-- bartpy/features/featureselection.py:31-33 `SelectSplitProportionThreshold.plot`; `s` is the model of the selector. -/
def selectProportionPlot (s : SkModel K p) : Except PyErr (List (Nat × Fin p × K)) := plotFeatureSplitProportions s

/-- bartpy/features/featureselection.py:67-71 `SelectNullDistributionThreshold.plot`. -/
def NullSelector.plot (f : NullSelector K p) : Except PyErr ((List (Fin p × K) × List (Fin p × K) × List (Fin p × K)) × List (Fin p × K)) :=
  match plotAgainstThresholds f.featureProportions f.thresholds with
  | .error e => .error e
  | .ok a =>
    match plotNullDistributions f.nullDistribution with
    | .error e => .error e
    | .ok b => .ok (a, b)

end Bart
