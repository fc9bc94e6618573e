import Verif.Spec.Copies
import Verif.Model.Features

/-! The share of a column in the splits of a fit (specification). -/

namespace Bart.Spec
variable {K : Type} [Field K] [LinearOrder K] {p : Nat}

/-- What `feature_split_proportions` gives for column `j` after a fit. -/
def splitShareOf (f : Except PyErr (SkModel K p)) (j : Fin p) : Except PyErr K :=
  match f with
  | .error e => .error e
  | .ok f => match f.featureSplitProportions (some [j]) with
    | .error e => .error e
    | .ok d => match Dict.get? d j with
      | none => .error .keyError
      | some v => .ok v

/-- The share as a number, 0 if there is none. -/
def shareNumber (e : Except PyErr K) : K :=
  match e with
  | .error _ => 0
  | .ok v => v

end Bart.Spec
