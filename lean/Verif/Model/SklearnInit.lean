import Verif.Model.Sklearn
import Verif.Model.Initializer

/-! Model of `SklearnModel` with the setting `initializer` (bartpy/sklearnmodel.py:100, 118, 163-174). The initializer is the function that its `initialize_tree` is; it is the same
for all chains. Everything else is as in `SkModel`. -/

namespace Bart
variable {K : Type} [Field K] [LinearOrder K] {n p : Nat}

namespace SkModel
variable (s : SkModel K p)

/-- bartpy/sklearnmodel.py:163-174 `_construct_model`. -/
def constructModelWith (init : Option (Tree K n p → Except PyErr (Tree K n p))) (X : Fin n → Fin p → Fl K) (y : Fin n → K) : Except PyErr (Data K n p × BModel K n p) :=
  if n = 0 ∨ p = 0 then .error .valueError
  else
    match convertData X y with
    | .error e => .error e
    | .ok d =>
      match d.y.normalizingScale with
      | .error e => .error e
      | .ok c =>
        match BModel.constructWith init d { alpha := s.sigmaA, beta := s.sigmaB, current := 1, scalingFactor := c } s.nTrees s.alpha s.beta 2 with
        | .error e => .error e
        | .ok m => .ok (d, m)

variable [MathFns K] [FloorRing K]

/-- bartpy/sklearnmodel.py:22-33 `run_chain`. -/
def runChainWith (init : Option (Tree K n p → Except PyErr (Tree K n p))) (X : Fin n → Fin p → Fl K) (y : Fin n → K) (r : Rand K) : Except PyErr (ChainOut K p) :=
  match s.constructModelWith init X y with
  | .error e => .error e
  | .ok (_, m) =>
    match m.samples s.sampleParams s.nSamples s.nBurn r with
    | .error e => .error e
    | .ok (ch, m', _) => .ok ⟨n, m', ch⟩

/-- `Parallel(...)(self.f_delayed_chains(X, y))` (bartpy/sklearnmodel.py:141, 193, 206). -/
def runChainsWith (init : Option (Tree K n p → Except PyErr (Tree K n p))) (X : Fin n → Fin p → Fl K) (y : Fin n → K) : List (Rand K) → Except PyErr (List (ChainOut K p))
  | [] => .ok []
  | r :: rs =>
    match s.runChainWith init X y r with
    | .error e => .error e
    | .ok o =>
      match runChainsWith init X y rs with
      | .error e => .error e
      | .ok os => .ok (o :: os)

/-- bartpy/sklearnmodel.py:124-145 `fit`. -/
def fitWith (init : Option (Tree K n p → Except PyErr (Tree K n p))) (X : Fin n → Fin p → Fl K) (y : Fin n → K) (rs : Nat → Rand K) : Except PyErr (SkModel K p) :=
  match s.constructModelWith init X y with
  | .error e => .error e
  | .ok (d, m) =>
    match s.runChainsWith init X y ((List.range s.nChains).map rs) with
    | .error e => .error e
    | .ok extract =>
      match combineChains extract with
      | .error e => .error e
      | .ok c => .ok { s with data := some ⟨n, d⟩, model := some ⟨n, m⟩, samples := some c, extract := some extract }

end SkModel
end Bart
