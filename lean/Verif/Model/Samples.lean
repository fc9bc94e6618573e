import Verif.Model.BartModel
import Verif.Model.Copy
import Mathlib.Algebra.Order.Floor.Defs

/-! Model of bartpy/model.py:89-91 `deep_copy_model` and bartpy/samplers/modelsampler.py:32-67 `ModelSampler.samples`. -/

namespace Bart

/-- The `Sigma` object of a stored sample: an object of its own, or the one of the live model. -/
inductive SigmaRef (K : Type) where
  | own (s : Sigma K)
  | live

/-- A stored sample: a `Model` built by `Model(None, sigma, trees)` (bartpy/model.py:15-42, 90). Tree number `j` is given by its nodes, which live in the heap of
tree number `j` of the live model. -/
structure StoredModel (K : Type) where
  alpha : K
  beta : K
  k : K
  nTrees : Nat
  sigma : SigmaRef K
  trees : List (List NodeId)

namespace BModel
variable {K : Type} [Field K] [LinearOrder K] {n p : Nat}

/-- bartpy/model.py:89-91 `deep_copy_model`. The constructor is called without `alpha`, `beta` and `k`, so these have their default values 0.95, 2, 2
(bartpy/model.py:17-25); `n_trees` is the number of trees (bartpy/model.py:41). -/
def deepCopy (m : BModel K n p) : StoredModel K × BModel K n p :=
  ({ alpha := 95 / 100, beta := 2, k := 2, nTrees := m.trees.length, sigma := .own m.sigma, trees := m.trees.map (fun t => t.deepCopy.1) },
   { m with trees := m.trees.map (fun t => t.deepCopy.2) })

/-- bartpy/model.py:84-86 `sigma` of a stored sample, read when the live model is `m`. -/
def storedSigma (m : BModel K n p) (s : StoredModel K) : Sigma K :=
  match s.sigma with
  | .own x => x
  | .live => m.sigma

/-- The trees of a stored sample, seen when the live model is `m`. -/
def storedTrees (m : BModel K n p) (s : StoredModel K) : List (Tree K n p) := List.zipWith (fun t ids => t.stored ids) m.trees s.trees

/-- bartpy/model.py:61-65 `predict(X)` of a stored sample, called when the live model is `m`. -/
def storedPredictX {q : Nat} (m : BModel K n p) (s : StoredModel K) (X : Fin q → Fin p → Fl K) : Fin q → K :=
  fun r => ((m.storedTrees s).map (fun t => t.predictX X r)).sum

end BModel

/-- bartpy/samplers/modelsampler.py:63-67: the three traces. -/
structure Chain (K : Type) (n : Nat) where
  model : List (StoredModel K)
  acceptance : List (Option K)
  predictions : List (Fin n → K)

/-- Python's `x % y` for floats with `y != 0` (no rounding). -/
def pyMod {K : Type} [Field K] [LinearOrder K] [FloorRing K] (x y : K) : K := x - y * (⌊x / y⌋ : K)

/-- The parameters of `samples`. `1 / thin` is the float computed in bartpy/samplers/modelsampler.py:49, so `thin` is its exact reciprocal; for a float given by the user this is `1 / thinInverse thin`
(Verif/Model/Double.lean), which is `thin` up to rounding. -/
structure SampleParams (K : Type) where
  pGrow : K
  pPrune : K
  thin : K
  storePredictions : Bool
  storeAcceptance : Bool

namespace BModel
variable {K : Type} [Field K] [LinearOrder K] {n p : Nat} [MathFns K] [FloorRing K]

/-- bartpy/samplers/modelsampler.py:42-43: the burn-in. -/
def burn (c : SampleParams K) : Nat → BModel K n p → Rand K → Except PyErr (BModel K n p × Rand K)
  | 0, m, r => .ok (m, r)
  | k + 1, m, r =>
    match m.sweep c.pGrow c.pPrune r with
    | .error e => .error e
    | .ok (_, m1, r1) => burn c k m1 r1

/-- bartpy/samplers/modelsampler.py:53-57: the in-sample predictions of a stored step. -/
def recordPrediction (c : SampleParams K) (m : BModel K n p) : Except PyErr (List (Fin n → K) × BModel K n p) :=
  if c.storePredictions then
    match m.predict with
    | .error e => .error e
    | .ok (f, m1) => .ok ([f], m1)
  else .ok ([], m)

/-- bartpy/samplers/modelsampler.py:51-62: the loop from `ss` on, `k` iterations left. -/
def sampleLoop (c : SampleParams K) (thinInverse : K) : Nat → Nat → BModel K n p → Rand K → Except PyErr (Chain K n × BModel K n p × Rand K)
  | 0, _, m, r => .ok (⟨[], [], []⟩, m, r)
  | k + 1, ss, m, r =>
    match m.sweep c.pGrow c.pPrune r with
    | .error e => .error e
    | .ok (mus, m1, r1) =>
      if pyMod (ss : K) thinInverse = 0 then
        match recordPrediction c m1 with
        | .error e => .error e
        | .ok (fs, m2) =>
          let q := m2.deepCopy
          match sampleLoop c thinInverse k (ss + 1) q.2 r1 with
          | .error e => .error e
          | .ok (ch, m3, r3) =>
            .ok (⟨q.1 :: ch.model, (if c.storeAcceptance then [acceptance mus] else []) ++ ch.acceptance, fs ++ ch.predictions⟩, m3, r3)
      else sampleLoop c thinInverse k (ss + 1) m1 r1

/-- bartpy/samplers/modelsampler.py:32-67 `samples`. `1. / thin` raises ZeroDivisionError for `thin = 0`, after the burn-in. -/
def samples (c : SampleParams K) (nSamples nBurn : Nat) (m : BModel K n p) (r : Rand K) : Except PyErr (Chain K n × BModel K n p × Rand K) :=
  match burn c nBurn m r with
  | .error e => .error e
  | .ok (m1, r1) =>
    if c.thin = 0 then .error .zeroDivision
    else sampleLoop c (1 / c.thin) nSamples 0 m1 r1

end BModel
end Bart
