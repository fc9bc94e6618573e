import Verif.Model.Oblivious
import Verif.Model.Sklearn

/-! Model of a fit with the oblivious tree sampler: `SklearnModel(tree_sampler=oblivious.get_tree_sampler(p_grow, p_prune))`. bartpy/sklearnmodel.py:99, 117-119 hands the tree sampler to
`SampleSchedule`, which calls its `step` for every tree (bartpy/samplers/schedule.py:50-54). All the rest is as for the default tree sampler (Verif/Model/BartModel.lean, Samples.lean,
Sklearn.lean); the definitions below differ from those only in the call of `step`, whose result is a list of mutations or `None`. -/

namespace Bart.Oblivious
open Bart
variable {K : Type} [Field K] [LinearOrder K] {n p : Nat} [MathFns K]

/-- bartpy/samplers/schedule.py:50-54 with bartpy/samplers/oblivioustrees/treemutation.py:40-53 (`sample`, `step`): what happens to one tree in a sweep. -/
def treeBody (m : Params K) (pGrow pPrune : K) (t : Tree K n p) (r : Rand K) : Except PyErr (Option (List TreeMutation) × Tree K n p × Rand K) :=
  match treeStep m pGrow pPrune t r with
  | .error e => .error e
  | .ok (mu, t1, r1) =>
    match Sampler.leafSteps m t1.leafNodes t1 r1 with
    | .error e => .error e
    | .ok (t2, r2) => .ok (mu, t2, r2)

/-- bartpy/model.py:71-78 `refreshed_trees` consumed by bartpy/samplers/schedule.py:50-54: all trees of one sweep. -/
def sweepTrees (m : BModel K n p) (pGrow pPrune : K) (r : Rand K) : Except PyErr (List (Option (List TreeMutation)) × BModel K n p × Rand K) :=
  match m.data.y.y with
  | none => .error .typeError
  | some y =>
    match m.startPrediction with
    | .error e => .error e
    | .ok (f, m1) =>
      match BModel.refreshLoop y (treeBody m.params pGrow pPrune) m1.trees f r with
      | .error e => .error e
      | .ok (mus, f1, ts, r1) => .ok (mus, { m1 with trees := ts, prediction := some f1 }, r1)

/-- bartpy/samplers/modelsampler.py:23-30 `ModelSampler.step`: one Gibbs sweep. -/
def sweep (m : BModel K n p) (pGrow pPrune : K) (r : Rand K) : Except PyErr (List (Option (List TreeMutation)) × BModel K n p × Rand K) :=
  match sweepTrees m pGrow pPrune r with
  | .error e => .error e
  | .ok (mus, m1, r1) =>
    match m1.sigmaStep r1 with
    | .error e => .error e
    | .ok (m2, r2) => .ok (mus, m2, r2)

/-- bartpy/samplers/modelsampler.py:30 with bartpy/trace.py:12, 20-21 (`x is not None`; an empty list of mutations is not `None`): the share of trees with an accepted proposal. -/
def acceptance (mus : List (Option (List TreeMutation))) : Option K :=
  if mus = [] then none else some (((mus.countP Option.isSome : Nat) : K) / (mus.length : K))

variable [FloorRing K]

/-- bartpy/samplers/modelsampler.py:42-43: the burn-in. -/
def burn (c : SampleParams K) : Nat → BModel K n p → Rand K → Except PyErr (BModel K n p × Rand K)
  | 0, m, r => .ok (m, r)
  | k + 1, m, r =>
    match sweep m c.pGrow c.pPrune r with
    | .error e => .error e
    | .ok (_, m1, r1) => burn c k m1 r1

/-- bartpy/samplers/modelsampler.py:51-62: the loop from `ss` on, `k` iterations left. -/
def sampleLoop (c : SampleParams K) (thinInverse : K) : Nat → Nat → BModel K n p → Rand K → Except PyErr (Chain K n × BModel K n p × Rand K)
  | 0, _, m, r => .ok (⟨[], [], []⟩, m, r)
  | k + 1, ss, m, r =>
    match sweep m c.pGrow c.pPrune r with
    | .error e => .error e
    | .ok (mus, m1, r1) =>
      if pyMod (ss : K) thinInverse = 0 then
        match BModel.recordPrediction c m1 with
        | .error e => .error e
        | .ok (fs, m2) =>
          let q := m2.deepCopy
          match sampleLoop c thinInverse k (ss + 1) q.2 r1 with
          | .error e => .error e
          | .ok (ch, m3, r3) =>
            .ok (⟨q.1 :: ch.model, (if c.storeAcceptance then [acceptance mus] else []) ++ ch.acceptance, fs ++ ch.predictions⟩, m3, r3)
      else sampleLoop c thinInverse k (ss + 1) m1 r1

/-- bartpy/samplers/modelsampler.py:32-67 `samples`. -/
def samples (c : SampleParams K) (nSamples nBurn : Nat) (m : BModel K n p) (r : Rand K) : Except PyErr (Chain K n × BModel K n p × Rand K) :=
  match burn c nBurn m r with
  | .error e => .error e
  | .ok (m1, r1) =>
    if c.thin = 0 then .error .zeroDivision
    else sampleLoop c (1 / c.thin) nSamples 0 m1 r1

/-- bartpy/sklearnmodel.py:22-33 `run_chain`. -/
def runChain (s : SkModel K p) (X : Fin n → Fin p → Fl K) (y : Fin n → K) (r : Rand K) : Except PyErr (ChainOut K p) :=
  match s.constructModel X y with
  | .error e => .error e
  | .ok (_, m) =>
    match samples s.sampleParams s.nSamples s.nBurn m r with
    | .error e => .error e
    | .ok (ch, m', _) => .ok ⟨n, m', ch⟩

/-- `Parallel(...)(self.f_delayed_chains(X, y))` (bartpy/sklearnmodel.py:141), one chain for each entry of the list of draws. -/
def runChains (s : SkModel K p) (X : Fin n → Fin p → Fl K) (y : Fin n → K) : List (Rand K) → Except PyErr (List (ChainOut K p))
  | [] => .ok []
  | r :: rs =>
    match runChain s X y r with
    | .error e => .error e
    | .ok o =>
      match runChains s X y rs with
      | .error e => .error e
      | .ok os => .ok (o :: os)

/-- bartpy/sklearnmodel.py:124-145 `fit` of a `SklearnModel` with the oblivious tree sampler; `pGrow` and `pPrune` of `s` are those of that sampler. -/
def fit (s : SkModel K p) (X : Fin n → Fin p → Fl K) (y : Fin n → K) (rs : Nat → Rand K) : Except PyErr (SkModel K p) :=
  match s.constructModel X y with
  | .error e => .error e
  | .ok (d, m) =>
    match runChains s X y ((List.range s.nChains).map rs) with
    | .error e => .error e
    | .ok extract =>
      match combineChains extract with
      | .error e => .error e
      | .ok c => .ok { s with data := some ⟨n, d⟩, model := some ⟨n, m⟩, samples := some c, extract := some extract }

end Bart.Oblivious
