import Verif.Model.Samplers

/-! Model of bartpy/model.py, bartpy/sigma.py, bartpy/samplers/schedule.py (one Gibbs sweep), bartpy/samplers/modelsampler.py. -/

namespace Bart

/-- bartpy/sigma.py:21-25 `Sigma`. -/
structure Sigma (K : Type) where
  alpha : K
  beta : K
  current : K
  scalingFactor : K

/-- bartpy/sigma.py:33-34 `current_unnormalized_value`. -/
def Sigma.unnormalized {K : Type} [Field K] (s : Sigma K) : K := s.current * s.scalingFactor

/-- bartpy/model.py:15-42 `Model`. -/
structure BModel (K : Type) (n p : Nat) where
  data : Data K n p
  alpha : K
  beta : K
  k : K
  nTrees : Nat
  sigma : Sigma K
  trees : List (Tree K n p)
  prediction : Option (Fin n → K)

namespace BModel
variable {K : Type} [Field K] [LinearOrder K] {n p : Nat}

/-- What the samplers read from the model. -/
def params (m : BModel K n p) : Params K :=
  { alpha := m.alpha, beta := m.beta, k := m.k, nTrees := m.nTrees, sigma := m.sigma.current }

/-- bartpy/model.py:44-48 `initialize_trees`: every tree gets `update_y(update_y(y / n_trees))`; the inner call returns `None`, so the
outer one sets the target to `None`. -/
def initTree (d : Data K n p) (nTrees : Nat) : Except PyErr (Tree K n p) :=
  match d.y.y with
  | none => .error .typeError
  | some y =>
    match (Tree.ofData d).updateY (some (fun r => y r / (nTrees : K))) with
    | .error e => .error e
    | .ok t1 => t1.updateY none

/-- `Model(data, sigma, n_trees=..., alpha=..., beta=..., k=..., initializer=None)` (bartpy/model.py:17-42). -/
def construct (d : Data K n p) (sigma : Sigma K) (nTrees : Nat) (alpha beta k : K) : Except PyErr (BModel K n p) :=
  match initTree d nTrees with
  | .error e => .error e
  | .ok t => .ok { data := d, alpha := alpha, beta := beta, k := k, nTrees := nTrees, sigma := sigma,
                   trees := List.replicate nTrees t, prediction := none }

/-- The list `[tree.predict() for tree in self.trees]` and its sum over the trees (bartpy/model.py:59): arrays of a wrong length cannot be
added (ValueError), `None` neither (TypeError). The sum over no trees is 0. -/
def predictTrees : List (Tree K n p) → Except PyErr ((Fin n → K) × List (Tree K n p))
  | [] => .ok (fun _ => 0, [])
  | t :: ts =>
    match t.predict with
    | .error e => .error e
    | .ok (.none, _) => .error .typeError
    | .ok (.wrong _, _) => .error .valueError
    | .ok (.sized f, t1) =>
      match predictTrees ts with
      | .error e => .error e
      | .ok (g, ts1) => .ok (fun r => f r + g r, t1 :: ts1)

/-- bartpy/model.py:56-59 `predict()`. -/
def predict (m : BModel K n p) : Except PyErr ((Fin n → K) × BModel K n p) :=
  match predictTrees m.trees with
  | .error e => .error e
  | .ok (f, ts) => .ok (f, { m with trees := ts })

/-- bartpy/model.py:61-65 `predict(X)`. -/
def predictX {q : Nat} (m : BModel K n p) (X : Fin q → Fin p → Fl K) : Fin q → K :=
  fun r => (m.trees.map (fun t => t.predictX X r)).sum

/-- bartpy/model.py:50-51 `residuals()`. -/
def residuals (m : BModel K n p) : Except PyErr ((Fin n → K) × BModel K n p) :=
  match m.predict with
  | .error e => .error e
  | .ok (f, m1) =>
    match m.data.y.y with
    | none => .error .typeError
    | some y => .ok (fun r => y r - f r, m1)

/-- bartpy/model.py:72-73: the running prediction at the beginning of a sweep. -/
def startPrediction (m : BModel K n p) : Except PyErr ((Fin n → K) × BModel K n p) :=
  match m.prediction with
  | some f => .ok (f, m)
  | none => m.predict

/-- bartpy/model.py:75-76: the part of an iteration of `refreshed_trees` before the `yield`. -/
def refreshBegin (y : Fin n → K) (pred : Fin n → K) (t : Tree K n p) : Except PyErr ((Fin n → K) × Tree K n p) :=
  match t.predict with
  | .error e => .error e
  | .ok (.none, _) => .error .typeError
  | .ok (.wrong _, _) => .error .valueError
  | .ok (.sized f, t1) =>
    let pred1 := fun r => pred r - f r
    match t1.updateY (some (fun r => y r - pred1 r)) with
    | .error e => .error e
    | .ok t2 => .ok (pred1, t2)

/-- bartpy/model.py:78: the part after the `yield`. -/
def refreshEnd (pred : Fin n → K) (t : Tree K n p) : Except PyErr ((Fin n → K) × Tree K n p) :=
  match t.predict with
  | .error e => .error e
  | .ok (.none, _) => .error .typeError
  | .ok (.wrong _, _) => .error .valueError
  | .ok (.sized f, t1) => .ok (fun r => pred r + f r, t1)

/-- The loop bartpy/model.py:74-78 with `body` for what the consumer of the generator does between two `next` calls
(its result `α` is collected). -/
def refreshLoop {S α : Type} (y : Fin n → K) (body : Tree K n p → S → Except PyErr (α × Tree K n p × S)) :
    List (Tree K n p) → (Fin n → K) → S → Except PyErr (List α × (Fin n → K) × List (Tree K n p) × S)
  | [], pred, s => .ok ([], pred, [], s)
  | t :: ts, pred, s =>
    match refreshBegin y pred t with
    | .error e => .error e
    | .ok (pred1, t1) =>
      match body t1 s with
      | .error e => .error e
      | .ok (a, t2, s1) =>
        match refreshEnd pred1 t2 with
        | .error e => .error e
        | .ok (pred2, t3) =>
          match refreshLoop y body ts pred2 s1 with
          | .error e => .error e
          | .ok (as, pred3, ts1, s2) => .ok (a :: as, pred3, t3 :: ts1, s2)

variable [MathFns K]

/-- bartpy/samplers/schedule.py:50-54: what happens to one tree in a sweep; the result is the mutation (or `none`). -/
def treeBody (m : Params K) (pGrow pPrune : K) (t : Tree K n p) (r : Rand K) :
    Except PyErr (Option TreeMutation × Tree K n p × Rand K) :=
  match Sampler.treeStep m pGrow pPrune t r with
  | .error e => .error e
  | .ok (mu, t1, r1) =>
    match Sampler.leafSteps m t1.leafNodes t1 r1 with
    | .error e => .error e
    | .ok (t2, r2) => .ok (mu, t2, r2)

/-- `1. / posterior_beta` etc. of bartpy/samplers/sigma.py:17-19: shape and scale handed to `np.random.gamma`. -/
def sigmaShape (m : BModel K n p) : K := m.sigma.alpha + ((m.data.X.nObsv : Int) : K) / 2
def sigmaRate (m : BModel K n p) (res : Fin n → K) : K := m.sigma.beta + (1/2) * ∑ r, res r * res r

/-- bartpy/samplers/sigma.py:10-20 `SigmaSampler.step`. `np.random.gamma` raises ValueError for a negative shape or scale. -/
def sigmaStep (m : BModel K n p) (r : Rand K) : Except PyErr (BModel K n p × Rand K) :=
  match m.residuals with
  | .error e => .error e
  | .ok (res, m1) =>
    if sigmaShape m < 0 ∨ sigmaRate m res < 0 then .error .valueError
    else
      match r.gammas with
      | [] => .error .outOfDraws
      | g :: gs =>
        match (MathFns.pow g (-(1/2))).toFinite with
        | .error e => .error e
        | .ok v => .ok ({ m1 with sigma := { m1.sigma with current := v } }, { r with gammas := gs })

/-- bartpy/model.py:71-78 `refreshed_trees` consumed by bartpy/samplers/schedule.py:50-54: all trees of one sweep. -/
def sweepTrees (m : BModel K n p) (pGrow pPrune : K) (r : Rand K) :
    Except PyErr (List (Option TreeMutation) × BModel K n p × Rand K) :=
  match m.data.y.y with
  | none => .error .typeError
  | some y =>
    match m.startPrediction with
    | .error e => .error e
    | .ok (f, m1) =>
      match refreshLoop y (treeBody m.params pGrow pPrune) m1.trees f r with
      | .error e => .error e
      | .ok (mus, f1, ts, r1) => .ok (mus, { m1 with trees := ts, prediction := some f1 }, r1)

/-- bartpy/samplers/modelsampler.py:23-30 `ModelSampler.step` with the default schedule: one Gibbs sweep. -/
def sweep (m : BModel K n p) (pGrow pPrune : K) (r : Rand K) :
    Except PyErr (List (Option TreeMutation) × BModel K n p × Rand K) :=
  match m.sweepTrees pGrow pPrune r with
  | .error e => .error e
  | .ok (mus, m1, r1) =>
    match m1.sigmaStep r1 with
    | .error e => .error e
    | .ok (m2, r2) => .ok (mus, m2, r2)

/-- bartpy/samplers/modelsampler.py:30: the mean of the acceptance flags of the trees (`None` when there is no tree: the key is absent). -/
def acceptance (mus : List (Option TreeMutation)) : Option K :=
  if mus = [] then none else some (((mus.countP Option.isSome : Nat) : K) / (mus.length : K))

end BModel
end Bart
